import Verif.Lemmas.Same
import Verif.Spec.Toy

/-!
# Properties C06-C09, C49: roots
-/

namespace Pymt
namespace Props

/-! ### C06: the root depends only on the contents -/

/-- C06: histories that leave the same contents leave the same root hash, and the same `root()` unless
the contents are empty (see `C49_false` for that case). -/
theorem C06_root {E : Env} {secure : Bool} {ops ops' : List Op}
    (h : Valid E secure ops (ops'.map Op.key)) (h' : Valid E secure ops' (ops.map Op.key))
    (hc : contents ops = contents ops') :
    (MPT.after E secure ops).rootHash E = (MPT.after E secure ops').rootHash E ∧
    (∀ k, contents ops k ≠ none → (MPT.after E secure ops).root = (MPT.after E secure ops').root) := by
  have he := eff_congr h.keys hc
  obtain ⟨a, h1, h2, _, h4, _⟩ := Inv.same h.inv (he ▸ h'.inv)
  refine ⟨by rw [h1.rootHash, h2.rootHash], fun k hk => h1.root_eq h2 ?_⟩
  rintro rfl
  cases hm : contents ops k with
  | none => exact hk hm
  | some v =>
    have : eff E secure ops (effective E secure k) = some v := by
      rw [eff_eq h.keys (List.mem_append_right _ (contents_some_mem hm)), hm]
    rw [← h4] at this
    simp [T.lookup] at this

/-- C06, further: such tries cannot be told apart by `contains` and `get`. -/
theorem C06_answers {E : Env} {secure : Bool} {ops ops' : List Op}
    (h : Valid E secure ops (ops'.map Op.key)) (h' : Valid E secure ops' (ops.map Op.key))
    (hc : contents ops = contents ops') {k : Bytes} (hf : Fits E secure k) :
    (MPT.after E secure ops).contains E k = (MPT.after E secure ops').contains E k ∧
    ∀ v, (MPT.after E secure ops).get E k = .ok v ↔ (MPT.after E secure ops').get E k = .ok v := by
  have he := eff_congr h.keys hc
  obtain ⟨a, h1, h2, _⟩ := Inv.same h.inv (he ▸ h'.inv)
  exact h1.observe h2 (by simp [after_secure]) h.log h'.log (by simpa [after_secure] using hf)

/-- Two different histories with the same contents: other order, overwrites, a deletion, a failing
deletion. -/
example : ∃ ops ops' : List Op, ops ≠ ops' ∧ contents ops = contents ops' ∧
    contents ops [0x12] ≠ none ∧
    Valid toyEnv false ops (ops'.map Op.key) ∧ Valid toyEnv false ops' (ops.map Op.key) := by
  refine ⟨[.update [0x12] (bigValue 1), .update [0x12, 0x34] [5]],
    [.update [0x12, 0x34] [6], .update [0x77] [1], .update [0x12] (bigValue 1), .delete [0x77],
      .delete [0x78], .update [0x12, 0x34] [5]],
    by decide, ?_, by decide +kernel, valid_of (by decide +kernel), valid_of (by decide +kernel)⟩
  funext k
  simp only [contents, contentsFrom, List.foldl_cons, List.foldl_nil, Op.apply]
  by_cases h1 : k = [0x12, 0x34]
  · simp [h1]
  · by_cases h2 : k = [0x12]
    · simp [h2]
    · simp [h1, h2]

/-! ### C07: the root commits to the contents -/

/-- C07: equal root hashes mean equal contents, unless a collision occurred among the byte strings
hashed in the two histories. -/
theorem C07_commit {E : Env} {secure : Bool} {ops ops' : List Op}
    (h : Valid E secure ops (ops'.map Op.key)) (h' : Valid E secure ops' (ops.map Op.key))
    (hcoll : CollFree E (Item.encode (.str []) ::
      (hashed (MPT.after E secure ops) ++ hashed (MPT.after E secure ops'))))
    (hr : (MPT.after E secure ops).rootHash E = (MPT.after E secure ops').rootHash E) :
    contents ops = contents ops' := by
  obtain ⟨a, h1, _, h3, _⟩ := h.inv
  obtain ⟨b, g1, _, g3, _⟩ := h'.inv
  have hab := h1.of_rootHash g1 hcoll h.log h'.log hr
  subst hab
  have hk' : secure = true → CollFree E (ops.map Op.key ++ ops'.map Op.key) := h'.keys
  funext k
  cases hm : contents ops k with
  | some v =>
    have hmem := contents_some_mem hm
    rw [← eff_eq (E := E) hk' (List.mem_append_left _ hmem), ← g3, h3,
      eff_eq h.keys (List.mem_append_right _ hmem), hm]
  | none =>
    cases hm' : contents ops' k with
    | none => rfl
    | some v =>
      have hmem := contents_some_mem hm'
      rw [← eff_eq (E := E) h.keys (List.mem_append_left _ hmem), ← h3, g3,
        eff_eq hk' (List.mem_append_right _ hmem), hm'] at hm
      exact hm.symm

/-- The assumptions can be met by histories with different roots as well as by equal ones. -/
example : Valid toyEnv false sampleOps ([Op.update [0x12] [1]].map Op.key) ∧
    Valid toyEnv false [Op.update [0x12] [1]] (sampleOps.map Op.key) ∧
    CollFree toyEnv (Item.encode (.str []) ::
      (hashed (MPT.after toyEnv false sampleOps) ++ hashed (MPT.after toyEnv false [Op.update [0x12] [1]]))) :=
  ⟨valid_of (by decide +kernel), valid_of (by decide +kernel), collFree_of (by decide +kernel)⟩

/-! ### C08: delete undoes update -/

/-- C08. -/
theorem C08_undo {E : Env} {secure : Bool} {ops : List Op} {k v : Bytes}
    (h : Valid E secure (ops ++ [.update k v, .delete k]) []) (hk : contents ops k = none) :
    (MPT.after E secure (ops ++ [.update k v, .delete k])).rootHash E =
      (MPT.after E secure ops).rootHash E := by
  have hc : contents (ops ++ [.update k v, .delete k]) = contents ops := by
    rw [contents_append]
    funext k'
    simp only [contentsFrom, List.foldl_cons, List.foldl_nil, Op.apply]
    by_cases e : k' = k
    · simp [e, hk]
    · simp [e]
  have hcut := h.cut
  refine (C06_root ?_ ?_ hc).1
  · refine ⟨h.empties, h.fits, ?_, h.log, ?_⟩
    · intro k0 h0
      obtain ⟨op, ho, rfl⟩ := List.mem_map.1 h0
      exact h.fits op (List.mem_append_left _ ho)
    · intro hs
      refine (h.keys hs).mono ?_
      intro a ha
      simp only [List.nil_append, List.map_append, List.mem_append] at ha ⊢
      rcases ha with ha | ha
      · exact .inl ha
      · exact ha
  · refine ⟨hcut.empties, hcut.fits, ?_, hcut.log, ?_⟩
    · intro k0 h0
      obtain ⟨op, ho, rfl⟩ := List.mem_map.1 h0
      exact h.fits op ho
    · intro hs
      refine (h.keys hs).mono ?_
      intro a ha
      simp only [List.nil_append, List.map_append, List.mem_append] at ha ⊢
      rcases ha with ha | ha
      · exact ha
      · exact .inl ha

example : Valid toyEnv false (sampleOps ++ [.update [0x12, 0x35] (bigValue 4), .delete [0x12, 0x35]]) [] ∧
    contents sampleOps [0x12, 0x35] = none :=
  ⟨valid_of (by decide +kernel), by decide +kernel⟩

/-! ### C09: an emptied trie is a new trie -/

/-- C09: the root hash is that of a new trie, and nothing is in it. -/
theorem C09_emptied {E : Env} {secure : Bool} {ops : List Op} {k : Bytes}
    (h : Valid E secure ops [k]) (hc : ∀ k, contents ops k = none) :
    (MPT.after E secure ops).rootHash E = (MPT.new E secure).rootHash E ∧
    (MPT.after E secure ops).contains E k = .ok false ∧
    ∃ e, (MPT.after E secure ops).get E k = .error e := by
  obtain ⟨a, h1, h2, h3, h4⟩ := h.inv
  have hn : a = .empty := by
    refine canon_empty h2 fun p => ?_
    cases hp : T.lookup a p with
    | none => rfl
    | some v =>
      obtain ⟨k', rfl⟩ := h4 p v hp
      rw [h3] at hp
      obtain ⟨k0, hk0, rfl⟩ := eff_some_mem hp
      rw [eff_eq h.keys (List.mem_append_right _ hk0), hc] at hp
      simp at hp
  subst hn
  obtain ⟨b, g1, g2, g3, _⟩ := Inv.new E secure
  have hb : b = .empty := by
    refine canon_empty g2 fun p => ?_
    cases hp : T.lookup b p with
    | none => rfl
    | some v =>
      obtain ⟨k', rfl⟩ := ‹∀ p v, T.lookup b p = some v → _› p v hp
      rw [g3] at hp
      simp at hp
  subst hb
  refine ⟨by rw [h1.rootHash, g1.rootHash], ?_, h1.get_empty h.log k⟩
  rw [h1.contains h.log (fits_nibs (h.fit (by simp)))]
  rfl

/-- C09: every continuation behaves as from a new trie. -/
theorem C09_continue {E : Env} {secure : Bool} {ops more : List Op}
    (h : Valid E secure (ops ++ more) []) (h' : Valid E secure more []) (hc : ∀ k, contents ops k = none) :
    (MPT.after E secure (ops ++ more)).rootHash E = (MPT.after E secure more).rootHash E ∧
    ∀ k, Fits E secure k →
      (MPT.after E secure (ops ++ more)).contains E k = (MPT.after E secure more).contains E k ∧
      ∀ v, (MPT.after E secure (ops ++ more)).get E k = .ok v ↔ (MPT.after E secure more).get E k = .ok v := by
  have he : contents (ops ++ more) = contents more := by
    rw [contents_append, show contents ops = fun _ => none from funext hc]; rfl
  have v1 : Valid E secure (ops ++ more) (more.map Op.key) := by
    refine ⟨h.empties, h.fits, ?_, h.log, ?_⟩
    · intro k0 h0
      obtain ⟨op, ho, rfl⟩ := List.mem_map.1 h0
      exact h.fits op (List.mem_append_right _ ho)
    · intro hs
      refine (h.keys hs).mono ?_
      intro a ha
      simp only [List.nil_append, List.map_append, List.mem_append] at ha ⊢
      rcases ha with ha | ha
      · exact .inr ha
      · exact ha
  have v2 : Valid E secure more ((ops ++ more).map Op.key) := by
    refine ⟨h'.empties, h'.fits, ?_, h'.log, ?_⟩
    · intro k0 h0
      obtain ⟨op, ho, rfl⟩ := List.mem_map.1 h0
      exact h.fits op ho
    · intro hs
      refine (h.keys hs).mono ?_
      intro a ha
      simp only [List.nil_append, List.map_append, List.mem_append] at ha ⊢
      rcases ha with ha | ha
      · exact ha
      · exact .inr ha
  exact ⟨(C06_root v1 v2 he).1, fun k hf => C06_answers v1 v2 he hf⟩

example : ∃ ops : List Op, ops.length = 4 ∧ (∀ k, contents ops k = none) ∧
    Valid toyEnv false ops [[0x12]] ∧ Valid toyEnv false (ops ++ sampleOps) [] ∧
    Valid toyEnv false sampleOps [] := by
  refine ⟨[.update [0x12] (bigValue 1), .update [0x12, 0x34] [5], .delete [0x12], .delete [0x12, 0x34]],
    rfl, ?_, valid_of (by decide +kernel), valid_of (by decide +kernel), valid_of (by decide +kernel)⟩
  intro k
  simp only [contents, contentsFrom, List.foldl_cons, List.foldl_nil, Op.apply]
  by_cases h1 : k = [0x12, 0x34]
  · simp [h1]
  · by_cases h2 : k = [0x12]
    · simp [h2]
    · simp [h1, h2]

/-! ### C49: root() of an empty trie -/

/-- The full statement of C49: `root()` of a trie without keys is None, as its documentation says
(`/repo/src/pymt/mpt.py:109-118`). -/
def C49 : Prop := ∀ (E : Env) (secure : Bool) (ops : List Op), Valid E secure ops [] →
  (∀ k, contents ops k = none) → (MPT.after E secure ops).root = none

/-- C49 is false: `root()` of a new trie is the hash of the empty node. -/
theorem C49_false : ¬ C49 := by
  intro h
  have := h toyEnv false [] (valid_of (by decide +kernel)) (fun _ => rfl)
  revert this
  decide +kernel

/-- C49 in part: `root()` of a trie without keys is None or the hash of the empty node, and for a trie
with keys it is neither.  Missing: that it is always the same value. -/
theorem C49_root_partial {E : Env} {secure : Bool} {ops : List Op} (h : Valid E secure ops []) :
    (∀ k, contents ops k = none) ↔
      ((MPT.after E secure ops).root = none ∨ (MPT.after E secure ops).root = some (emptyHash E)) := by
  obtain ⟨a, h1, h2, h3, h4⟩ := h.inv
  constructor
  · intro hc
    have hn : a = .empty := by
      refine canon_empty h2 fun p => ?_
      cases hp : T.lookup a p with
      | none => rfl
      | some v =>
        obtain ⟨k', rfl⟩ := h4 p v hp
        rw [h3] at hp
        obtain ⟨k0, hk0, rfl⟩ := eff_some_mem hp
        rw [eff_eq h.keys (List.mem_append_right _ hk0), hc] at hp
        simp at hp
    rcases h1.root with ⟨_, h0⟩ | ⟨hne, _⟩
    · exact h0
    · exact absurd hn hne
  · intro hr k
    cases hm : contents ops k with
    | none => rfl
    | some v =>
      have : eff E secure ops (effective E secure k) = some v := by
        rw [eff_eq h.keys (List.mem_append_right _ (contents_some_mem hm)), hm]
      rw [← h3] at this
      have hne : a ≠ .empty := by rintro rfl; simp [T.lookup] at this
      have hb := h1.noRoot h.log
      have hi : a.isEmpty = false := by cases a <;> simp_all [T.isEmpty]
      rw [hi] at hb
      rcases hr with hr | hr <;> simp [MPT.noRoot, hr] at hb

example : Valid toyEnv false sampleOps [] := valid_of (by decide +kernel)

end Props
end Pymt
