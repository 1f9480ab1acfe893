import Verif.Props.Roots
import Verif.Lemmas.Kept

/-!
# Properties C02, C04, C05, C25, C75 for histories with empty values anywhere

The theorems here are about tries whose keys are not hashed (`secure = false`).  They do without the
assumption `Valid.empties`.  In secure mode that assumption is void, so the theorems of `Props/Map.lean`
already speak about every history.

`kept` (`Verif/Spec/Kept.lean`) says which pairs survive, by calls alone.
-/

namespace Pymt
namespace Props

/-- A history in which empty values are lost, restored, and lost again. -/
def emptyOps : List Op :=
  [.update [0x12] [], .update [0x12, 0x34] (bigValue 1), .update [0x12] [7], .update [0x12, 0x56] [],
    .update [0x12, 0x56, 0x78] (bigValue 2), .update [0x12] [], .delete [0x12, 0x56, 0x78], .update [0x99] []]

/-- The pairs of that history, and what is left of them. -/
example : pairs emptyOps ≠ [] ∧ contents emptyOps [0x12] = some [] ∧ contents emptyOps [0x12, 0x56] = some [] ∧
    contents emptyOps [0x99] = some [] ∧ kept emptyOps = [([0x12, 0x34], bigValue 1), ([0x99], [])] := by
  decide +kernel

example : (∀ op ∈ emptyOps, Fits toyEnv false op.key) ∧
    LogOk toyEnv (MPT.after toyEnv false emptyOps).store.written :=
  ⟨by decide, logOk_of (by decide +kernel)⟩

/-! ### Which pairs are kept -/

/-- Only pairs of the contents are kept; a pair that is not kept has an empty value, and a longer key
beginning with its key was written. -/
theorem C25_lost (ops : List Op) (k v : Bytes) :
    ((k, v) ∈ kept ops → contents ops k = some v) ∧
      (contents ops k = some v → (k, v) ∉ kept ops →
        v = [] ∧ ∃ k' v', Op.update k' v' ∈ ops ∧ k' ≠ k ∧ k <+: k') := by
  refine ⟨kept_sub (m := fun _ => none) (by simp) k v, fun hc hk => ⟨?_, ?_⟩⟩
  · rcases kept_of (l := []) (m := fun _ => none) (by simp) v hc with h | h
    · exact absurd h hk
    · exact h
  · refine Classical.byContradiction fun hno => hk ?_
    refine kept_all (l := []) (m := fun _ => none) (by simp) (by simp) ?_ v hc
    intro k' v' hm hb
    exact hno ⟨k', v', hm, hb.1, hb.2⟩

example : contents emptyOps [0x12] = some [] ∧ ([0x12], []) ∉ kept emptyOps := by decide +kernel

/-! ### C25, C02, C04, C05 -/

/-- C25 exactly, for every history: a pair that is kept is found by `contains` and `get`; for any key,
what `get` returns is empty or the value of a kept key that begins with it, and `contains` says True only
of keys that begin with a kept key. -/
theorem C25_exact {E : Env} {ops : List Op} {k : Bytes} (hf : ∀ op ∈ ops, Fits E false op.key)
    (hk : Fits E false k) (hl : LogOk E (MPT.after E false ops).store.written) :
    (∀ v, (k, v) ∈ kept ops →
      (MPT.after E false ops).get E k = .ok v ∧ (MPT.after E false ops).contains E k = .ok true) ∧
    (∀ v, (MPT.after E false ops).get E k = .ok v → v = [] ∨ ∃ k', k <+: k' ∧ (k', v) ∈ kept ops) ∧
    ((MPT.after E false ops).contains E k = .ok true ∨ (MPT.after E false ops).contains E k = .ok false) ∧
    ((MPT.after E false ops).contains E k = .ok true → ∃ k' v, k' <+: k ∧ (k', v) ∈ kept ops) := by
  obtain ⟨a, h1, h2, h3, h4⟩ := Keeping.after hf hl
  have hsec := after_secure E false ops
  have hkey : (MPT.after E false ops).keyOf E k = k := by rw [keyOf_eq, hsec]; rfl
  have hlen : (toNibs ((MPT.after E false ops).keyOf E k)).length < E.limit := fits_nibs (by rw [hsec]; exact hk)
  refine ⟨fun v hv => ?_, fun v hv => ?_, ?_, fun hc => ?_⟩
  · rw [← h3] at hv
    have hne : a ≠ .empty := by rintro rfl; simp [T.lookup] at hv
    rw [h1.get hne hlen, h1.contains hl hlen, hkey]
    exact ⟨T.getT_of_lookup h2.shape hv, by rw [T.has_of_lookup h2.shape hv]⟩
  · by_cases hne : a = .empty
    · subst hne
      obtain ⟨e, he⟩ := h1.get_empty hl k
      rw [he] at hv; simp at hv
    · rw [h1.get hne hlen, hkey] at hv
      rcases T.getT_sound hv with hv | ⟨r, hr⟩
      · exact .inl hv
      · obtain ⟨k', hk'⟩ := h4 _ _ hr
        refine .inr ⟨k', toNibs_prefix.1 ⟨r, hk'⟩, ?_⟩
        rw [← h3, ← hk']; exact hr
  · rw [h1.contains hl hlen]
    cases T.has a (toNibs ((MPT.after E false ops).keyOf E k)) <;> simp
  · rw [h1.contains hl hlen, hkey] at hc
    simp only [Except.ok.injEq] at hc
    refine Classical.byContradiction fun hno => ?_
    have : T.has a (toNibs k) = false := by
      refine T.has_of_none ?_ ?_
      · cases hq : T.lookup a (toNibs k) with
        | none => rfl
        | some v => exact absurd ⟨k, v, List.prefix_refl _, (h3 _ _).1 hq⟩ hno
      · intro q r hqr _
        cases hq : T.lookup a q with
        | none => rfl
        | some v =>
          obtain ⟨k', rfl⟩ := h4 _ _ hq
          exact absurd ⟨k', v, toNibs_prefix.1 ⟨r, hqr.symm⟩, (h3 _ _).1 hq⟩ hno
    rw [this] at hc
    simp at hc

/-- C02 for every history: `get` returns the value last written, if it is not empty. -/
theorem C02_all {E : Env} {ops : List Op} {k v : Bytes} (hf : ∀ op ∈ ops, Fits E false op.key)
    (hl : LogOk E (MPT.after E false ops).store.written) (hk : contents ops k = some v) (hv : v ≠ []) :
    (MPT.after E false ops).get E k = .ok v ∧ (MPT.after E false ops).contains E k = .ok true := by
  have hmem : (k, v) ∈ kept ops := Classical.byContradiction fun h => hv ((C25_lost ops k v).2 hk h).1
  obtain ⟨op, hop, rfl⟩ := List.mem_map.1 (contents_some_mem hk)
  exact (C25_exact hf (hf op hop) hl).1 v hmem

example : contents emptyOps [0x12, 0x34] = some (bigValue 1) := by decide +kernel

/-- C04 and C25 for every history: `delete` of a key that is not kept, absent keys among them, raises
one of the exceptions named and leaves the object unchanged; `delete` of a kept key succeeds. -/
theorem C04_all {E : Env} {ops : List Op} {k : Bytes} (hf : ∀ op ∈ ops, Fits E false op.key)
    (hk : Fits E false k) (hl : LogOk E (MPT.after E false (ops ++ [.delete k])).store.written) :
    (contents ops k = none → ∀ v, (k, v) ∉ kept ops) ∧
    ((∀ v, (k, v) ∉ kept ops) → ∃ e, MPT.delete E k (MPT.after E false ops) = (.error e, MPT.after E false ops) ∧
      (e = .valueError ∨ e = .leafPath ∨ e = .extensionPath ∨ e = .branchPath ∨ e = .assertion)) ∧
    (∀ v, (k, v) ∈ kept ops → (MPT.delete E k (MPT.after E false ops)).1 = .ok ()) := by
  have hsec := after_secure E false ops
  have hkey : (MPT.after E false ops).keyOf E k = k := by rw [keyOf_eq, hsec]; rfl
  have hl2 : LogOk E (MPT.delete E k (MPT.after E false ops)).2.store.written := by
    have : MPT.after E false (ops ++ [.delete k]) = (MPT.delete E k (MPT.after E false ops)).2 := by
      simp [MPT.after, MPT.run, List.foldl_append, MPT.exec]
    rwa [this] at hl
  have hl1 : LogOk E (MPT.after E false ops).store.written :=
    log_of_replay (exec_writes E (.delete k) _) hl2
  have hi := Keeping.after hf hl1
  refine ⟨fun hc v hv => ?_, fun hv => ?_, fun v hv => ?_⟩
  · rw [(C25_lost ops k v).1 hv] at hc; simp at hc
  · exact hi.delete_none (by rw [hkey]; exact hv) (by rw [hsec]; exact hk) hl1
  · exact (hi.delete_some (by rw [hkey]; exact hv) (by rw [hsec]; exact hk) hl2).1

/-- A lost key, a kept key with an empty value, and an absent key. -/
example : LogOk toyEnv (MPT.after toyEnv false (emptyOps ++ [.delete [0x12]])).store.written ∧
    LogOk toyEnv (MPT.after toyEnv false (emptyOps ++ [.delete [0x99]])).store.written ∧
    LogOk toyEnv (MPT.after toyEnv false (emptyOps ++ [.delete [0x77]])).store.written ∧
    (MPT.delete toyEnv [0x12] (MPT.after toyEnv false emptyOps)).1 ≠ .ok () ∧
    (MPT.delete toyEnv [0x99] (MPT.after toyEnv false emptyOps)).1 = .ok () :=
  ⟨logOk_of (by decide +kernel), logOk_of (by decide +kernel), logOk_of (by decide +kernel), by decide +kernel,
    by decide +kernel⟩

/-- C05 for every history: `update` never raises. -/
theorem C05_all {E : Env} {ops : List Op} {k v : Bytes} (hf : ∀ op ∈ ops, Fits E false op.key)
    (hk : Fits E false k) (hl : LogOk E (MPT.after E false (ops ++ [.update k v])).store.written) :
    (MPT.update E k v (MPT.after E false ops)).1 = .ok () := by
  have hsec := after_secure E false ops
  have hl2 : LogOk E (MPT.update E k v (MPT.after E false ops)).2.store.written := by
    have : MPT.after E false (ops ++ [.update k v]) = (MPT.update E k v (MPT.after E false ops)).2 := by
      simp [MPT.after, MPT.run, List.foldl_append, MPT.exec]
    rwa [this] at hl
  have hl1 : LogOk E (MPT.after E false ops).store.written :=
    log_of_replay (exec_writes E (.update k v) _) hl2
  exact ((Keeping.after hf hl1).update (by rw [hsec]; exact hk) hl2).1

example : LogOk toyEnv (MPT.after toyEnv false (emptyOps ++ [.update [0x12] []])).store.written :=
  logOk_of (by decide +kernel)

/-! ### C75: the root of a trie with empty values -/

/-- The full statement of C75: histories that leave the same pairs leave the same root, empty values
included. -/
def C75 : Prop := ∀ (E : Env) (ops ops' : List Op),
  (∀ op ∈ ops, Fits E false op.key) → (∀ op ∈ ops', Fits E false op.key) →
  LogOk E (MPT.after E false ops).store.written → LogOk E (MPT.after E false ops').store.written →
  contents ops = contents ops' → (MPT.after E false ops).rootHash E = (MPT.after E false ops').rootHash E

/-- C75 is false: after an empty value at `12` the trie with `12 34 ↦ 2` has a branch with one child; after
`delete(12 34)` and the same update again it is a leaf. -/
theorem C75_false : ¬ C75 := by
  intro h
  have := h realEnv [.update [0x12] [], .update [0x12, 0x34] [2]]
    [.update [0x12] [], .update [0x12, 0x34] [2], .delete [0x12, 0x34], .update [0x12, 0x34] [2]]
    (by decide) (by decide) (logOk_of (by decide +kernel)) (logOk_of (by decide +kernel)) (by
      funext k
      simp only [contents, contentsFrom, List.foldl_cons, List.foldl_nil, Op.apply]
      by_cases e : k = [0x12, 0x34]
      · simp [e]
      · simp [e])
  revert this
  decide +kernel

/-- C75 in part, the converse direction, for every history: tries with the same root keep the same pairs,
unless a collision occurred among the byte strings hashed in the two histories.
Missing: that the same pairs give the same root, which is wrong with lost empty values (`C75_false`), and is
`C06_root` without them. -/
theorem C75_commit_partial {E : Env} {ops ops' : List Op}
    (hf : ∀ op ∈ ops, Fits E false op.key) (hf' : ∀ op ∈ ops', Fits E false op.key)
    (hl : LogOk E (MPT.after E false ops).store.written) (hl' : LogOk E (MPT.after E false ops').store.written)
    (hcoll : CollFree E (Item.encode (.str []) ::
      (hashed (MPT.after E false ops) ++ hashed (MPT.after E false ops'))))
    (hr : (MPT.after E false ops).rootHash E = (MPT.after E false ops').rootHash E) (k v : Bytes) :
    ((k, v) ∈ kept ops ↔ (k, v) ∈ kept ops') ∧
      (v ≠ [] → (contents ops k = some v ↔ contents ops' k = some v)) := by
  have hkept : ∀ v, (k, v) ∈ kept ops ↔ (k, v) ∈ kept ops' := by
    intro v
    obtain ⟨a, h1, _, h3, _⟩ := Keeping.after hf hl
    obtain ⟨b, g1, _, g3, _⟩ := Keeping.after hf' hl'
    have hab := h1.of_rootHash g1 hcoll hl hl' hr
    subst hab
    rw [← h3, ← g3]
  have hne : ∀ (o : List Op), v ≠ [] → ((k, v) ∈ kept o ↔ contents o k = some v) := fun o hv =>
    ⟨(C25_lost o k v).1, fun hc => Classical.byContradiction fun h => hv ((C25_lost o k v).2 hc h).1⟩
  exact ⟨hkept v, fun hv => by rw [← hne ops hv, ← hne ops' hv, hkept]⟩

/-- Two histories with the same root, one of which lost an empty value. -/
def lostOps : List Op :=
  [.update [0x12] [], .update [0x12, 0x34] (bigValue 1), .delete [0x12, 0x34], .update [0x12, 0x34] (bigValue 1)]

example : (∀ op ∈ lostOps, Fits toyEnv false op.key) ∧
    (∀ op ∈ [Op.update [0x12, 0x34] (bigValue 1)], Fits toyEnv false op.key) ∧
    LogOk toyEnv (MPT.after toyEnv false lostOps).store.written ∧
    LogOk toyEnv (MPT.after toyEnv false [.update [0x12, 0x34] (bigValue 1)]).store.written ∧
    CollFree toyEnv (Item.encode (.str []) :: (hashed (MPT.after toyEnv false lostOps) ++
      hashed (MPT.after toyEnv false [.update [0x12, 0x34] (bigValue 1)]))) ∧
    (MPT.after toyEnv false lostOps).rootHash toyEnv =
      (MPT.after toyEnv false [.update [0x12, 0x34] (bigValue 1)]).rootHash toyEnv ∧
    contents lostOps [0x12] ≠ contents [.update [0x12, 0x34] (bigValue 1)] [0x12] :=
  ⟨by decide, by decide, logOk_of (by decide +kernel), logOk_of (by decide +kernel), collFree_of (by decide +kernel),
    by decide +kernel, by decide +kernel⟩

end Props
end Pymt
