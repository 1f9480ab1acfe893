import Verif.Lemmas.Root
import Verif.Spec.Toy

/-!
# Properties C01-C05, C16, C25: the trie as a map

`contents ops` (`Verif/Spec/Map.lean`) is what the history means.  `MPT.after E secure ops` is the
object after the calls.  `Valid` (`Verif/Spec/History.lean`) lists the assumptions.
-/

namespace Pymt
namespace Props

/-! ### C01: membership -/

/-- The full statement of C01: `contains` tells exactly which keys are present, and never raises. -/
def C01 : Prop := ∀ (E : Env) (secure : Bool) (ops : List Op) (k : Bytes), Valid E secure ops [k] →
  (MPT.after E secure ops).contains E k = .ok (contents ops k).isSome

/-- C01 is false: with `12` and `12 34` present, `contains` answers True for the absent key `12 56`
(the walk stops at the branch that carries the value of `12`).  The hash is the real one. -/
theorem C01_false : ¬ C01 := by
  intro h
  have hv : Valid realEnv false [.update [0x12] [1], .update [0x12, 0x34] [2]] [[0x12, 0x56]] :=
    valid_of (by decide +kernel)
  have := h _ _ _ _ hv
  revert this
  decide +kernel

/-- C01 in part: present keys are always reported; absent keys are reported as absent in secure mode,
and otherwise when no present key is a proper prefix of the key asked for.
Missing: absent keys that properly extend a present key (there the code is wrong, `C01_false`). -/
theorem C01_contains_partial {E : Env} {secure : Bool} {ops : List Op} {k : Bytes}
    (h : Valid E secure ops [k])
    (hpre : secure = true ∨ (contents ops k).isSome ∨
      ∀ k', k' <+: k → k' ≠ k → contents ops k' = none) :
    (MPT.after E secure ops).contains E k = .ok (contents ops k).isSome := by
  have hk : k ∈ [k] := by simp
  have he := h.eff_key hk
  cases hm : contents ops k with
  | some w =>
    rw [hm] at he
    exact h.inv.contains_some h.log (h.fit hk) he
  | none =>
    rw [hm] at he hpre
    refine h.inv.contains_none h.log (h.fit hk) he fun k' h1 h2 => ?_
    rw [keyOf_eq, after_secure] at h1 h2
    cases secure with
    | true =>
      simp only [if_true] at h1 h2
      cases hm' : eff E true ops k' with
      | none => rfl
      | some v =>
        exact absurd (h1.eq_of_length (by rw [eff_secure_len hm', E.keccak_len])) h2
    | false =>
      simp only [Bool.false_eq_true, if_false] at h1 h2
      rw [eff_false]
      rcases hpre with hpre | hpre | hpre
      · simp at hpre
      · simp at hpre
      · exact hpre k' h1 h2

/-- The hypotheses are met by a history with overwrites, deletions and nested keys. -/
example : Valid toyEnv false sampleOps [[0x12, 0x34]] ∧ (contents sampleOps [0x12, 0x34]).isSome :=
  ⟨valid_of (by decide +kernel), by decide +kernel⟩
example : Valid toyEnv false sampleOps [[0x13]] ∧
    (∀ k', k' <+: [0x13] → k' ≠ [0x13] → contents sampleOps k' = none) := by
  refine ⟨valid_of (by decide +kernel), ?_⟩
  intro k' h1 h2
  have : k' = [] := by
    rcases h1 with ⟨r, hr⟩
    rcases k' with _ | ⟨x, k'⟩
    · rfl
    · simp only [List.cons_append, List.cons.injEq, List.append_eq_nil_iff] at hr
      exact absurd (by rw [hr.1, hr.2.1]) h2
  subst this; decide +kernel
example : Valid toyEnv true secureOps [[0x12], [0x77]] := valid_of (by decide +kernel)

/-- C01, the exact answer of the code outside secure mode: `contains` never raises, and answers True for the
present keys and for the keys `k` that extend a present key `k'` with non-empty value which has other
extensions among the present keys, when none of these continues with the nibble `k` continues with. -/
theorem C01_exact {E : Env} {ops : List Op} {k : Bytes} (h : Valid E false ops [k]) :
    ∃ b, (MPT.after E false ops).contains E k = .ok b ∧ (b = true ↔ contents ops k ≠ none ∨
      ∃ k' i, toNibs k' ++ [i] <+: toNibs k ∧ (∃ v, v ≠ [] ∧ contents ops k' = some v) ∧
        (∃ k'', k'' ≠ k' ∧ k' <+: k'' ∧ contents ops k'' ≠ none) ∧
        ∀ k'', toNibs k' ++ [i] <+: toNibs k'' → contents ops k'' = none) := by
  have h1 := h.inv.contains_true_iff h.log (h.fit (k := k) (by simp))
  rw [eff_false, keyOf_eq, after_secure] at h1
  simp only [Bool.false_eq_true, if_false] at h1
  rcases h.inv.contains_total h.log (h.fit (k := k) (by simp)) with h2 | h2
  · exact ⟨true, h2, by rw [h2] at h1; simpa using h1⟩
  · refine ⟨false, h2, ?_⟩
    rw [h2] at h1
    simpa using h1

example : Valid toyEnv false sampleOps [[0x12, 0x99]] ∧ contents sampleOps [0x12, 0x99] = none ∧
    (MPT.after toyEnv false sampleOps).contains toyEnv [0x12, 0x99] = .ok true ∧
    (MPT.after toyEnv false sampleOps).contains toyEnv [0x12, 0x39] = .ok false :=
  ⟨valid_of (by decide +kernel), by decide +kernel, by decide +kernel, by decide +kernel⟩

/-! ### C02: get of a present key -/

/-- C02: `get` returns the value last written. -/
theorem C02_get {E : Env} {secure : Bool} {ops : List Op} {k v : Bytes}
    (h : Valid E secure ops [k]) (hk : contents ops k = some v) :
    (MPT.after E secure ops).get E k = .ok v :=
  h.inv.get_some (h.fit (by simp)) ((h.eff_key (by simp)).trans hk)

example : Valid toyEnv false sampleOps [[0x12, 0x34]] ∧
    contents sampleOps [0x12, 0x34] = some (bigValue 3) :=
  ⟨valid_of (by decide +kernel), by decide +kernel⟩

/-! ### C03: get of an absent key -/

/-- The full statement of C03: `get` of an absent key raises. -/
def C03 : Prop := ∀ (E : Env) (secure : Bool) (ops : List Op) (k : Bytes), Valid E secure ops [k] →
  contents ops k = none → ∃ e, (MPT.after E secure ops).get E k = .error e

/-- C03 is false: with keys `12 34` and `13 45`, `get(12)` returns the value of `12 34`. -/
theorem C03_false : ¬ C03 := by
  intro h
  have hv : Valid realEnv false [.update [0x12, 0x34] [1], .update [0x13, 0x45] [2]] [[0x12]] :=
    valid_of (by decide +kernel)
  obtain ⟨e, he⟩ := h _ _ _ _ hv (by decide +kernel)
  have hok : (MPT.after realEnv false [.update [0x12, 0x34] [1], .update [0x13, 0x45] [2]]).get realEnv
      [0x12] = .ok [1] := by decide +kernel
  rw [hok] at he
  simp at he

/-- C03 in part: it raises in secure mode, and otherwise when no present key properly extends the key
asked for.  Missing: absent keys that are a proper prefix of a present key (`C03_false`). -/
theorem C03_get_absent_partial {E : Env} {secure : Bool} {ops : List Op} {k : Bytes}
    (h : Valid E secure ops [k]) (hk : contents ops k = none)
    (hext : secure = true ∨ ∀ k', k <+: k' → k' ≠ k → contents ops k' = none) :
    ∃ e, (MPT.after E secure ops).get E k = .error e := by
  refine h.inv.get_none h.log (h.fit (by simp)) ((h.eff_key (by simp)).trans hk) fun k' h1 h2 => ?_
  rw [keyOf_eq, after_secure] at h1 h2
  cases secure with
  | true =>
    simp only [if_true] at h1 h2
    cases hm' : eff E true ops k' with
    | none => rfl
    | some v =>
      exact absurd (h1.eq_of_length (by rw [eff_secure_len hm', E.keccak_len])).symm h2
  | false =>
    simp only [Bool.false_eq_true, if_false] at h1 h2
    rw [eff_false]
    rcases hext with hext | hext
    · simp at hext
    · exact hext k' h1 h2

example : Valid toyEnv false [.update [0x12] [1], .update [0x77] (bigValue 1)] [[0x12, 0x34]] ∧
    contents [.update [0x12] [1], .update [0x77] (bigValue 1)] [0x12, 0x34] = none ∧
    ∀ k', [0x12, 0x34] <+: k' → k' ≠ [0x12, 0x34] →
      contents [.update [0x12] [1], .update [0x77] (bigValue 1)] k' = none := by
  refine ⟨valid_of (by decide +kernel), by decide +kernel, ?_⟩
  rintro k' ⟨r, rfl⟩ _
  simp [contents, contentsFrom, Op.apply]
example : Valid toyEnv true secureOps [[0x12, 0x34]] ∧ contents secureOps [0x12, 0x34] = none :=
  ⟨valid_of (by decide +kernel), by decide +kernel⟩

/-- C03, what can be returned: `get` raises, or returns the empty byte string, or the value of a present key
that extends the key asked for.  (The last two only happen for absent keys that are a proper prefix of
a present key, `C03_get_absent_partial`.) -/
theorem C03_sound {E : Env} {secure : Bool} {ops : List Op} {k v : Bytes} (h : Valid E secure ops [k])
    (hg : (MPT.after E secure ops).get E k = .ok v) :
    v = [] ∨ ∃ k', k <+: k' ∧ contents ops k' = some v := by
  rcases h.inv.get_sound h.log (h.fit (by simp)) hg with hv | ⟨k', h1, h2⟩
  · exact .inl hv
  · right
    rw [keyOf_eq, after_secure] at h1
    cases secure with
    | false =>
      simp only [Bool.false_eq_true, if_false] at h1
      rw [eff_false] at h2
      exact ⟨k', h1, h2⟩
    | true =>
      simp only [if_true] at h1
      have h3 := h1.eq_of_length (by rw [eff_secure_len h2, E.keccak_len])
      have h4 := h.eff_key (k := k) (by simp)
      rw [keyOf_eq, after_secure, if_pos rfl, h3, h2] at h4
      exact ⟨k, List.prefix_refl _, h4.symm⟩

/-- The case of the longer key occurs, and so does the empty byte string. -/
example : Valid toyEnv false [.update [0x12, 0x34] [1], .update [0x13, 0x45] [2]] [[0x12]] ∧
    (MPT.after toyEnv false [.update [0x12, 0x34] [1], .update [0x13, 0x45] [2]]).get toyEnv [0x12] = .ok [1] ∧
    Valid toyEnv false [.update [0x12, 0x34] [1], .update [0x12, 0x45] [2]] [[0x12]] ∧
    (MPT.after toyEnv false [.update [0x12, 0x34] [1], .update [0x12, 0x45] [2]]).get toyEnv [0x12] = .ok [] :=
  ⟨valid_of (by decide +kernel), by decide +kernel, valid_of (by decide +kernel), by decide +kernel⟩

/-! ### C04: a failing delete changes nothing -/

/-- C04: deleting an absent key raises and leaves the whole object as it was: root and every storage
entry (hence every later answer). -/
theorem C04_delete_absent {E : Env} {secure : Bool} {ops : List Op} {k : Bytes}
    (h : Valid E secure ops [k]) (hk : contents ops k = none) :
    ∃ e, MPT.delete E k (MPT.after E secure ops) = (.error e, MPT.after E secure ops) := by
  obtain ⟨e, he, _⟩ := h.inv.delete_none ((h.eff_key (by simp)).trans hk) (h.fit (by simp)) h.log
  exact ⟨e, he⟩

example : Valid toyEnv false sampleOps [[0x12, 0x56]] ∧ contents sampleOps [0x12, 0x56] = none :=
  ⟨valid_of (by decide +kernel), by decide +kernel⟩

/-! ### C05: totality -/

/-- C05, update: never raises. -/
theorem C05_update_total {E : Env} {secure : Bool} {ops : List Op} {k v : Bytes}
    (h : Valid E secure (ops ++ [.update k v]) []) :
    (MPT.update E k v (MPT.after E secure ops)).1 = .ok () := by
  have hc := h.cut
  have hl := h.log
  rw [after_append] at hl
  refine (hc.inv.update ?_ (hc.fit (by simp [Op.key])) hl).1
  have := h.clean (List.prefix_refl _)
  rw [eff, List.map_append, contents_append] at this
  rw [keyOf_eq, after_secure]
  exact this

/-- C05, delete: never raises for a present key. -/
theorem C05_delete_total {E : Env} {secure : Bool} {ops : List Op} {k v : Bytes}
    (h : Valid E secure (ops ++ [.delete k]) []) (hk : contents ops k = some v) :
    (MPT.delete E k (MPT.after E secure ops)).1 = .ok () := by
  have hc := h.cut
  have hl := h.log
  rw [after_append] at hl
  have hmem : k ∈ ([] : List Bytes) ++ [Op.delete k].map Op.key := by simp [Op.key]
  exact (hc.inv.delete_some ((hc.eff_key hmem).trans hk) (hc.fit hmem) hl).1

example : Valid toyEnv false (sampleOps ++ [.update [0x12, 0x77] (bigValue 9)]) [] :=
  valid_of (by decide +kernel)
example : Valid toyEnv false (sampleOps ++ [.delete [0x12]]) [] ∧
    contents sampleOps [0x12] = some (bigValue 2) :=
  ⟨valid_of (by decide +kernel), by decide +kernel⟩

/-- The bound on the recursion limit is needed: with a limit of 2 an update whose path passes an
extension and a branch raises RecursionError. -/
example : (MPT.update { toyEnv with limit := 2 } [0x12, 0x34, 0x56, 0x79] [2]
    (MPT.after { toyEnv with limit := 2 } false
      [.update [0x12, 0x34, 0x56] [1], .update [0x12, 0x34, 0x56, 0x78] [1]])).1 =
    .error .recursion := by decide +kernel

/-! ### C16: secure mode -/

/-- C16: in secure mode the trie is a map on the original keys without any exception: `contains` is
exact, `get` returns the value last written or raises, and deleting an absent key raises and changes
nothing.  Empty values are allowed.  (Collisions among hashed keys are excluded by `Valid`.) -/
theorem C16_secure {E : Env} {ops : List Op} {k : Bytes} (h : Valid E true ops [k]) :
    (MPT.after E true ops).contains E k = .ok (contents ops k).isSome ∧
    (∀ v, contents ops k = some v ↔ (MPT.after E true ops).get E k = .ok v) ∧
    (contents ops k = none → ∃ e, (MPT.after E true ops).get E k = .error e) ∧
    (contents ops k = none → ∃ e, MPT.delete E k (MPT.after E true ops) = (.error e, MPT.after E true ops)) := by
  refine ⟨C01_contains_partial h (.inl rfl), fun v => ⟨C02_get h, fun hg => ?_⟩,
    fun hk => C03_get_absent_partial h hk (.inl rfl), C04_delete_absent h⟩
  cases hk : contents ops k with
  | none =>
    obtain ⟨e, he⟩ := C03_get_absent_partial h hk (.inl rfl)
    rw [hg] at he
    simp at he
  | some w =>
    have := C02_get h hk
    rw [hg] at this
    simpa using this.symm

/-- C16, totality: `update` never raises and `delete` of a present key never raises. -/
theorem C16_secure_total {E : Env} {ops : List Op} {k v : Bytes} :
    (Valid E true (ops ++ [.update k v]) [] → (MPT.update E k v (MPT.after E true ops)).1 = .ok ()) ∧
    (Valid E true (ops ++ [.delete k]) [] → contents ops k = some v →
      (MPT.delete E k (MPT.after E true ops)).1 = .ok ()) :=
  ⟨fun h => C05_update_total h, fun h hk => C05_delete_total h hk⟩

/-- A secure history with an empty value. -/
example : Valid toyEnv true (secureOps ++ [.update [0x12, 0x99] []]) [[0x12]] ∧
    Valid toyEnv true (secureOps ++ [.update [0x12, 0x99] []]) [[0x55]] ∧
    contents (secureOps ++ [.update [0x12, 0x99] []]) [0x12, 0x99] = some [] ∧
    contents (secureOps ++ [.update [0x12, 0x99] []]) [0x12] = some (bigValue 2) :=
  ⟨valid_of (by decide +kernel), valid_of (by decide +kernel), by decide +kernel, by decide +kernel⟩
example : Valid toyEnv true (secureOps ++ [.delete [0x12]]) [] ∧ contents secureOps [0x12] = some (bigValue 2) :=
  ⟨valid_of (by decide +kernel), by decide +kernel⟩

/-! ### C25: empty values -/

/-- The full statement of C25: a key with an empty value is present, after every history. -/
def C25 : Prop := ∀ (E : Env) (secure : Bool) (ops : List Op) (k : Bytes),
  (∀ op ∈ ops, Fits E secure op.key) → LogOk E (MPT.after E secure ops).store.written →
  (secure = true → CollFree E (ops.map Op.key)) → contents ops k = some [] →
  (MPT.after E secure ops).contains E k = .ok true

/-- C25 is false: an empty value at `12` is forgotten when `12 34` is added. -/
theorem C25_false : ¬ C25 := by
  intro h
  have := h realEnv false [.update [0x12] [], .update [0x12, 0x34] [2]] [0x12] (by decide)
    (logOk_of (by decide +kernel)) (by simp) (by decide +kernel)
  revert this
  decide +kernel

/-- C25 in part: the key is present and `get` returns the empty value, in secure mode, and otherwise as
long as a key with an empty value never is a proper prefix of another present key (`Valid.empties`).
Missing: the other histories, where the code is wrong (`C25_false`). -/
theorem C25_empty_partial {E : Env} {secure : Bool} {ops : List Op} {k : Bytes}
    (h : Valid E secure ops [k]) (hk : contents ops k = some []) :
    (MPT.after E secure ops).contains E k = .ok true ∧ (MPT.after E secure ops).get E k = .ok [] := by
  refine ⟨?_, C02_get h hk⟩
  have := C01_contains_partial h (.inr (.inl (by simp [hk])))
  rwa [hk] at this

example : Valid toyEnv false [.update [0x12] [], .update [0x13] (bigValue 1), .update [0x12] [1],
      .update [0x12, 0x34] []] [[0x12, 0x34]] ∧
    contents [.update [0x12] [], .update [0x13] (bigValue 1), .update [0x12] [1],
      .update [0x12, 0x34] []] [0x12, 0x34] = some [] :=
  ⟨valid_of (by decide +kernel), by decide +kernel⟩

end Props
end Pymt
