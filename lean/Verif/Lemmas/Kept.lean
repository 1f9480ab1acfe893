import Verif.Spec.Kept
import Verif.Lemmas.Empties
import Verif.Lemmas.Lookup
import Verif.Lemmas.Same

/-!
# Histories with empty values: the invariant
-/

namespace Pymt

/-- The object holds a trie whose pairs are `l`. -/
def Keeping (E : Env) (t : MPT) (l : List (Bytes × Bytes)) : Prop :=
  ∃ a : T, T.Holds E t a ∧ a.Full ∧ (∀ k v, T.lookup a (toNibs k) = some v ↔ (k, v) ∈ l) ∧
    ∀ p v, T.lookup a p = some v → ∃ k, p = toNibs k

theorem Keeping.new (E : Env) (secure : Bool) : Keeping E (MPT.new E secure) [] := by
  refine ⟨.empty, ⟨trivial, trivial, Good.empty E, .inl ⟨rfl, .inr rfl⟩⟩, trivial, fun k v => ?_, ?_⟩
  · simp [T.lookup]
  · intro p v h; simp [T.lookup] at h

theorem beyond_nibs {k k' : Bytes} : Beyond k k' ↔ toNibs k' ≠ toNibs k ∧ toNibs k <+: toNibs k' := by
  unfold Beyond
  rw [toNibs_prefix]
  refine and_congr_left fun _ => not_congr ⟨fun h => by rw [h], fun h => toNibs_inj h⟩

theorem over_iff {a : T} {l : List (Bytes × Bytes)} (h3 : ∀ k v, T.lookup a (toNibs k) = some v ↔ (k, v) ∈ l)
    (h4 : ∀ p v, T.lookup a p = some v → ∃ k, p = toNibs k) (k : Bytes) :
    T.Over a (toNibs k) ↔ ∃ e ∈ l, Beyond k e.1 := by
  constructor
  · rintro ⟨q, q1, q2, q3⟩
    cases hq : T.lookup a q with
    | none => exact absurd hq q3
    | some w =>
      obtain ⟨k', rfl⟩ := h4 _ _ hq
      exact ⟨(k', w), (h3 _ _).1 hq, beyond_nibs.2 ⟨q1, q2⟩⟩
  · rintro ⟨⟨k', w⟩, he, hb⟩
    obtain ⟨b1, b2⟩ := beyond_nibs.1 hb
    exact ⟨toNibs k', b1, b2, by rw [(h3 k' w).2 he]; simp⟩

theorem Keeping.update {E : Env} {t : MPT} {l : List (Bytes × Bytes)} (h : Keeping E t l) {k v : Bytes}
    (hf : Fits E t.secure k) (hl : LogOk E (MPT.update E k v t).2.store.written) :
    (MPT.update E k v t).1 = .ok () ∧
      Keeping E (MPT.update E k v t).2 (Op.keep l (.update (t.keyOf E k) v)) := by
  obtain ⟨a, h1, h2, h3, h4⟩ := h
  obtain ⟨r1, r2⟩ := h1.update (fits_nibs hf) rfl hl
  have hov := over_iff h3 h4 (t.keyOf E k)
  refine ⟨r1, _, r2, h2.insert _ _, fun k' w => ?_, fun p w hp => ?_⟩
  · rw [h2.insert_lookup]
    simp only [Op.keep, List.mem_append, List.mem_filter, decide_eq_true_eq, hov]
    by_cases e : k' = t.keyOf E k
    · subst e
      rw [if_pos rfl]
      by_cases hv : v = [] ∧ ∃ e ∈ l, Beyond (t.keyOf E k) e.1
      · rw [if_pos hv, if_pos hv]; simp
      · rw [if_neg hv, if_neg hv]; simp [eq_comm]
    · have e' : toNibs k' ≠ toNibs (t.keyOf E k) := fun h => e (toNibs_inj h)
      rw [if_neg e']
      have hb : Beyond k' (t.keyOf E k) ↔ toNibs k' <+: toNibs (t.keyOf E k) := by
        rw [beyond_nibs]
        exact ⟨fun h => h.2, fun h => ⟨Ne.symm e', h⟩⟩
      have hnot : (k', w) ∉ (if v = [] ∧ ∃ e ∈ l, Beyond (t.keyOf E k) e.1 then [] else [(t.keyOf E k, v)]) := by
        split
        · simp
        · simp [e]
      simp only [hnot, or_false, hb]
      by_cases hd : T.lookup a (toNibs k') = some [] ∧ toNibs k' <+: toNibs (t.keyOf E k)
      · rw [if_pos hd]
        have hm := hd.1
        constructor
        · intro h0; simp at h0
        · rintro ⟨m1, m2, m3⟩
          rw [(h3 _ _).2 m1] at hm
          simp only [Option.some.injEq] at hm
          exact absurd ⟨hm, hd.2⟩ m3
      · rw [if_neg hd, h3]
        constructor
        · intro m1
          refine ⟨m1, e, ?_⟩
          rintro ⟨rfl, m3⟩
          exact hd ⟨(h3 _ _).2 m1, m3⟩
        · exact fun m => m.1
  · rw [h2.insert_lookup] at hp
    split at hp
    · exact ⟨_, by assumption⟩
    · split at hp
      · simp at hp
      · exact h4 p w hp

theorem Keeping.delete_some {E : Env} {t : MPT} {l : List (Bytes × Bytes)} (h : Keeping E t l) {k w : Bytes}
    (hm : (t.keyOf E k, w) ∈ l)
    (hf : Fits E t.secure k) (hl : LogOk E (MPT.delete E k t).2.store.written) :
    (MPT.delete E k t).1 = .ok () ∧
      Keeping E (MPT.delete E k t).2 (Op.keep l (.delete (t.keyOf E k))) := by
  obtain ⟨a, h1, h2, h3, h4⟩ := h
  rw [← h3] at hm
  have hne : a ≠ .empty := by rintro rfl; simp [T.lookup] at hm
  have hd := h1.delete hne (fits_nibs hf) rfl hl
  obtain ⟨d, hr, hc, hok, _, hnd, hlook⟩ := h2.remove_some hm
  rw [hr] at hd
  obtain ⟨r1, r2⟩ := hd
  have hdt : d.tree ≠ .empty ∨ d = .deleted := by
    cases d with
    | deleted => exact .inr rfl
    | updated t' => exact .inl (hnd t' rfl)
    | useless p t' =>
      refine .inl ?_
      rcases hok with ⟨v, rfl⟩ | ⟨c, rfl⟩ <;> simp [T.DelRes.tree]
  refine ⟨r1, _, r2 hdt, hc, fun k' w => ?_, fun p w hp => ?_⟩
  · rw [hlook]
    simp only [Op.keep, List.mem_filter, decide_eq_true_eq]
    by_cases e : k' = t.keyOf E k
    · simp [e]
    · have : toNibs k' ≠ toNibs (t.keyOf E k) := fun h => e (toNibs_inj h)
      simp [e, this, h3]
  · rw [hlook] at hp
    split at hp
    · simp at hp
    · exact h4 p w hp

theorem Keeping.delete_none {E : Env} {t : MPT} {l : List (Bytes × Bytes)} (h : Keeping E t l) {k : Bytes}
    (hm : ∀ w, (t.keyOf E k, w) ∉ l)
    (hf : Fits E t.secure k) (hl : LogOk E t.store.written) :
    ∃ e, MPT.delete E k t = (.error e, t) ∧
      (e = .valueError ∨ e = .leafPath ∨ e = .extensionPath ∨ e = .branchPath ∨ e = .assertion) := by
  obtain ⟨a, h1, h2, h3, h4⟩ := h
  have hm : T.lookup a (toNibs (t.keyOf E k)) = none := by
    cases hq : T.lookup a (toNibs (t.keyOf E k)) with
    | none => rfl
    | some w => exact absurd ((h3 _ _).1 hq) (hm w)
  by_cases hne : a = .empty
  · subst hne
    exact ⟨.valueError, h1.delete_empty hl k, .inl rfl⟩
  · obtain ⟨e, he, hc⟩ := h2.remove_none hne hm
    exact ⟨e, h1.delete_fail hne hl (fits_nibs hf) he, .inr hc⟩

theorem keep_delete_none {l : List (Bytes × Bytes)} {k : Bytes} (h : ∀ w, (k, w) ∉ l) :
    Op.keep l (.delete k) = l := by
  simp only [Op.keep]
  rw [List.filter_eq_self]
  rintro ⟨k', w⟩ he
  simp only [ne_eq, decide_eq_true_eq]
  rintro rfl
  exact h w he

theorem Keeping.exec {E : Env} {t : MPT} {l : List (Bytes × Bytes)} (h : Keeping E t l) {op : Op}
    (hf : Fits E t.secure op.key) (hl : LogOk E (MPT.exec E op t).2.store.written) :
    Keeping E (MPT.exec E op t).2 (Op.keep l (op.mapKey (effective E t.secure))) := by
  cases op with
  | update k v => exact (h.update hf hl).2
  | delete k =>
    by_cases hm : ∃ w, (t.keyOf E k, w) ∈ l
    · obtain ⟨w, hm⟩ := hm
      exact (h.delete_some hm hf hl).2
    · have hm : ∀ w, (t.keyOf E k, w) ∉ l := fun w hw => hm ⟨w, hw⟩
      obtain ⟨e, he, _⟩ := h.delete_none hm hf (log_of_replay (exec_writes E (.delete k) t) hl)
      show Keeping E (MPT.delete E k t).2 (Op.keep l (.delete (t.keyOf E k)))
      rw [he, keep_delete_none hm]
      exact h

theorem Keeping.run {E : Env} {t : MPT} {l : List (Bytes × Bytes)} (h : Keeping E t l) {ops : List Op}
    (hf : ∀ op ∈ ops, Fits E t.secure op.key)
    (hl : LogOk E (MPT.run E ops t).store.written) :
    Keeping E (MPT.run E ops t) ((ops.map (Op.mapKey (effective E t.secure))).foldl Op.keep l) := by
  induction ops generalizing t l with
  | nil => exact h
  | cons op ops ih =>
    have hl1 : LogOk E (MPT.exec E op t).2.store.written := log_of_replay (run_writes E ops _) hl
    have h1 := h.exec (hf op (by simp)) hl1
    have hsec := exec_secure E op t
    have := ih h1 (fun o ho => by rw [hsec]; exact hf o (List.mem_cons_of_mem _ ho)) hl
    rw [hsec] at this
    exact this

theorem map_effective_false (E : Env) (ops : List Op) : ops.map (Op.mapKey (effective E false)) = ops := by
  conv => rhs; rw [← List.map_id ops]
  refine List.map_congr_left fun op _ => ?_
  cases op <;> rfl

/-- What a history without hashing of keys needs. -/
theorem Keeping.after {E : Env} {ops : List Op} (hf : ∀ op ∈ ops, Fits E false op.key)
    (hl : LogOk E (MPT.after E false ops).store.written) : Keeping E (MPT.after E false ops) (kept ops) := by
  have := (Keeping.new E false).run (ops := ops) hf hl
  have hmap : ops.map (Op.mapKey (effective E (MPT.new E false).secure)) = ops := by
    conv => rhs; rw [← List.map_id ops]
    refine List.map_congr_left fun op _ => ?_
    cases op <;> rfl
  rw [hmap] at this
  exact this

/-! ### What is kept -/

theorem kept_sub {ops : List Op} : ∀ {l : List (Bytes × Bytes)} {m : Contents},
    (∀ k v, (k, v) ∈ l → m k = some v) → ∀ k v, (k, v) ∈ ops.foldl Op.keep l →
    contentsFrom m ops k = some v := by
  induction ops with
  | nil => exact fun h => h
  | cons op ops ih =>
    intro l m h
    refine ih ?_
    intro k v hm
    cases op with
    | update k0 v0 =>
      simp only [Op.keep, List.mem_append, List.mem_filter, decide_eq_true_eq] at hm
      simp only [Op.apply]
      rcases hm with ⟨h1, h2, _⟩ | h1
      · rw [if_neg h2]; exact h k v h1
      · split at h1
        · simp at h1
        · simp only [List.mem_singleton, Prod.mk.injEq] at h1
          rw [if_pos h1.1, h1.2]
    | delete k0 =>
      simp only [Op.keep, List.mem_filter, decide_eq_true_eq] at hm
      simp only [Op.apply]
      rw [if_neg hm.2]
      exact h k v hm.1

/-- A pair that is not kept has an empty value and its key was properly extended. -/
theorem kept_of {ops : List Op} : ∀ {l : List (Bytes × Bytes)} {m : Contents} {k : Bytes},
    (∀ v, m k = some v → (k, v) ∈ l ∨ v = []) → ∀ v, contentsFrom m ops k = some v →
    (k, v) ∈ ops.foldl Op.keep l ∨ v = [] := by
  induction ops with
  | nil => exact fun h => h
  | cons op ops ih =>
    intro l m k h
    refine ih ?_
    intro v hm
    cases op with
    | update k0 v0 =>
      simp only [Op.keep, List.mem_append, List.mem_filter, decide_eq_true_eq]
      simp only [Op.apply] at hm
      by_cases hv : v = []
      · exact .inr hv
      left
      split at hm
      · rename_i e
        simp only [Option.some.injEq] at hm
        subst e; subst hm
        right
        rw [if_neg (fun h => hv h.1)]
        simp
      · rename_i e
        rcases h v hm with h1 | h1
        · exact .inl ⟨h1, e, fun h => hv h.1⟩
        · exact absurd h1 hv
    | delete k0 =>
      simp only [Op.keep, List.mem_filter, decide_eq_true_eq]
      simp only [Op.apply] at hm
      split at hm
      · simp at hm
      · rename_i e
        rcases h v hm with h1 | h1
        · exact .inl ⟨h1, e⟩
        · exact .inr h1

/-- A pair is kept if no key of the history properly extends its key. -/
theorem kept_all {ops : List Op} : ∀ {l : List (Bytes × Bytes)} {m : Contents} {k : Bytes},
    (∀ v, m k = some v → (k, v) ∈ l) → (∀ e ∈ l, ¬ Beyond k e.1) →
    (∀ k' v', Op.update k' v' ∈ ops → ¬ Beyond k k') → ∀ v, contentsFrom m ops k = some v →
    (k, v) ∈ ops.foldl Op.keep l := by
  induction ops with
  | nil => exact fun h _ _ => h
  | cons op ops ih =>
    intro l m k h hl hno
    refine ih ?_ ?_ (fun k' v' hm => hno k' v' (List.mem_cons_of_mem _ hm))
    · intro v hm
      cases op with
      | update k0 v0 =>
        have h0 := hno k0 v0 (by simp)
        simp only [Op.keep, List.mem_append, List.mem_filter, decide_eq_true_eq]
        simp only [Op.apply] at hm
        split at hm
        · rename_i e
          simp only [Option.some.injEq] at hm
          subst e; subst hm
          right
          rw [if_neg]
          · simp
          · rintro ⟨_, e, he, hb⟩
            exact hl e he hb
        · rename_i e
          exact .inl ⟨h v hm, e, fun hb => h0 hb.2⟩
      | delete k0 =>
        simp only [Op.keep, List.mem_filter, decide_eq_true_eq]
        simp only [Op.apply] at hm
        split at hm
        · simp at hm
        · rename_i e
          exact ⟨h v hm, e⟩
    · intro e he
      cases op with
      | update k0 v0 =>
        simp only [Op.keep, List.mem_append, List.mem_filter] at he
        rcases he with he | he
        · exact hl e he.1
        · split at he
          · simp at he
          · simp only [List.mem_singleton] at he
            subst he
            exact hno k0 v0 (by simp)
      | delete k0 =>
        simp only [Op.keep, List.mem_filter] at he
        exact hl e he.1

end Pymt
