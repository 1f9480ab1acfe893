import Verif.Lemmas.Store

/-!
# Facts about dictionaries
-/

namespace Pymt

theorem dset_new {β : Type} {d : Dict β} {k : Bytes} {v : β} (h : k ∉ d.map (·.1)) :
    dset d k v = d ++ [(k, v)] := by
  induction d with
  | nil => rfl
  | cons e d ih =>
    simp only [List.map_cons, List.mem_cons, not_or] at h
    simp [dset, Ne.symm h.1, ih h.2]

theorem dset_keys {β : Type} {d : Dict β} {k : Bytes} {v : β} (h : k ∈ d.map (·.1)) :
    (dset d k v).map (·.1) = d.map (·.1) := by
  induction d with
  | nil => simp at h
  | cons e d ih =>
    simp only [dset]
    split
    · simp
    · rename_i hne
      simp only [List.map_cons, List.mem_cons] at h ⊢
      rcases h with h | h
      · exact absurd h.symm hne
      · rw [ih h]

theorem dset_nodup {β : Type} {d : Dict β} {k : Bytes} {v : β} (h : (d.map (·.1)).Nodup) :
    ((dset d k v).map (·.1)).Nodup := by
  by_cases hk : k ∈ d.map (·.1)
  · rw [dset_keys hk]; exact h
  · rw [dset_new hk, List.map_append, List.nodup_append]
    refine ⟨h, by simp, ?_⟩
    rintro a ha b hb rfl
    simp only [List.map_cons, List.map_nil, List.mem_singleton] at hb
    subst hb
    exact hk ha

theorem dget_mem {β : Type} {d : Dict β} (h : (d.map (·.1)).Nodup) {k : Bytes} {v : β}
    (hm : (k, v) ∈ d) : dget d k = some v := by
  induction d with
  | nil => simp at hm
  | cons e d ih =>
    obtain ⟨k', v'⟩ := e
    simp only [List.map_cons, List.nodup_cons] at h
    rcases List.mem_cons.1 hm with he | he
    · cases he; simp [dget]
    · have : k' ≠ k := by
        rintro rfl
        exact h.1 (List.mem_map_of_mem he)
      simp [dget, this, ih h.2 he]

theorem dget_of_not_mem {β : Type} {d : Dict β} {k : Bytes} (h : k ∉ d.map (·.1)) : dget d k = none := by
  induction d with
  | nil => rfl
  | cons e d ih =>
    simp only [List.map_cons, List.mem_cons, not_or] at h
    simp [dget, Ne.symm h.1, ih h.2]

theorem mem_of_dget {β : Type} {d : Dict β} {k : Bytes} {v : β} (h : dget d k = some v) : (k, v) ∈ d := by
  induction d with
  | nil => simp [dget] at h
  | cons e d ih =>
    simp only [dget] at h
    split at h
    · rename_i he
      simp only [Option.some.injEq] at h
      subst he h
      exact List.mem_cons_self
    · exact List.mem_cons_of_mem _ (ih h)

theorem mem_keys_iff {β : Type} {d : Dict β} {k : Bytes} : k ∈ d.map (·.1) ↔ dget d k ≠ none := by
  constructor
  · intro h hn
    obtain ⟨⟨k', v⟩, he, rfl⟩ := List.mem_map.1 h
    clear h
    induction d with
    | nil => simp at he
    | cons e d ih =>
      simp only [dget] at hn
      split at hn
      · simp at hn
      · rename_i hne
        rcases List.mem_cons.1 he with rfl | he
        · exact hne rfl
        · exact ih he hn
  · intro h
    exact Decidable.byContradiction fun hn => h (dget_of_not_mem hn)

theorem ddel_eq_filter {β : Type} (d : Dict β) (k : Bytes) : ddel d k = d.filter (fun e => e.1 ≠ k) := by
  induction d with
  | nil => rfl
  | cons e d ih =>
    simp only [ddel]
    split
    · rename_i h; simp [h, ih]
    · rename_i h; simp [h, ih]

theorem ddel_nodup {β : Type} {d : Dict β} {k : Bytes} (h : (d.map (·.1)).Nodup) :
    ((ddel d k).map (·.1)).Nodup := by
  rw [ddel_eq_filter]
  exact h.sublist (List.Sublist.map _ List.filter_sublist)

/-- The first entry goes, the others stay, in order. -/
theorem ddel_head {β : Type} {k : Bytes} {v : β} {d : Dict β} (h : (((k, v) :: d).map (·.1)).Nodup) :
    ddel ((k, v) :: d) k = d := by
  simp only [List.map_cons, List.nodup_cons] at h
  rw [ddel_eq_filter]
  simp only [ne_eq, not_true_eq_false, decide_false, List.filter_cons, Bool.false_eq_true, if_false]
  rw [List.filter_eq_self]
  intro e he
  simp only [decide_not, Bool.not_eq_eq_eq_not, Bool.not_true, decide_eq_false_iff_not]
  rintro rfl
  exact h.1 (List.mem_map_of_mem he)

end Pymt
