import Verif.Spec.Map

/-!
# The contents as a list of pairs
-/

namespace Pymt

theorem pairs_inv (ops : List Op) : ∀ (l : List (Bytes × Bytes)) (m : Contents),
    (∀ k v, (k, v) ∈ l ↔ m k = some v) → (l.map (·.1)).Nodup →
    (∀ k v, (k, v) ∈ ops.foldl Op.applyPairs l ↔ contentsFrom m ops k = some v) ∧
      ((ops.foldl Op.applyPairs l).map (·.1)).Nodup := by
  induction ops with
  | nil => intro l m h1 h2; exact ⟨h1, h2⟩
  | cons op ops ih =>
    intro l m h1 h2
    have hn : ∀ k, ((l.filter (fun e => e.1 ≠ k)).map (·.1)).Nodup := fun k =>
      (List.filter_sublist.map _).nodup h2
    refine ih _ _ ?_ ?_
    · intro k v
      cases op with
      | update k0 v0 =>
        simp only [Op.applyPairs, Op.apply, List.mem_append, List.mem_filter, List.mem_singleton, Prod.mk.injEq,
          h1, decide_eq_true_eq]
        by_cases e : k = k0
        · subst e; simp [eq_comm]
        · simp [e]
      | delete k0 =>
        simp only [Op.applyPairs, Op.apply, List.mem_filter, h1, decide_eq_true_eq]
        by_cases e : k = k0
        · subst e; simp
        · simp [e]
    · cases op with
      | update k0 v0 =>
        simp only [Op.applyPairs, List.map_append, List.map_cons, List.map_nil]
        rw [List.nodup_append]
        refine ⟨hn k0, by simp, ?_⟩
        rintro a ha b hb rfl
        simp only [List.mem_singleton] at hb
        subst hb
        obtain ⟨e, he, hk⟩ := List.mem_map.1 ha
        rw [List.mem_filter] at he
        simp [hk] at he
      | delete k0 => exact hn k0

theorem mem_pairs {ops : List Op} {k v : Bytes} : (k, v) ∈ pairs ops ↔ contents ops k = some v :=
  (pairs_inv ops [] (fun _ => none) (by simp) (by simp)).1 k v

theorem nodup_pairs (ops : List Op) : ((pairs ops).map (·.1)).Nodup :=
  (pairs_inv ops [] (fun _ => none) (by simp) (by simp)).2

end Pymt
