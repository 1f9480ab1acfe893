import Verif.Spec.HashTypes
import Verif.Lemmas.Equality
import Verif.Lemmas.MerkleBind

/-!
# Lemmas on the hash functions of Merkle trees
-/

namespace Pymt

open MTree

theorem lowerByte_iff (t n : UInt8) (hn : ¬ (65 ≤ n.toNat ∧ n.toNat ≤ 90)) :
    (if 65 ≤ t ∧ t ≤ 90 then t + 32 else t) = n ↔ t = n ∨ 97 ≤ n.toNat ∧ n.toNat ≤ 122 ∧ t.toNat + 32 = n.toNat := by
  have ht := t.toNat_lt
  split
  · rename_i h
    simp only [UInt8.le_iff_toNat_le, ← UInt8.toNat_inj, UInt8.toNat_add, UInt8.reduceToNat] at h ⊢
    omega
  · rename_i h
    simp only [UInt8.le_iff_toNat_le, ← UInt8.toNat_inj, UInt8.reduceToNat] at h ⊢
    omega

theorem lower_iff : ∀ (text name : Bytes), (∀ n ∈ name, ¬ (65 ≤ n.toNat ∧ n.toNat ≤ 90)) →
    (name = HashType.lower text ↔ SameUpToCase text name)
  | [], [], _ => by simp [HashType.lower, SameUpToCase]
  | [], _ :: _, _ => by simp [HashType.lower, SameUpToCase]
  | _ :: _, [], _ => by simp [HashType.lower, SameUpToCase]
  | t :: ts, n :: ns, h => by
    have ih := lower_iff ts ns fun m hm => h m (List.mem_cons_of_mem _ hm)
    have h1 := lowerByte_iff t n (h n (List.mem_cons_self ..))
    unfold HashType.lower SameUpToCase at *
    simp only [List.map_cons, List.cons.injEq, List.length_cons, List.zip_cons_cons, List.forall_mem_cons, ih,
      Nat.add_right_cancel_iff]
    rw [eq_comm, h1]
    exact and_left_comm

theorem beVal_zeros (b : Bytes) : ∀ n, beVal 0 (List.replicate n 0 ++ b) = beVal 0 b
  | 0 => rfl
  | n + 1 => by
    rw [List.replicate_succ, List.cons_append, beVal]
    exact beVal_zeros b n

/-- The length of the root: that of a digest, unless the tree has only one value and `secure=False`. -/
theorem root_size (H : HashFn) (s : Bool) (l : List Bytes) (h : s = true ∧ l ≠ [] ∨ 2 ≤ l.length) :
    (rfcRoot H (l.map (leafOf H s))).length = H.size := by
  by_cases h2 : 2 ≤ l.length
  · rw [rfcRoot_split H _ (by simpa using h2), H.hash_len]
  · obtain ⟨rfl, hl⟩ := h.resolve_right h2
    refine rfcRoot_len H _ _ (Nat.le_refl _) (by simpa using hl) ?_
    intro x hx
    obtain ⟨v, _, rfl⟩ := List.mem_map.mp hx
    exact H.hash_len v

/-- The root is the digest of a value, or of a string hashed to make the tree. -/
theorem root_digest (H : HashFn) (s : Bool) (l : List Bytes) (h : s = true ∧ l ≠ [] ∨ 2 ≤ l.length) :
    ∃ x ∈ l ++ treeStrings H (l.map (leafOf H s)), rfcRoot H (l.map (leafOf H s)) = H.hash x := by
  by_cases h2 : 2 ≤ l.length
  · refine ⟨_, ?_, rfcRoot_split H _ (by simpa using h2)⟩
    rw [treeStrings_split H _ (by simpa using h2)]
    exact List.mem_append_right _ (List.mem_cons_self ..)
  · obtain ⟨rfl, hl⟩ := h.resolve_right h2
    obtain ⟨v, rfl⟩ := List.length_eq_one_iff.mp (show l.length = 1 by
      have := List.length_pos_iff.mpr hl
      omega)
    exact ⟨v, by simp, rfl⟩

end Pymt
