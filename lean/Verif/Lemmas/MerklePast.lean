import Verif.Spec.MerklePast
import Verif.Lemmas.MerkleWorld

/-!
# The past of a `MerkleTree`
-/

namespace Pymt

open MTree

/-- The object, as it follows from what has been put in and how much of it was there when the tree was made. -/
def MTree.shaped (H : HashFn) (secure : Bool) (vs : List Bytes) (made : Option Nat) : MTree where
  secure := secure
  leaves := vs.map (leafOf H secure)
  upper := match made with
    | some (n + 1) => some (buildLevels H (n + 1) [(vs.map (leafOf H secure)).take (n + 1)]).dropLast
    | _ => none
  ready := made.isSome

theorem shaped_put (H : HashFn) (secure : Bool) (vs : List Bytes) (v : Bytes) (made : Option Nat)
    (hm : ∀ n, made = some n → n ≤ vs.length) :
    (MTree.put H v (MTree.shaped H secure vs made)).2 = MTree.shaped H secure (vs ++ [v]) made := by
  simp only [MTree.put, M.modify, MTree.shaped, List.map_append, List.map_cons, List.map_nil]
  cases made with
  | none => rfl
  | some n =>
    cases n with
    | zero => rfl
    | succ n =>
      have := hm (n + 1) rfl
      simp only
      rw [List.take_append_of_le_length (by simpa using this)]

theorem shaped_make (H : HashFn) (secure : Bool) (vs : List Bytes) (made : Option Nat)
    (hm : ∀ n, made = some n → n ≤ vs.length) :
    (MTree.make H (MTree.shaped H secure vs made)).2 = MTree.shaped H secure vs (some vs.length) := by
  cases vs with
  | cons v vs =>
    rw [make_eq _ _ (by simp [MTree.shaped])]
    simp [MTree.shaped, built, List.take_of_length_le]
  | nil =>
    have h0 : made = none ∨ made = some 0 := by
      cases made with
      | none => exact .inl rfl
      | some n => exact .inr (by have := hm n rfl; simp at this; rw [this])
    rcases h0 with rfl | rfl <;> simp [MTree.make, M.modify, MTree.shaped]

theorem shaped_root (H : HashFn) (secure : Bool) (vs : List Bytes) (made : Option Nat)
    (hm : ∀ n, made = some n → n ≤ vs.length) :
    (MTree.root H (MTree.shaped H secure vs made)).2 = MTree.shaped H secure vs (some (made.getD vs.length)) := by
  rw [root_apply]
  cases made with
  | none =>
    have : (MTree.shaped H secure vs none).ready = false := rfl
    rw [this]
    exact shaped_make H secure vs none hm
  | some n => rfl

theorem Deed.shaped (H : HashFn) (secure : Bool) (ds : List Deed) :
    let s := ds.foldl (fun (s : Nat × Option Nat) d => match d with
      | .reset => (0, none)
      | .call (.put _) => (s.1 + 1, s.2)
      | .call .make => (s.1, some s.1)
      | .call c => if c.NeedsRoot H then (s.1, some (s.2.getD s.1)) else s) (0, none)
    s.1 = (Deed.values ds).length ∧ (∀ n, s.2 = some n → n ≤ s.1) ∧
      Deed.after H ds (MTree.new secure) = MTree.shaped H secure (Deed.values ds) s.2 := by
  induction ds using snocRec with
  | nil => exact ⟨rfl, by simp, rfl⟩
  | append_singleton ds d ih =>
    simp only [List.foldl_append, List.foldl_cons, List.foldl_nil] at ih ⊢
    rw [show Deed.after H (ds ++ [d]) (MTree.new secure) = (d.does H (Deed.after H ds (MTree.new secure))).2 by
      simp [Deed.after]]
    rw [show Deed.values (ds ++ [d]) = (match d with
        | .call (.put v) => Deed.values ds ++ [v]
        | .reset => []
        | _ => Deed.values ds) by simp [Deed.values]; rfl]
    generalize ds.foldl (fun (s : Nat × Option Nat) d => match d with
      | .reset => (0, none)
      | .call (.put _) => (s.1 + 1, s.2)
      | .call .make => (s.1, some s.1)
      | .call c => if c.NeedsRoot H then (s.1, some (s.2.getD s.1)) else s) (0, none) = s at ih
    generalize Deed.values ds = vs at ih
    obtain ⟨n, made⟩ := s
    obtain ⟨h1, h2, h3⟩ := ih
    simp only at h1 h2 h3
    subst h1
    rw [h3]
    have rooty : ∀ x : Option Nat, x = some (made.getD vs.length) → ∀ k, x = some k → k ≤ vs.length := by
      intro x hx k hk
      rw [hx] at hk
      cases made with
      | none => cases hk; exact Nat.le_refl _
      | some m => cases hk; exact h2 _ rfl
    cases d with
    | reset => exact ⟨rfl, by simp, rfl⟩
    | call c =>
      cases c with
      | put v =>
        refine ⟨by simp, fun k hk => ?_, shaped_put H secure vs v made h2⟩
        have := h2 k hk
        simp only; omega
      | get i => exact ⟨rfl, h2, rfl⟩
      | count => exact ⟨rfl, h2, rfl⟩
      | make => exact ⟨rfl, fun k hk => by cases hk; exact Nat.le_refl _, shaped_make H secure vs made h2⟩
      | root => exact ⟨rfl, rooty _ rfl, shaped_root H secure vs made h2⟩
      | poi now key =>
        refine ⟨rfl, h2, ?_⟩
        simp only [Deed.does, MCall.alone, MProg.getPoi_eq, MCall.NeedsRoot, Bool.false_eq_true, if_false]
        cases made with
        | none =>
          have : (MTree.shaped H secure vs none).proofRaw H key = .error .valueError := by
            unfold MTree.proofRaw
            cases (MTree.shaped H secure vs none).leaves.idxOf? _ <;> rfl
          rw [this]
        | some m =>
          have hs := shaped_root H secure vs (some m) h2
          cases (MTree.shaped H secure vs (some m)).proofRaw H key with
          | error e => rfl
          | ok ps =>
            generalize MTree.root H (MTree.shaped H secure vs (some m)) = x at hs
            obtain ⟨x | x, t'⟩ := x <;> exact hs
      | verify p =>
        cases hck : MProg.checks H p with
        | error e =>
          have hn : (MCall.verify p).NeedsRoot H = false := by simp only [MCall.NeedsRoot, hck]
          simp only [hn, Bool.false_eq_true, if_false]
          refine ⟨trivial, h2, ?_⟩
          simp only [Deed.does, MCall.alone, MProg.verifyPoi_eq, hck]
        | ok b =>
          cases b with
          | false =>
            have hn : (MCall.verify p).NeedsRoot H = false := by simp only [MCall.NeedsRoot, hck]
            simp only [hn, Bool.false_eq_true, if_false]
            refine ⟨trivial, h2, ?_⟩
            simp only [Deed.does, MCall.alone, MProg.verifyPoi_eq, hck]
          | true =>
            have hn : (MCall.verify p).NeedsRoot H = true := by simp only [MCall.NeedsRoot, hck]
            simp only [hn, if_true]
            refine ⟨trivial, rooty _ rfl, ?_⟩
            simp only [Deed.does, MCall.alone, MProg.verifyPoi_eq, hck]
            have hs := shaped_root H secure vs made h2
            generalize MTree.root H (MTree.shaped H secure vs made) = x at hs
            obtain ⟨x | x, t'⟩ := x <;> exact hs

theorem Deed.after_eq (H : HashFn) (secure : Bool) (ds : List Deed) :
    Deed.after H ds (MTree.new secure) = MTree.shaped H secure (Deed.values ds) (Deed.lastMade H ds) :=
  (Deed.shaped H secure ds).2.2

theorem Deed.lastMade_le (H : HashFn) (ds : List Deed) (n : Nat) (h : Deed.lastMade H ds = some n) :
    n ≤ (Deed.values ds).length := by
  obtain ⟨h1, h2, _⟩ := Deed.shaped H false ds
  rw [← h1]; exact h2 n h

end Pymt
