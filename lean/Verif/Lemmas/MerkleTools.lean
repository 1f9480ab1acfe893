import Verif.Model.MerkleTools
import Verif.Lemmas.Audit

/-!
# `MerkleTools` used directly
-/

namespace Pymt.MTree

/-- For `bytes` the function is the one of `Model/Merkle.lean`. -/
theorem foldAny_bytes (H : HashFn) : ∀ (ps : List (Bytes × Bytes)) (h : Bytes),
    foldAny H ps (.bytes h) = (foldProof H ps h).map .bytes
  | [], h => rfl
  | (pos, hex) :: ps, h => by
    rw [foldAny, foldProof]
    by_cases hl : pos = left
    · have hr : pos ≠ right := by rw [hl]; exact left_ne_right
      cases hx : fromHex hex with
      | ok s => simp [tryLeft, hl, hx, addLeft, foldAny_bytes H ps]
      | error e => simp [tryLeft, exceptRight, hl, hx, left_ne_right]; rfl
    · by_cases hr : pos = right
      · cases hx : fromHex hex with
        | ok s => simp [tryLeft, exceptRight, hr, hx, addRight, foldAny_bytes H ps, left_ne_right.symm]
        | error e => simp [tryLeft, exceptRight, hr, hx, left_ne_right.symm]; rfl
      · simp [tryLeft, exceptRight, hl, hr]; rfl

theorem verifyAny_bytes (H : HashFn) (ps : List (Bytes × Bytes)) (v r : Bytes) :
    verifyAny H ps (.bytes v) (.bytes r) = verifyRaw H ps v r := by
  unfold verifyAny verifyRaw
  split
  · rfl
  · rw [foldAny_bytes]
    cases foldProof H ps v <;> rfl

/-- With text for the target, the first entry raises. -/
theorem foldAny_text (H : HashFn) (pos hex t : Bytes) (ps : List (Bytes × Bytes)) (s : Bytes)
    (hs : fromHex hex = .ok s) (hp : pos = left ∨ pos = right) :
    foldAny H ((pos, hex) :: ps) (.text t) = .error (if pos = left then .keyError else .typeError) := by
  rw [foldAny]
  rcases hp with rfl | rfl
  · simp [tryLeft, exceptRight, hs, addLeft, left_ne_right]
  · simp [tryLeft, exceptRight, hs, addRight, left_ne_right.symm]

theorem rfcPath_ne (H : HashFn) (l : List Bytes) (i : Nat) (h : 2 ≤ l.length) : rfcPath H l i ≠ [] := by
  rw [rfcPath_split H l i h]
  split <;> simp

theorem proofRaw_made (H : HashFn) (secure : Bool) (ops : List MOp) (v : Bytes) (ps : List (Bytes × Bytes))
    (hp : (after H secure (ops ++ [.make])).proofRaw H v = .ok ps) :
    ∃ i, ((held ops).map (leafOf H secure))[i]? = some (leafOf H secure v) ∧
      ps = rfcPath H ((held ops).map (leafOf H secure)) i := by
  by_cases hv : leafOf H secure v ∈ (held ops).map (leafOf H secure)
  · have hne : held ops ≠ [] := by rintro h; rw [h] at hv; simp at hv
    obtain ⟨i, _, h2, h3⟩ := idxOf?_first _ _ hv
    refine ⟨i, h2, ?_⟩
    have := built_audit H secure _ [] v i h2 h3
    unfold getPoi at this
    rw [after_make H secure ops hne] at hp
    simp only [M.bind_apply, M.get_apply, M.lift_apply, hp] at this
    rw [built_root H secure _ (by simpa using hne)] at this
    simp at this
    exact this
  · obtain ⟨h1, h2⟩ := after_fields H secure (ops ++ [.make])
    have h2' : held (ops ++ [.make]) = held ops := held_append ops .make
    unfold proofRaw at hp
    rw [h1, h2, h2', List.idxOf?_eq_none_iff.mpr hv] at hp
    simp at hp

theorem get_made (H : HashFn) (secure : Bool) (ops : List MOp) (v leaf : Bytes) (i : Nat)
    (hi : (held ops)[i]? = some v) (hl : (after H secure (ops ++ [.make])).get i = .ok leaf) :
    leaf = hexOf (leafOf H secure v) := by
  obtain ⟨h1, h2⟩ := after_fields H secure (ops ++ [.make])
  have h2' : held (ops ++ [.make]) = held ops := held_append ops .make
  unfold MTree.get pyIndexInt pyIndex at hl
  rw [h2, h2', if_pos (by omega)] at hl
  simp [hi] at hl
  exact hl.symm

theorem root_made (H : HashFn) (secure : Bool) (ops : List MOp) (root : Bytes)
    (hr : (after H secure (ops ++ [.make])).rootRaw = .ok root) (hne : held ops ≠ []) :
    root = hexOf (rfcRoot H ((held ops).map (leafOf H secure))) := by
  have := built_root H secure ((held ops).map (leafOf H secure)) (by simpa using hne)
  rw [← after_make H secure ops hne, root_apply, hr] at this
  rw [if_pos (by rw [after_make H secure ops hne]; rfl)] at this
  simp at this
  exact this

end Pymt.MTree
