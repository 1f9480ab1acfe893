import Verif.Lemmas.MerkleTools
import Verif.Props.Merkle

/-!
# `MerkleTools` used directly (C80)
-/

namespace Pymt.Props

open MTree

/-- The claim: the proof of a leaf is accepted together with the leaf and the root that `get_leaf` and
`get_merkle_root` return (as in `/repo/src/pymt/examples/merkletools_create_and_proof.py`). -/
def C80 : Prop :=
  ∀ (H : HashFn) (secure : Bool) (ops : List MOp) (v leaf root : Bytes) (i : Nat) (ps : List (Bytes × Bytes)),
    (held ops)[i]? = some v → (after H secure (ops ++ [.make])).proofRaw H v = .ok ps →
    (after H secure (ops ++ [.make])).get i = .ok leaf → (after H secure (ops ++ [.make])).rootRaw = .ok root →
    verifyAny H ps (.text leaf) (.text root) = .ok true

/-- The example program: five leaves, the proof of the second. -/
theorem C80_false : ¬ C80 := by
  intro h
  have := h toyHash false [.put [104], .put [119], .put [101], .put [105], .put [97]] [119] (hexOf [119])
    _ 1 [(left, hexOf [104]), (right, hexOf (toyHash.hash [101, 105])), (right, hexOf [97])] (by decide +kernel)
    (by decide +kernel) (by decide +kernel) rfl
  revert this
  decide +kernel

/-- In every tree of two leaves or more, this raises, whatever is given as the root: KeyError for a leaf whose first
sibling is on the left, TypeError for the others. -/
theorem C80_raises (H : HashFn) (secure : Bool) (ops : List MOp) (v t : Bytes) (root : Str) (ps : List (Bytes × Bytes))
    (h2 : 2 ≤ (held ops).length) (hp : (after H secure (ops ++ [.make])).proofRaw H v = .ok ps) :
    verifyAny H ps (.text t) root =
      .error (if ps.head?.map (·.1) = some left then .keyError else .typeError) := by
  obtain ⟨i, hi, rfl⟩ := proofRaw_made H secure ops v ps hp
  have hil : i < ((held ops).map (leafOf H secure)).length := (List.getElem?_eq_some_iff.mp hi).1
  have he := entries_path H _ i hil
  have hne := rfcPath_ne H ((held ops).map (leafOf H secure)) i (by rw [List.length_map]; exact h2)
  match hq : rfcPath H ((held ops).map (leafOf H secure)) i, hne with
  | (pos, hex) :: qs, _ =>
    rw [hq] at he
    obtain ⟨s, hs⟩ := he (pos, hex) (by simp)
    have hx : fromHex hex = .ok s ∧ (pos = left ∨ pos = right) := by
      rcases hs with hs | hs <;> cases hs
      · exact ⟨fromHex_hexOf s, .inl rfl⟩
      · exact ⟨fromHex_hexOf s, .inr rfl⟩
    unfold verifyAny
    rw [if_neg (by simp), foldAny_text H pos hex t qs s hx.1 hx.2]
    simp

example : (after toyHash false ([.put [1], .put [2], .put [3]] ++ [.make])).proofRaw toyHash [2] =
    .ok [(left, hexOf [1]), (right, hexOf [3])] := by decide +kernel

/-- With `bytes` for the leaf but the root as `get_merkle_root` returns it, the answer is False for every proof. -/
theorem C80_root (H : HashFn) (secure : Bool) (ops : List MOp) (v w t : Bytes) (ps : List (Bytes × Bytes))
    (hp : (after H secure (ops ++ [.make])).proofRaw H v = .ok ps) :
    verifyAny H ps (.bytes w) (.text t) = .ok false := by
  obtain ⟨i, hi, rfl⟩ := proofRaw_made H secure ops v ps hp
  have hil : i < ((held ops).map (leafOf H secure)).length := (List.getElem?_eq_some_iff.mp hi).1
  unfold verifyAny
  split
  · rfl
  · rw [foldAny_bytes]
    obtain ⟨r, hr⟩ := foldProof_total H _ (entries_path H _ i hil) w
    rw [hr]
    rfl

/-- What works: leaf and root converted with `bytes.fromhex`, in both modes. -/
theorem C80_bytes_partial (H : HashFn) (secure : Bool) (ops : List MOp) (v leaf root a b : Bytes) (i : Nat)
    (ps : List (Bytes × Bytes)) (hi : (held ops)[i]? = some v)
    (hp : (after H secure (ops ++ [.make])).proofRaw H v = .ok ps)
    (hl : (after H secure (ops ++ [.make])).get i = .ok leaf)
    (hr : (after H secure (ops ++ [.make])).rootRaw = .ok root)
    (ha : fromHex leaf = .ok a) (hb : fromHex root = .ok b) :
    verifyAny H ps (.bytes a) (.bytes b) = .ok true := by
  have hne : held ops ≠ [] := by rintro h; rw [h] at hi; simp at hi
  obtain ⟨j, hj, rfl⟩ := proofRaw_made H secure ops v ps hp
  rw [get_made H secure ops v leaf i hi hl, fromHex_hexOf] at ha
  rw [root_made H secure ops root hr hne, fromHex_hexOf] at hb
  cases ha
  cases hb
  rw [verifyAny_bytes, verifyRaw_eq H _ _ _ _ (fold_path H _ j _ hj)]
  simp

/-- All six premises for the second of three leaves. -/
example : let t := after toyHash true ([.put [1], .put [2], .put [3]] ++ [.make])
    (∃ ps, t.proofRaw toyHash [2] = .ok ps) ∧ t.get 1 = .ok (hexOf (toyHash.hash [2])) ∧
    ∃ r, t.rootRaw = .ok r ∧ fromHex r = .ok (rfcRoot toyHash ([[1], [2], [3]].map toyHash.hash)) := by
  refine ⟨⟨_, by rfl⟩, by decide +kernel, _, by rfl, by decide +kernel⟩

/-- A tree of one leaf accepts the text forms: they are compared as they are. -/
theorem C80_single (H : HashFn) (secure : Bool) (ops : List MOp) (v leaf root : Bytes) (ps : List (Bytes × Bytes))
    (h1 : held ops = [v]) (hp : (after H secure (ops ++ [.make])).proofRaw H v = .ok ps)
    (hl : (after H secure (ops ++ [.make])).get 0 = .ok leaf)
    (hr : (after H secure (ops ++ [.make])).rootRaw = .ok root) :
    verifyAny H ps (.text leaf) (.text root) = .ok true := by
  obtain ⟨i, hi, rfl⟩ := proofRaw_made H secure ops v ps hp
  have e1 := get_made H secure ops v leaf 0 (by rw [h1]; rfl) hl
  have e2 := root_made H secure ops root hr (by rw [h1]; simp)
  rw [h1] at e2 ⊢
  rw [rfcPath_short H _ _ (by simp)]
  rw [e1, e2]
  simp [verifyAny, Str.eq, rfcRoot_one]

example : (after toyHash true ([.put [1]] ++ [.make])).proofRaw toyHash [1] = .ok [] := by decide +kernel

/-- `get_merkle_root` and `get_proof_of_inclusion` of `MerkleTools` raise ValueError as long as `make_tree` was not
called since the tree was created or reset (`MerkleTree.get_merkle_root` calls it by itself). -/
theorem C80_unready (H : HashFn) (secure : Bool) (ops : List MOp) (vs : List Bytes) (v : Bytes)
    (hr : ops = [] ∨ ∃ ops', ops = ops' ++ [.reset]) :
    (after H secure (ops ++ vs.map .put)).rootRaw = .error .valueError ∧
    (after H secure (ops ++ vs.map .put)).proofRaw H v = .error .valueError := by
  have hready : (after H secure (ops ++ vs.map .put)).ready = false := by
    unfold after
    rw [run_append, run_puts]
    rcases hr with rfl | ⟨ops', rfl⟩
    · rfl
    · show (run H (ops' ++ [.reset]) (new secure)).ready = false
      rw [run_snoc]; rfl
  refine ⟨?_, proofRaw_unready H _ v hready⟩
  unfold rootRaw
  rw [hready]

example : held ([.put [9], .make, .reset] ++ [[1], [2]].map .put) = [[1], [2]] := by decide

end Pymt.Props
