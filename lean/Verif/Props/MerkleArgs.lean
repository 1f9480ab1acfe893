import Verif.Model.MerkleArgs
import Verif.Props.Merkle

/-!
# Property C147: `MerkleTree.put_list` with wrong values
-/

namespace Pymt.Props

open MTree

/-- **C147** `put_list` puts in all values or, when it raises, none: in whatever state the tree is, after an exception it
is as before. -/
def C147 : Prop :=
  ∀ (H : HashFn) (a : ListArg) (n : Nat) (t t' : MTree) (e : Err), putListArg H n a t = some (.error e, t') → t' = t

/-- The values that `put` takes. -/
def takenValues : List LeafArg → List Bytes
  | .bytes b :: l => b :: takenValues l
  | _ => []

theorem putArgs_apply (H : HashFn) : ∀ (l : List LeafArg) (t : MTree),
    putArgs H l t = (if (takenValues l).length = l.length then .ok () else .error .typeError,
      { t with leaves := t.leaves ++ (takenValues l).map (leafOf H t.secure) })
  | [], t => by simp [putArgs, takenValues]
  | .bytes b :: l, t => by
    simp [putArgs, takenValues, putArg, put_apply, M.bind_apply, putArgs_apply H l]
  | .bytearray b :: l, t => by simp [putArgs, takenValues, putArg, M.bind_apply]
  | .other :: l, t => by simp [putArgs, takenValues, putArg, M.bind_apply]

/-- The property is false: the values before the first wrong one stay in the tree. -/
theorem C147_false : ¬ C147 := by
  intro h
  have := h toyHash (.items [.bytes [1], .other]) 0 (new true) _ _ rfl
  exact absurd this (by decide +kernel)

/-- What `put_list` does, in every state of the tree.  Given a list or tuple, it puts in the values before the first one
that is not `bytes`, as `put` would one by one, and raises TypeError if there is such a value. -/
theorem C147_partial (H : HashFn) (n : Nat) (l : List LeafArg) (t : MTree) :
    (∀ vs : List Bytes, l = vs.map .bytes →
      putListArg H n (.items l) t = some (.ok (), run H (vs.map .put) t)) ∧
    ∀ (vs : List Bytes) (x : LeafArg) (rest : List LeafArg), l = vs.map .bytes ++ x :: rest → (∀ b, x ≠ .bytes b) →
      putListArg H n (.items l) t = some (.error .typeError, run H (vs.map .put) t) := by
  have hl : ∀ (vs : List Bytes) (r : List LeafArg), takenValues (vs.map .bytes ++ r) = vs ++ takenValues r := by
    intro vs r
    induction vs with
    | nil => rfl
    | cons v vs ih => simp [takenValues, ih]
  constructor
  · rintro vs rfl
    have := hl vs []
    simp [takenValues] at this
    simp [putListArg, putArgs_apply, run_puts, this]
  · rintro vs x rest rfl hx
    have h0 : takenValues (x :: rest) = [] := by
      cases x with
      | bytes b => exact absurd rfl (hx b)
      | _ => rfl
    have := hl vs (x :: rest)
    rw [h0, List.append_nil] at this
    simp [putListArg, putArgs_apply, run_puts, this]

-- Both cases occur.
example : putListArg toyHash 0 (.items [.bytes [1], .bytes [2]]) (new true) =
      some (.ok (), run toyHash [.put [1], .put [2]] (new true)) ∧
    putListArg toyHash 0 (.items [.bytes [1], .bytearray [5], .bytes [2]]) (new true) =
      some (.error .typeError, run toyHash [.put [1]] (new true)) := by decide +kernel

/-- Every list falls into one of the two cases of `C147_partial`. -/
theorem C147_cases (l : List LeafArg) : (∃ vs : List Bytes, l = vs.map .bytes) ∨
    ∃ (vs : List Bytes) (x : LeafArg) (rest : List LeafArg), l = vs.map .bytes ++ x :: rest ∧ ∀ b, x ≠ .bytes b := by
  induction l with
  | nil => exact .inl ⟨[], rfl⟩
  | cons a l ih =>
    cases a with
    | bytes b =>
      rcases ih with ⟨vs, rfl⟩ | ⟨vs, x, rest, rfl, hx⟩
      · exact .inl ⟨b :: vs, rfl⟩
      · exact .inr ⟨b :: vs, x, rest, rfl, hx⟩
    | bytearray b => exact .inr ⟨[], .bytearray b, l, rfl, nofun⟩
    | other => exact .inr ⟨[], .other, l, rfl, nofun⟩

/-- C147 for arguments that are no list or tuple, for the list of leaves of the tree itself, and for lists that begin with a
wrong value: TypeError, and nothing has changed.  (`put_list(tree.leaves)` does not go on for ever, because the leaves
are bytearrays, which `put` does not take.) -/
theorem C147_unchanged_partial (H : HashFn) (n : Nat) (t : MTree) :
    putListArg H n .other t = some (.error .typeError, t) ∧
    (t.leaves ≠ [] → putListArg H (n + 1) .own t = some (.error .typeError, t)) ∧
    (t.leaves = [] → putListArg H (n + 1) .own t = some (.ok (), t)) ∧
    ∀ x rest, (∀ b, x ≠ .bytes b) → putListArg H n (.items (x :: rest)) t = some (.error .typeError, t) := by
  refine ⟨rfl, fun h => ?_, fun h => ?_, fun x rest hx => ?_⟩
  · obtain ⟨b, l, hb⟩ := List.exists_cons_of_ne_nil h
    simp [putListArg, putOwn, hb, putArg]
  · simp [putListArg, putOwn, h]
  · exact (C147_partial H n (x :: rest) t).2 [] x rest rfl hx

-- The hypotheses are met.
example : (run toyHash [.put [1]] (new true)).leaves ≠ [] ∧ (new true).leaves = [] ∧
    ∀ b, LeafArg.bytearray [1] ≠ .bytes b := ⟨by decide +kernel, rfl, nofun⟩

/-- Calling `put_list` again with a corrected list does not help: the values before the wrong one are in the tree twice, and
the root is that of the longer list. -/
theorem C147_again (H : HashFn) (n : Nat) (secure : Bool) (vs ws : List Bytes) (x : LeafArg) (rest : List LeafArg)
    (hx : ∀ b, x ≠ .bytes b) (hw : ws ≠ []) :
    ∃ t t', putListArg H n (.items (vs.map .bytes ++ x :: rest)) (new secure) = some (.error .typeError, t) ∧
      putListArg H n (.items ((vs ++ ws).map .bytes)) t = some (.ok (), t') ∧
      t'.count = 2 * vs.length + ws.length ∧
      (root H t').1 = .ok (hexOf (rfcRoot H ((vs ++ vs ++ ws).map (leafOf H secure)))) := by
  refine ⟨_, _, (C147_partial H n _ _).2 vs x rest rfl hx, (C147_partial H n _ _).1 (vs ++ ws) rfl, ?_, ?_⟩
  · rw [run_puts, run_puts]; simp [count, new]; omega
  · have := C41_first_partial H secure [] (vs ++ vs ++ ws) (by simp [hw]) (.inl rfl)
    rw [← this]
    simp [after, List.append_assoc, run, new]

-- A wrong value in the middle, corrected.
example : (∀ b, LeafArg.other ≠ .bytes b) ∧ ([[2], [3]] : List Bytes) ≠ [] := ⟨nofun, by decide⟩

end Pymt.Props
