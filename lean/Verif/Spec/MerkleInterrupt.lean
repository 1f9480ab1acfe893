import Verif.Spec.MerklePast
import Verif.Model.MerkleReset

/-!
# Specification: calls on a `MerkleTree` that an exception ends early

Such an exception (KeyboardInterrupt, MemoryError, an exception raised by a signal handler) can come between any two
accesses to the object; the accesses are those of `Model/MerkleThreads.lean`.
-/

namespace Pymt

/-- A program and the state, after this number of accesses. -/
def MProg.cutAfter {α : Type} (H : HashFn) : Nat → MProg α → MState → MProg α × MState
  | 0, p, s => (p, s)
  | n + 1, p, s => cutAfter H n (p.step H s).1 (p.step H s).2

/-- What is left of the object when an exception ends the call after `n` accesses. -/
def MCall.cut (H : HashFn) (n : Nat) (c : MCall) (t : MTree) : MState :=
  (MProg.cutAfter H n (c.prog H t.secure) t.shared).2

/-- The object, but it has to be made again. -/
def MTree.unmade (t : MTree) : MTree := { t with ready := false }

/-- Calls made one after another, some of them ended early by an exception (which is caught): `some n`, after `n` accesses. -/
inductive BrokenRun (H : HashFn) : List (MCall × Option Nat) → MTree → MTree → Prop
  | nil {t : MTree} : BrokenRun H [] t t
  | full {c : MCall} {cs : List (MCall × Option Nat)} {t t' : MTree} (h : BrokenRun H cs (c.alone H t).2 t') :
      BrokenRun H ((c, none) :: cs) t t'
  | cut {c : MCall} {n : Nat} {cs : List (MCall × Option Nat)} {t mid t' : MTree} (hc : c.cut H n t = mid.shared)
      (h : BrokenRun H cs mid t') : BrokenRun H ((c, some n) :: cs) t t'

/-- The values put in: all but those whose `put` was ended before its only access. -/
def keptValues (cs : List (MCall × Option Nat)) : List Bytes :=
  cs.filterMap fun e => match e with
    | (_, some 0) => none
    | (c, _) => c.value?

end Pymt
