import Verif.Spec.Threads
import Verif.Model.Interrupt

/-!
# Specification: histories in which calls are ended by exceptions from elsewhere
-/

namespace Pymt

/-- A call, and, if it is ended by an exception from elsewhere, after how many accesses, and the exception. -/
structure Attempt where
  call : Call
  stop : Option (Nat × Err)
  deriving DecidableEq, Repr

namespace Attempt

/-- Outcome of a call, and the object afterwards. -/
def run (E : Env) (a : Attempt) (t : MPT) : Py Ans × MPT :=
  match a.stop with
  | none => a.call.seq E t
  | some (n, e) => (.error e, (a.call.prog E t.secure).cut n t)

/-- The call was not ended before it had made all of its accesses. -/
def whole (E : Env) (a : Attempt) (t : MPT) : Bool :=
  match a.stop with
  | none => true
  | some (n, _) => (a.call.prog E t.secure).accesses t ≤ n

/-- The object after a history. -/
def all (E : Env) (l : List Attempt) (t : MPT) : MPT := l.foldl (fun t a => (a.run E t).2) t

/-- The calls of a history that may have changed the trie: those that made all of their accesses. -/
def counted (E : Env) : List Attempt → MPT → List Op
  | [], _ => []
  | a :: l, t => (if a.whole E t then a.call.op?.toList else []) ++ counted E l (a.run E t).2

end Attempt
end Pymt
