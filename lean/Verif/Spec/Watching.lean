import Verif.Spec.Threads
import Verif.Model.ThreadProofs

/-!
# Specification: a thread that makes or checks a proof while others write
-/

namespace Pymt

/-- A program that only reads, run while others write: its `m`-th access finds the trie object `v m`.  The outcome,
and the number of the next access.  (A write would not be seen by anyone; the programs here have none.) -/
def Prog.along {α : Type} (v : Nat → MPT) : Prog α → Nat → Py α × Nat
  | .done r, m => (r, m)
  | .load k n, m =>
    match dget (v m).store.kv k with
    | some x => (n x).along v (m + 1)
    | none => (.error .keyError, m + 1)
  | .save _ _ n, m => n.along v (m + 1)
  | .root n, m => (n (v m).root).along v (m + 1)
  | .setRoot _ n, m => n.along v (m + 1)

/-- The outcome of a program that only reads. -/
def Prog.watch {α : Type} (v : Nat → MPT) (p : Prog α) : Py α := (p.along v 0).1

/-- When a thread makes its accesses: the `n`-th one after `mom n` steps of the other threads, not before step `a` and
not after step `b`. -/
structure Moments (mom : Nat → Nat) (a b : Nat) : Prop where
  mono : ∀ n, mom n ≤ mom (n + 1)
  low : ∀ n, a ≤ mom n
  high : ∀ n, mom n ≤ b

/-- Trie `i` as the `n`-th access finds it. -/
def viewAt (E : Env) (secure : Nat → Bool) (calls : Nat → List (Nat × Call)) (sched : List Nat) (i : Nat)
    (mom : Nat → Nat) (n : Nat) : MPT :=
  (worldAt E secure calls sched (mom n)).obj i

/-- The key as the trie stores it. -/
def storedKey (E : Env) (secure : Bool) (k : Bytes) : Bytes := if secure then E.keccak k else k

end Pymt
