import Verif.Model.Threads
import Verif.Model.EmptThreads

/-!
# Threads whose calls may be ended by an exception from elsewhere (`/repo/src/pymt/mpt.py`, `empt.py`)

`Model/Threads.lean` and `Model/EmptThreads.lean` describe calls by several threads that run until
they return or raise an exception of their own.  Here a call may also be ended between two of its accesses of shared state,
by an exception that does not come from the code: KeyboardInterrupt, MemoryError, an error of a storage.  The code catches
no such exception (there is no `try` in `/repo/src/pymt/mpt.py:138-270, 533-672, 1012-1463` and
`/repo/src/pymt/empt.py:240-328`); the client catches it and goes on with its next call.
-/

namespace Pymt

/-- What the models of threads have in common: the program of a call, and what it does next to the state that threads share:
one access, or it ends with an outcome.  `/repo/src/pymt/mpt.py:138-270`, `/repo/src/pymt/empt.py:240-328`. -/
structure Machine (S C P O : Type) where
  enter : S → C → P
  move : S → P → S × (P ⊕ O)

/-- A thread, as in `/repo/src/pymt/mpt.py:138-270`: the call in progress, the calls still to make, and the outcomes of the
calls made. -/
structure Job (C P O : Type) where
  cur : Option P
  rest : List C
  outs : List O

/-- Threads and what they share (the attributes of an object, `/repo/src/pymt/mpt.py:54-75`). -/
structure Shop (S C P O : Type) where
  jobs : Nat → Job C P O
  shared : S

namespace Shop

variable {S C P O : Type}

/-- Replace thread `j` (threads call `/repo/src/pymt/mpt.py:138-270`). -/
def set (w : Shop S C P O) (j : Nat) (b : Job C P O) : Shop S C P O :=
  { w with jobs := fun i => if i = j then b else w.jobs i }

/-- Threads about to make their calls on what they share, `/repo/src/pymt/mpt.py:54-75`. -/
def new (s : S) (calls : Nat → List C) : Shop S C P O := ⟨fun j => ⟨none, calls j, []⟩, s⟩

end Shop

/-- What happens next: thread `j` moves, or the call that thread `j` is making is ended by an exception that does not come
from `/repo/src/pymt/mpt.py:138-270`. -/
inductive Happening where
  | moves (j : Nat)
  | ends (j : Nat)
  deriving DecidableEq

namespace Machine

variable {S C P O : Type} (M : Machine S C P O)

/-- Thread `j` runs until it has touched shared state once, begun a call or ended one; calls as in
`/repo/src/pymt/mpt.py:138-270`. -/
def step (j : Nat) (w : Shop S C P O) : Shop S C P O :=
  match (w.jobs j).cur with
  | none =>
    match (w.jobs j).rest with
    | [] => w
    | c :: rest => w.set j { w.jobs j with cur := some (M.enter w.shared c), rest := rest }
  | some p =>
    match M.move w.shared p with
    | (s, .inl p') => { w.set j { w.jobs j with cur := some p' } with shared := s }
    | (s, .inr o) => { w.set j { w.jobs j with cur := none, outs := (w.jobs j).outs ++ [o] } with shared := s }

/-- The same calls (`/repo/src/pymt/mpt.py:138-270`); the outcome `none` is kept for those that are ended. -/
def may : Machine S C P (Option O) where
  enter := M.enter
  move s p := ((M.move s p).1, match (M.move s p).2 with
    | .inl p' => .inl p'
    | .inr o => .inr (some o))

/-- Something happens.  What a call has done to the shared state when it is ended stays done: nothing in
`/repo/src/pymt/mpt.py:138-270` undoes it. -/
def happen (w : Shop S C P (Option O)) : Happening → Shop S C P (Option O)
  | .moves j => M.may.step j w
  | .ends j =>
    match (w.jobs j).cur with
    | none => w
    | some _ => w.set j { w.jobs j with cur := none, outs := (w.jobs j).outs ++ [none] }

/-- What happens, one after the other, to threads that call `/repo/src/pymt/mpt.py:138-270`. -/
def course (l : List Happening) (w : Shop S C P (Option O)) : Shop S C P (Option O) := l.foldl M.happen w

end Machine

/-- The dict that tries were made with, and the attributes `_root` and `_secure` of each, `/repo/src/pymt/mpt.py:54-75`. -/
structure Tries where
  store : Store
  roots : Nat → Option Bytes
  secure : Nat → Bool

/-- Trie object `i`, `/repo/src/pymt/mpt.py:54-75`. -/
def Tries.obj (s : Tries) (i : Nat) : MPT := { store := s.store, root := s.roots i, secure := s.secure i }

/-- New objects `MPT(d, secure=...)` over one empty dict `d`, `/repo/src/pymt/mpt.py:54-75`. -/
def Tries.new (E : Env) (secure : Nat → Bool) : Tries :=
  { store := Store.empty, roots := fun _ => some (emptyHash E), secure := secure }

/-- Calls on tries, `/repo/src/pymt/mpt.py:138-270`, as in `World.step`. -/
def mptMachine (E : Env) : Machine Tries (Nat × Call) (Nat × Prog Ans) (Py Ans) where
  enter s c := (c.1, c.2.prog E (s.secure c.1))
  move s p :=
    match p with
    | (_, .done r) => (s, .inr r)
    | (i, .load k n) =>
      match dget s.store.kv k with
      | some v => (s, .inl (i, n v))
      | none => (s, .inl (i, .done (.error .keyError)))
    | (i, .save k v n) => ({ s with store := s.store.set k v }, .inl (i, n))
    | (i, .root n) => (s, .inl (i, n (s.roots i)))
    | (i, .setRoot r n) => ({ s with roots := fun i' => if i' = i then r else s.roots i' }, .inl (i, n))

/-- Calls on an `EMPT`, `/repo/src/pymt/empt.py:240-328`, as in `EWorld.step`. -/
def emptMachine (E : Env) : Machine EMPT ECall (EProg EAns) (Py EAns) where
  enter s c := c.prog E s.trie.secure
  move s p :=
    match p with
    | .done r => (s, .inr r)
    | p => ((EWorld.access p s).1, .inl (EWorld.access p s).2)

end Pymt
