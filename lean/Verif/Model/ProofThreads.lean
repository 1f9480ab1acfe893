import Verif.Model.Iterate
import Verif.Model.Merkle

/-!
# Threads that loop over the same `Proof` (`/repo/src/pymt/proof.py:99-111`)

The iterator of a `Proof` is the object itself; its attributes `_data` and `_offset` are shared by all loops.  A thread
can be interrupted between two accesses to them.
-/

namespace Pymt

/-- Something that is yielded when a proof is looped over, `/repo/src/pymt/proof.py:101`. -/
abbrev ProofItem := FieldName × Field

/-- A program with one access to `_data` or `_offset` per step (`/repo/src/pymt/proof.py:99-111`); `none` for an attribute
that is not there yet. -/
inductive LProg (α : Type) where
  | done (r : Py α)
  | setData (p : LProg α)
  | setOffset (n : Nat) (p : LProg α)
  | data (k : Option (List ProofItem) → LProg α)
  | offset (k : Option Nat → LProg α)

namespace LProg

variable {α : Type}

/-- `self._data`, `/repo/src/pymt/proof.py:107, 111`: AttributeError when it is not there. -/
def readData (k : List ProofItem → LProg α) : LProg α :=
  .data fun
    | none => .done (.error .attributeError)
    | some l => k l

/-- `self._offset`, `/repo/src/pymt/proof.py:107, 110, 111`: AttributeError when it is not there. -/
def readOffset (k : Nat → LProg α) : LProg α :=
  .offset fun
    | none => .done (.error .attributeError)
    | some n => k n

/-- `Proof.__iter__`, `/repo/src/pymt/proof.py:99-103`.  What `items()` returns does not change, so the list is not an argument. -/
def iter (p : LProg α) : LProg α := .setData (.setOffset 0 p)

/-- `Proof.__next__`, `/repo/src/pymt/proof.py:105-111`; what comes next gets `none` for StopIteration.  `+=` reads and then
writes. -/
def next (k : Option ProofItem → LProg α) : LProg α :=
  readOffset fun n => readData fun l =>
    if n ≥ l.length then k none
    else readOffset fun n => .setOffset (n + 1) (readData fun l => readOffset fun n =>
      match MTree.pyIndexInt l ((n : Int) - 1) with
      | .error e => .done (.error e)
      | .ok x => k (some x))

/-- `for x in proof: got.append(x)` after `iter(proof)`, `/repo/src/pymt/proof.py:105-111`; the first argument bounds the number
of rounds. -/
def rounds : Nat → List ProofItem → LProg (List ProofItem)
  | 0, got => .done (.ok got)
  | f + 1, got => next fun
    | none => .done (.ok got)
    | some x => rounds f (got ++ [x])

/-- `list(proof)`, `/repo/src/pymt/proof.py:99-111`; the argument bounds the number of rounds. -/
def list (f : Nat) : LProg (List ProofItem) := iter (rounds f [])

end LProg

/-- A `Proof` and threads that use it: the attributes of the object (`/repo/src/pymt/proof.py:101-102`), and what each
thread still has to do. -/
structure LWorld (α : Type) where
  items : List ProofItem
  data : Option (List ProofItem)
  offset : Option Nat
  thread : Nat → LProg α

namespace LWorld

variable {α : Type}

/-- The program of thread `i` from now on.  Threads of a client; the iterator is `/repo/src/pymt/proof.py:99-111`. -/
def put (w : LWorld α) (i : Nat) (p : LProg α) : LWorld α := { w with thread := fun j => if j = i then p else w.thread j }

/-- Thread `i` makes one access (`/repo/src/pymt/proof.py:99-111`). -/
def step (w : LWorld α) (i : Nat) : LWorld α :=
  match w.thread i with
  | .done _ => w
  | .setData p => { w with data := some w.items }.put i p
  | .setOffset n p => { w with offset := some n }.put i p
  | .data k => w.put i (k w.data)
  | .offset k => w.put i (k w.offset)

/-- The threads take turns in some order.  Threads of a client; the iterator is `/repo/src/pymt/proof.py:99-111`. -/
def run (w : LWorld α) : List Nat → LWorld α
  | [] => w
  | i :: s => (w.step i).run s

/-- What thread `i` has got, when it is done.  Threads of a client; the iterator is `/repo/src/pymt/proof.py:99-111`. -/
def out (w : LWorld α) (i : Nat) : Option (Py α) :=
  match w.thread i with
  | .done r => some r
  | _ => none

/-- A proof over which nobody has looped, and threads.  Threads of a client; the iterator is `/repo/src/pymt/proof.py:99-111`. -/
def start (p : Proof Entry) (thread : Nat → LProg α) : LWorld α := { items := p.items, data := none, offset := none, thread }

end LWorld

end Pymt
