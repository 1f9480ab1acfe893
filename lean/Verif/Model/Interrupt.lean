import Verif.Model.Threads
import Verif.Model.EmptThreads

/-!
# Calls that are ended by an exception from elsewhere

The storages may be any dict-like objects (`/repo/src/pymt/mpt.py:29-32`), and reading
or writing an entry of such an object can raise: a full disk, a lost connection.  The interpreter itself can raise
KeyboardInterrupt at any moment.  None of the methods modelled in `Model/Threads.lean` and `Model/EmptThreads.lean`
catches exceptions, so any of these ends the call, and what has been done so far stays done.
-/

namespace Pymt

/-- The object after the first `n` accesses of a call (`/repo/src/pymt/mpt.py:138-270`).  An access of the storage that
raises is an access that did not take place, or, if the storage raises after it has made the change, one that did. -/
def Prog.cut {α : Type} : Nat → Prog α → MPT → MPT
  | 0, _, t => t
  | _ + 1, .done _, t => t
  | n + 1, .load k p, t =>
    match dget t.store.kv k with
    | some v => (p v).cut n t
    | none => t
  | n + 1, .save k v p, t => p.cut n { t with store := t.store.set k v }
  | n + 1, .root p, t => (p t.root).cut n t
  | n + 1, .setRoot r p, t => p.cut n { t with root := r }

/-- How many accesses a call makes when it is not disturbed (`/repo/src/pymt/mpt.py:138-270`). -/
def Prog.accesses {α : Type} : Prog α → MPT → Nat
  | .done _, _ => 0
  | .load k p, t =>
    match dget t.store.kv k with
    | some v => (p v).accesses t + 1
    | none => 1
  | .save k v p, t => p.accesses { t with store := t.store.set k v } + 1
  | .root p, t => (p t.root).accesses t + 1
  | .setRoot r p, t => p.accesses { t with root := r } + 1

/-- The same for calls on an `EMPT`, `/repo/src/pymt/empt.py:240-328`. -/
def EProg.cut {α : Type} : Nat → EProg α → EMPT → EMPT
  | 0, _, s => s
  | _ + 1, .done _, s => s
  | n + 1, .load k p, s =>
    match dget s.trie.store.kv k with
    | some v => (p v).cut n s
    | none => s
  | n + 1, .save k v p, s => p.cut n { s with trie := { s.trie with store := s.trie.store.set k v } }
  | n + 1, .root p, s => (p s.trie.root).cut n s
  | n + 1, .setRoot r p, s => p.cut n { s with trie := { s.trie with root := r } }
  | n + 1, .data k p, s =>
    match dget s.data k with
    | some v => (p v).cut n s
    | none => s
  | n + 1, .setData k v p, s => p.cut n { s with data := dset s.data k v }
  | n + 1, .delData k p, s =>
    match dget s.data k with
    | some _ => p.cut n { s with data := ddel s.data k }
    | none => s

/-- How many accesses a call on an `EMPT` makes when it is not disturbed, `/repo/src/pymt/empt.py:240-328`. -/
def EProg.accesses {α : Type} : EProg α → EMPT → Nat
  | .done _, _ => 0
  | .load k p, s =>
    match dget s.trie.store.kv k with
    | some v => (p v).accesses s + 1
    | none => 1
  | .save k v p, s => p.accesses { s with trie := { s.trie with store := s.trie.store.set k v } } + 1
  | .root p, s => (p s.trie.root).accesses s + 1
  | .setRoot r p, s => p.accesses { s with trie := { s.trie with root := r } } + 1
  | .data k p, s =>
    match dget s.data k with
    | some v => (p v).accesses s + 1
    | none => 1
  | .setData k v p, s => p.accesses { s with data := dset s.data k v } + 1
  | .delData k p, s =>
    match dget s.data k with
    | some _ => p.accesses { s with data := ddel s.data k } + 1
    | none => 1

end Pymt
