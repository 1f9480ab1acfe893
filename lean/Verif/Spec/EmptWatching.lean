import Verif.Model.EmptThreads
import Verif.Spec.Empt

/-!
# Specification: a thread that reads an `EMPT` while another one writes
-/

namespace Pymt

namespace EProg

/-- A program with nobody else around: outcome, and the object afterwards. -/
def alone {α : Type} : EProg α → EMPT → Py α × EMPT
  | .done r, s => (r, s)
  | .load k n, s =>
    match dget s.trie.store.kv k with
    | some v => (n v).alone s
    | none => (.error .keyError, s)
  | .save k v n, s => n.alone { s with trie := { s.trie with store := s.trie.store.set k v } }
  | .root n, s => (n s.trie.root).alone s
  | .setRoot r n, s => n.alone { s with trie := { s.trie with root := r } }
  | .data k n, s =>
    match dget s.data k with
    | some v => (n v).alone s
    | none => (.error .keyError, s)
  | .setData k v n, s => n.alone { s with data := dset s.data k v }
  | .delData k n, s =>
    match dget s.data k with
    | some _ => n.alone { s with data := ddel s.data k }
    | none => (.error .keyError, s)

/-- The states the object goes through: after every access. -/
def states {α : Type} : EProg α → EMPT → List EMPT
  | .done _, _ => []
  | .load k n, s =>
    match dget s.trie.store.kv k with
    | some v => s :: (n v).states s
    | none => [s]
  | .save k v n, s =>
    let s' := { s with trie := { s.trie with store := s.trie.store.set k v } }
    s' :: n.states s'
  | .root n, s => s :: (n s.trie.root).states s
  | .setRoot r n, s =>
    let s' := { s with trie := { s.trie with root := r } }
    s' :: n.states s'
  | .data k n, s =>
    match dget s.data k with
    | some v => s :: (n v).states s
    | none => [s]
  | .setData k v n, s =>
    let s' := { s with data := dset s.data k v }
    s' :: n.states s'
  | .delData k n, s =>
    match dget s.data k with
    | some _ =>
      let s' := { s with data := ddel s.data k }
      s' :: n.states s'
    | none => [s]

/-- A program that only reads, run while another thread writes: its `m`-th access finds the object `v m`.  The outcome,
and the number of the next access.  (A write would not be seen by anyone; the programs here have none.) -/
def along {α : Type} (v : Nat → EMPT) : EProg α → Nat → Py α × Nat
  | .done r, m => (r, m)
  | .load k n, m =>
    match dget (v m).trie.store.kv k with
    | some x => (n x).along v (m + 1)
    | none => (.error .keyError, m + 1)
  | .save _ _ n, m => n.along v (m + 1)
  | .root n, m => (n (v m).trie.root).along v (m + 1)
  | .setRoot _ n, m => n.along v (m + 1)
  | .data k n, m =>
    match dget (v m).data k with
    | some x => (n x).along v (m + 1)
    | none => (.error .keyError, m + 1)
  | .setData _ _ n, m => n.along v (m + 1)
  | .delData _ n, m => n.along v (m + 1)

/-- The outcome of a program that only reads. -/
def watch {α : Type} (v : Nat → EMPT) (p : EProg α) : Py α := (p.along v 0).1

end EProg

/-- The program of a call. -/
def EOp.prog (E : Env) (secure : Bool) : EOp → EProg Unit
  | .update k v => EMPT.updateCallP E secure k v
  | .delete k => EMPT.deleteCallP E secure k

namespace EMPT

/-- The states an object goes through while a thread makes some calls on it, beginning with the present one. -/
def passes (E : Env) (s : EMPT) : List EOp → List EMPT
  | [] => [s]
  | op :: ops => s :: (op.prog E s.trie.secure).states s ++ passes E (exec E op s).2 ops

end EMPT

/-- What a reader may see of an object that goes through the states of a list: each access finds one of them, never an
earlier one than the access before. -/
def Sees (l : List EMPT) (v : Nat → EMPT) : Prop :=
  ∃ mom : Nat → Nat, (∀ n, mom n ≤ mom (n + 1)) ∧ ∀ n, l[mom n]? = some (v n)

end Pymt
