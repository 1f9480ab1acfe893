import Verif.Model.Empt
import Verif.Model.Threads

/-!
# Copies of a trie, made while other threads may write (`EMPT.get_sparse_trie`, `MPT.encode`)

Both go through the dict of nodes with a `for` loop and read the root afterwards.  Each access to the dict, to its
iterator and to the root is one step.
-/

namespace Pymt

/-- A call in progress that copies a dict of nodes.
`size`: `iter(d)` notes the number of entries; `item i used`: `next(it)` for an iterator that has given `i` entries,
`none` when there are no more, RuntimeError when the number of entries is no longer `used` (as CPython's dict iterators
check, before they look for an entry); `load k`: `d[k]`, KeyError when missing; `root`: `self._root`.
`/repo/src/pymt/empt.py:356-364`, `/repo/src/pymt/mpt.py:494-497`. -/
inductive CopyProg (α : Type) where
  | done (r : Py α)
  | size (next : Nat → CopyProg α)
  | item (i used : Nat) (next : Option (Bytes × Bytes) → CopyProg α)
  | load (k : Bytes) (next : Bytes → CopyProg α)
  | root (next : Option Bytes → CopyProg α)

namespace CopyProg

/-- The outcome of a program whose `m`-th access finds the trie object `v m`, and the number of the next access.  The
programs change nothing the other threads could see: `/repo/src/pymt/empt.py:355-364`, `/repo/src/pymt/mpt.py:494-498`. -/
def along {α : Type} (v : Nat → MPT) : CopyProg α → Nat → Py α × Nat
  | .done r, m => (r, m)
  | .size n, m => (n (v m).store.kv.length).along v (m + 1)
  | .item i used n, m =>
    if (v m).store.kv.length ≠ used then (.error .runtime, m + 1)
    else (n ((v m).store.kv)[i]?).along v (m + 1)
  | .load k n, m =>
    match dget (v m).store.kv k with
    | some x => (n x).along v (m + 1)
    | none => (.error .keyError, m + 1)
  | .root n, m => (n (v m).root).along v (m + 1)

/-- The outcome alone.  `/repo/src/pymt/empt.py:356-364`, `/repo/src/pymt/mpt.py:494-497`. -/
def watch {α : Type} (v : Nat → MPT) (p : CopyProg α) : Py α := (p.along v 0).1

end CopyProg

namespace EMPT

/-- The end of `EMPT.get_sparse_trie`, `/repo/src/pymt/empt.py:360-364`: the root is read when the entries have been
copied.  The trie object of the new `SparseEMPT`; the ghost `written` of its storage has the copied entries. -/
def sparseOf (E : Env) (secure : Bool) (copied : Dict Bytes) : CopyProg MPT :=
  .root fun r => .done (.ok (MPT.init E { kv := copied, written := copied.map (·.2) } r secure))

/-- The loop of `EMPT.get_sparse_trie`, `/repo/src/pymt/empt.py:357-358`.  The first argument bounds the rounds; the
iterator ends after as many as it noted entries (RecursionError stands for "never"). -/
def copyRest (E : Env) (secure : Bool) (used : Nat) : Nat → Nat → Dict Bytes → CopyProg MPT
  | 0, i, copied => .item i used fun
    | none => sparseOf E secure copied
    | some _ => .done (.error .recursion)
  | f + 1, i, copied => .item i used fun
    | none => sparseOf E secure copied
    | some (k, _) => .load k fun v => copyRest E secure used f (i + 1) (dset copied k v)

/-- `EMPT.get_sparse_trie`, `/repo/src/pymt/empt.py:344-364`. -/
def getSparseP (E : Env) (secure : Bool) : CopyProg MPT :=
  .size fun used => copyRest E secure used used 0 []

end EMPT

namespace MPT

/-- The end of `MPT.encode`, `/repo/src/pymt/mpt.py:497-498`: the root is read when the entries have been collected. -/
def encodeOf (secure : Bool) (items : List Item) : CopyProg Bytes :=
  .root fun
    | none => .done (.error .typeError)
    | some r => .done (.ok (Item.encode (.list [.str r, .list items, boolItem secure])))

/-- The loop of `MPT.encode`, `/repo/src/pymt/mpt.py:494-496`; the first argument as in `EMPT.copyRest`. -/
def encodeRest (secure : Bool) (used : Nat) : Nat → Nat → List Item → CopyProg Bytes
  | 0, i, items => .item i used fun
    | none => encodeOf secure items
    | some _ => .done (.error .recursion)
  | f + 1, i, items => .item i used fun
    | none => encodeOf secure items
    | some (_, v) =>
      match prepareForEncoding v with
      | .error e => .done (.error e)
      | .ok x => encodeRest secure used f (i + 1) (items ++ [x])

/-- `MPT.encode`, `/repo/src/pymt/mpt.py:492-498`. -/
def encodeCallP (secure : Bool) : CopyProg Bytes :=
  .size fun used => encodeRest secure used used 0 []

end MPT
end Pymt
