import Verif.Model.EmptThreads

/-!
# An `EMPT` that is given one dict for both its storages (`/repo/src/pymt/empt.py`)

`EMPT.__init__` does not compare its arguments `trie_storage` and `data_storage` (`/repo/src/pymt/empt.py:167-178`), so
`EMPT(d, d)` is possible.  Then nodes and data are entries of the same dict.
-/

namespace Pymt

/-- `EMPT(d, d, ...)`, `/repo/src/pymt/empt.py:118-178`: the dict, and root and flag of the trie.  Nodes are entries whose
value is `bytes`. -/
structure OneEmpt where
  dict : Dict Value
  root : Option Bytes
  secure : Bool
  deriving DecidableEq, Repr

/-- `EMPT(d, d, secure=...)` with an empty dict `d`, `/repo/src/pymt/empt.py:118-178`. -/
def OneEmpt.new (E : Env) (secure : Bool) : OneEmpt := { dict := [], root := some (emptyHash E), secure := secure }

/-- A call on such an object.  The programs are those of `Model/EmptThreads.lean` (`/repo/src/pymt/empt.py:240-328`); all
accesses go to the one dict.  `Node.decode` of something else than bytes (`/repo/src/pymt/mpt.py:550-554`) raises
DecodingError.  Simplification: a `bytearray` is read as bytes are; `update` never stores one (lines 299-304). -/
def EProg.joined {α : Type} : EProg α → OneEmpt → Py α × OneEmpt
  | .done r, o => (r, o)
  | .load k p, o =>
    match dget o.dict k with
    | some (.bytes v) => (p v).joined o
    | some (.bytearray v) => (p v).joined o
    | some (.obj _ _ _ _) => (.error .rlpDecoding, o)
    | none => (.error .keyError, o)
  | .save k v p, o => p.joined { o with dict := dset o.dict k (.bytes v) }
  | .root p, o => (p o.root).joined o
  | .setRoot r p, o => p.joined { o with root := r }
  | .data k p, o =>
    match dget o.dict k with
    | some v => (p v).joined o
    | none => (.error .keyError, o)
  | .setData k v p, o => p.joined { o with dict := dset o.dict k v }
  | .delData k p, o =>
    match dget o.dict k with
    | some _ => p.joined { o with dict := ddel o.dict k }
    | none => (.error .keyError, o)

/-- Calls one after the other (`/repo/src/pymt/empt.py:240-328`); exceptions are caught by the client. -/
def OneEmpt.calls (E : Env) : List ECall → OneEmpt → List (Py EAns) × OneEmpt
  | [], o => ([], o)
  | c :: l, o =>
    let (r, o) := (c.prog E o.secure).joined o
    let (rs, o) := o.calls E l
    (r :: rs, o)

/-- `EMPT.__len__`, `/repo/src/pymt/empt.py:187-189`. -/
def OneEmpt.len (o : OneEmpt) : Nat := o.dict.length

/-- `EMPT.__iter__`, `/repo/src/pymt/empt.py:191-193`: the keys in the order the iterator yields them. -/
def OneEmpt.iter (o : OneEmpt) : List Bytes := o.dict.map (·.1)

/-- `EMPT.build_trie`, `/repo/src/pymt/empt.py:220-238`: the first loop deletes the first entry, and raises RuntimeError
because the dict has changed its size (as in `EMPT.dropNodes`).  If the dict is empty there is nothing to add. -/
def OneEmpt.buildTrie : M OneEmpt Unit := fun o =>
  match o.dict with
  | [] => (.ok (), o)
  | (k, _) :: _ => (.error .runtime, { o with dict := ddel o.dict k })

end Pymt
