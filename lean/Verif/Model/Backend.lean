import Verif.Model.Threads

/-!
# Tries over storages that are not dicts (`/repo/src/pymt/mpt.py`)

"Any data structure that implements `__getitem__` and `__setitem__` should be OK" (`/repo/src/pymt/mpt.py:29-32`).  Here
the storage is such an object: a state, which every access may change, and the two methods.
-/

namespace Pymt

/-- A class of storages, `/repo/src/pymt/mpt.py:29-32`.  `σ` is the state of an object of the class.
`getItem k` is `storage[k]`: the value, or `none` for a KeyError, or `error e` for an exception of the storage itself
(`ε` is the type of these; KeyErrors are not among them).  `setItem k v` is `storage[k] = v`. -/
structure Backend (ε : Type) where
  σ : Type
  getItem : Bytes → σ → Except ε (Option Bytes) × σ
  setItem : Bytes → Bytes → σ → Except ε Unit × σ

/-- An `MPT` over such a storage, `/repo/src/pymt/mpt.py:54-75`.  `written` is a ghost: the values given to
`__setitem__` so far. -/
structure BackTrie {ε : Type} (B : Backend ε) where
  st : B.σ
  root : Option Bytes
  secure : Bool
  written : List Bytes

variable {ε : Type} {B : Backend ε}

/-- `MPT(storage, secure=...)`, `/repo/src/pymt/mpt.py:54-75`. -/
def BackTrie.new (E : Env) (st : B.σ) (secure : Bool) : BackTrie B :=
  { st := st, root := some (emptyHash E), secure := secure, written := [] }

/-- A call on such a trie: the programs are those of `Model/Threads.lean`, the accesses `self._storage[k]`
(`/repo/src/pymt/mpt.py:550`) and `self._storage[k] = v` (line 1240) are calls of the two methods.  No exception is
caught. -/
def Prog.against {α : Type} : Prog α → BackTrie B → Except ε (Py α) × BackTrie B
  | .done r, o => (.ok r, o)
  | .load k p, o =>
    match B.getItem k o.st with
    | (.ok (some v), s) => (p v).against { o with st := s }
    | (.ok none, s) => (.ok (.error .keyError), { o with st := s })
    | (.error e, s) => (.error e, { o with st := s })
  | .save k v p, o =>
    match B.setItem k v o.st with
    | (.ok _, s) => p.against { o with st := s, written := o.written ++ [v] }
    | (.error e, s) => (.error e, { o with st := s, written := o.written ++ [v] })
  | .root p, o => (p o.root).against o
  | .setRoot r p, o => p.against { o with root := r }

/-- A call of a method of the trie, `/repo/src/pymt/mpt.py:138-270`. -/
def BackTrie.call (E : Env) (c : Call) (o : BackTrie B) : Except ε (Py Ans) × BackTrie B :=
  (c.prog E o.secure).against o

/-- Calls one after the other (`/repo/src/pymt/mpt.py:138-270`); exceptions are caught by the client. -/
def BackTrie.calls (E : Env) : List Call → BackTrie B → List (Except ε (Py Ans)) × BackTrie B
  | [], o => ([], o)
  | c :: l, o =>
    let (r, o) := o.call E c
    let (rs, o) := o.calls E l
    (r :: rs, o)

end Pymt
