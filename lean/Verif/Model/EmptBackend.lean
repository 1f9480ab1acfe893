import Verif.Model.Backend
import Verif.Model.EmptThreads

/-!
# `EMPT`s over storages that are not dicts (`/repo/src/pymt/empt.py`)

"The MPT storage as well as the data storage can be defined by the user" (`/repo/src/pymt/empt.py:102-115`).
-/

namespace Pymt

/-- A class of data storages, `/repo/src/pymt/empt.py:104-108`: state and methods.  KeyErrors are `none` for
`__getitem__` and `false` for `__delitem__`.  Of the methods listed in the docstring only these three are used by the
calls modelled here; exceptions of the storage itself are left to `Model/Interrupt.lean`. -/
structure DataBackend where
  σ : Type
  getItem : Bytes → σ → Option Value × σ
  setItem : Bytes → Value → σ → σ
  delItem : Bytes → σ → Bool × σ

/-- An `EMPT` over such storages, `/repo/src/pymt/empt.py:130-180`; the storage of the trie raises nothing of its
own. -/
structure BackEmpt (B : Backend Empty) (D : DataBackend) where
  trie : BackTrie B
  data : D.σ

variable {B : Backend Empty} {D : DataBackend}

/-- `EMPT(data_storage, trie_storage, secure=...)` over empty storages, `/repo/src/pymt/empt.py:130-180`. -/
def BackEmpt.new (E : Env) (st : B.σ) (data : D.σ) (secure : Bool) : BackEmpt B D :=
  { trie := BackTrie.new E st secure, data := data }

/-- A call on such an object (programs of `Model/EmptThreads.lean`, `/repo/src/pymt/empt.py:240-328`). -/
def EProg.against {α : Type} : EProg α → BackEmpt B D → Py α × BackEmpt B D
  | .done r, o => (r, o)
  | .load k p, o =>
    match B.getItem k o.trie.st with
    | (.ok (some v), s) => (p v).against { o with trie := { o.trie with st := s } }
    | (.ok none, s) => (.error .keyError, { o with trie := { o.trie with st := s } })
    | (.error e, _) => nomatch e
  | .save k v p, o =>
    match B.setItem k v o.trie.st with
    | (.ok _, s) => p.against { o with trie := { o.trie with st := s, written := o.trie.written ++ [v] } }
    | (.error e, _) => nomatch e
  | .root p, o => (p o.trie.root).against o
  | .setRoot r p, o => p.against { o with trie := { o.trie with root := r } }
  | .data k p, o =>
    match D.getItem k o.data with
    | (some v, d) => (p v).against { o with data := d }
    | (none, d) => (.error .keyError, { o with data := d })
  | .setData k v p, o => p.against { o with data := D.setItem k v o.data }
  | .delData k p, o =>
    match D.delItem k o.data with
    | (true, d) => p.against { o with data := d }
    | (false, d) => (.error .keyError, { o with data := d })

/-- Calls one after the other (`/repo/src/pymt/empt.py:240-328`); exceptions are caught by the client. -/
def BackEmpt.calls (E : Env) : List ECall → BackEmpt B D → List (Py EAns) × BackEmpt B D
  | [], o => ([], o)
  | c :: l, o =>
    let (r, o) := (c.prog E o.trie.secure).against o
    let (rs, o) := o.calls E l
    (r :: rs, o)

end Pymt
