import Verif.Model.Mpt

/-!
# `DataReference`, `EMPT`, `SparseEMPT`, `RootEMPT` (`/repo/src/pymt/empt.py`)

Keys are always `bytes` here; the `isinstance(key, bytes)` checks (e.g. lines 247, 295, 313) never fire.
-/

namespace Pymt

/-- What a data storage can hold (`/repo/src/pymt/empt.py:285-304`): `bytes`, `bytearray`, or another
object.  Of an object the model keeps an identity, whether it has the methods `encode_rlp` and
`decode_rlp`, and the bytes `encode_rlp()` returns (now; an object that changes is another value).
Simplification: `encode_rlp()` returns bytes and does not raise. -/
inductive Value where
  | bytes (b : Bytes)
  | bytearray (b : Bytes)
  | obj (id : Nat) (hasEnc hasDec : Bool) (enc : Bytes)
  deriving DecidableEq, Repr

/-- `DataReference`, `/repo/src/pymt/empt.py:10-52`, as made by its constructor; the attribute `_hash`
is a function of the other two (`DataRef.hash`). -/
structure DataRef where
  key : Bytes
  data : Bytes
  deriving DecidableEq, Repr

namespace DataRef

/-- `DataReference.__hash__`, `/repo/src/pymt/empt.py:60-61`: `int(hex digest, 16)`. -/
def hash (E : Env) (r : DataRef) : Nat := ofBE (E.keccak (r.key ++ r.data))

/-- `DataReference.__eq__`, `/repo/src/pymt/empt.py:55-58`, with another DataReference. -/
def eq (E : Env) (r s : DataRef) : Bool := r.hash E == s.hash E

/-- `b"FF"`, `/repo/src/pymt/empt.py:66`. -/
def flag : Bytes := [70, 70]

/-- pyrlp `big_endian_int.serialize` for integers `≥ 0`.  Used in `/repo/src/pymt/empt.py:66`. -/
def intItem (n : Nat) : Item := .str (if n = 0 then [] else beBytes n)

/-- pyrlp `big_endian_int.deserialize`: no leading zeros.  The type of its argument is not checked:
`serial or b"\x00"` makes an empty list zero, and `int.from_bytes` of a list with elements that are no integers
raises TypeError.  Used in `/repo/src/pymt/empt.py:73-81`. -/
def intOf : Item → Py Nat
  | .list [] => .ok 0
  | .list _ => .error .typeError
  | .str b => if b.head? = some 0 then .error .rlpDeserialization else .ok (ofBE b)

/-- `DataReference.encode`, `/repo/src/pymt/empt.py:64-66`. -/
def encode (E : Env) (r : DataRef) : Bytes :=
  Item.encode (.list [.str flag, .str r.key, .str r.data, intItem (r.hash E)])

/-- `DataReference.decode`, `/repo/src/pymt/empt.py:68-90`.  The sedes `List([...])` of pyrlp wants a list
of exactly four elements. -/
def decode (E : Env) (b : Bytes) : Py DataRef := do
  let item ← rlpDecode b
  match item with
  | .list [f, k, d, h] => do
    let f ← MPT.binary f
    let k ← MPT.binary k
    let d ← MPT.binary d
    let h ← intOf h
    if f ≠ flag then .error .valueError
    else if hash E ⟨k, d⟩ ≠ h then .error .valueError
    else return ⟨k, d⟩
  | _ => .error .rlpDeserialization

/-- The reference to a value as `get` and `update` of `EMPT` make it
(`/repo/src/pymt/empt.py:253-257, 299-302`): `encode_rlp()` of an object (AttributeError when it has no such
method); the constructor rejects `bytearray` with TypeError (lines 32-33). -/
def ofValue (key : Bytes) : Value → Py DataRef
  | .bytes b => .ok ⟨key, b⟩
  | .bytearray _ => .error .typeError
  | .obj _ true _ enc => .ok ⟨key, enc⟩
  | .obj _ false _ _ => .error .attributeError

end DataRef

/-- `EMPT`, `/repo/src/pymt/empt.py:93-178`: the trie object and the data storage. -/
structure EMPT where
  trie : MPT
  data : Dict Value
  deriving DecidableEq, Repr

namespace EMPT

/-- `EMPT.__init__`, `/repo/src/pymt/empt.py:118-178`, on given storages (`data_storage=None` is a TypeError
and not representable here). -/
def init (E : Env) (store : Store) (data : Dict Value) (root : Option Bytes) (secure : Bool) : Py EMPT :=
  if store.kv.length ≠ 0 ∧ root = none then .error .valueError
  else .ok { trie := MPT.init E store root secure, data := data }

/-- Run a computation on the trie inside an `EMPT` object.  `/repo/src/pymt/empt.py:178`. -/
def onTrie {α : Type} (m : M MPT α) : M EMPT α := fun s =>
  let (r, t) := m s.trie
  (r, { s with trie := t })

/-- `EMPT.__len__`, `/repo/src/pymt/empt.py:187-189`. -/
def len (s : EMPT) : Nat := s.data.length

/-- `EMPT.__iter__`, `/repo/src/pymt/empt.py:191-193`: the keys in the order the iterator yields them. -/
def iter (s : EMPT) : List Bytes := s.data.map (·.1)

/-- `EMPT.get`, `/repo/src/pymt/empt.py:240-262`. -/
def get (E : Env) (s : EMPT) (key : Bytes) : Py Value := do
  let data ← dgetItem s.data key
  let enc ← s.trie.get E key
  let ref ← DataRef.decode E enc
  let expected ← DataRef.ofValue key data
  if !ref.eq E expected then .error .invalidReference
  else return data

/-- `EMPT.get_reference`, `/repo/src/pymt/empt.py:264-268`; the same in `SparseEMPT`, lines 485-493. -/
def getReference (E : Env) (t : MPT) (key : Bytes) : Py DataRef := do
  let enc ← t.get E key
  DataRef.decode E enc

/-- `EMPT.update`, `/repo/src/pymt/empt.py:270-304`. -/
def update (E : Env) (key : Bytes) (value : Value) : M EMPT Unit :=
  match value with
  | .obj _ false _ _ => M.raise .notImplemented
  | .obj _ true false _ => M.raise .notImplemented
  | _ => do
    let ref ← M.lift (DataRef.ofValue key value)
    onTrie (MPT.update E key (ref.encode E))
    M.modify (fun s => { s with data := dset s.data key value })

/-- `EMPT.contains`, `/repo/src/pymt/empt.py:320-328`. -/
def contains (E : Env) (s : EMPT) (key : Bytes) : Py Bool := s.trie.contains E key

/-- `EMPT.delete`, `/repo/src/pymt/empt.py:306-318`. -/
def delete (E : Env) (key : Bytes) : M EMPT Unit := do
  let s ← M.get
  let present ← M.lift (s.trie.contains E key)
  if !present then M.raise .keyNotFound
  else do
    let _ ← M.lift (dgetItem s.data key)
    M.modify (fun s => { s with data := ddel s.data key })
    onTrie (MPT.delete E key)

/-- The first loop of `build_trie`, `/repo/src/pymt/empt.py:232-233`, on a dict: the iterator notices after
the first deletion that the size changed, and raises RuntimeError (CPython `dictiter_iternextkey`). -/
def dropNodes : M EMPT Unit := fun s =>
  match s.trie.store.kv with
  | [] => (.ok (), s)
  | (k, _) :: _ =>
    (.error .runtime, { s with trie := { s.trie with store :=
      { s.trie.store with kv := ddel s.trie.store.kv k } } })

/-- The second loop of `build_trie`, `/repo/src/pymt/empt.py:236-238`: `DataReference(key, value)` is a
TypeError unless the value is `bytes`. -/
def addRefs (E : Env) : Dict Value → M EMPT Unit
  | [] => pure ()
  | (key, .bytes b) :: rest => do
    onTrie (MPT.update E key (DataRef.encode E ⟨key, b⟩))
    addRefs E rest
  | (_, _) :: _ => M.raise .typeError

/-- `EMPT.build_trie`, `/repo/src/pymt/empt.py:220-238`. -/
def buildTrie (E : Env) : M EMPT Unit := do
  dropNodes
  let s ← M.get
  addRefs E s.data

/-! ### Methods inherited from `MutableMapping` (CPython `Lib/_collections_abc.py`) -/

/-- `MutableMapping.pop(key)` without default: `self[key]`, then `del self[key]`
(`/repo/src/pymt/empt.py:195-205` map these to `get` and `delete`). -/
def pop (E : Env) (key : Bytes) : M EMPT Value := do
  let s ← M.get
  let v ← M.lift (s.get E key)
  delete E key
  return v

/-- `MutableMapping.pop(key, default)`: the default when `self[key]` raises KeyError.  Inherited, `/repo/src/pymt/empt.py:93`. -/
def popDefault (E : Env) (key : Bytes) (default : Value) : M EMPT Value := do
  let s ← M.get
  match s.get E key with
  | .error .keyError => return default
  | .error e => M.raise e
  | .ok v => do
    delete E key
    return v

/-- `MutableMapping.popitem`: `next(iter(self))`, KeyError when there is none.
Inherited, `/repo/src/pymt/empt.py:93`; `/repo/src/pymt/empt.py:191-205`. -/
def popitem (E : Env) : M EMPT (Bytes × Value) := do
  let s ← M.get
  match s.iter with
  | [] => M.raise .keyError
  | key :: _ => do
    let v ← M.lift (s.get E key)
    delete E key
    return (key, v)

/-- The loop of `MutableMapping.clear`: `popitem` until it raises KeyError.  The first argument bounds the
number of rounds.  Inherited, `/repo/src/pymt/empt.py:93`. -/
def clearLoop (E : Env) : Nat → M EMPT Unit
  | 0 => M.raise .recursion
  | n + 1 => fun s =>
    match popitem E s with
    | (.ok _, s') => clearLoop E n s'
    | (.error .keyError, s') => (.ok (), s')
    | (.error e, s') => (.error e, s')

/-- `MutableMapping.clear`.  Every round that does not end the loop removes an entry of the data storage, so
that one round more than there are entries is enough.  Inherited, `/repo/src/pymt/empt.py:93`. -/
def clear (E : Env) : M EMPT Unit := fun s => clearLoop E (s.len + 1) s

/-- `MutableMapping.setdefault`.  Inherited, `/repo/src/pymt/empt.py:93`. -/
def setdefault (E : Env) (key : Bytes) (default : Value) : M EMPT Value := do
  let s ← M.get
  match s.get E key with
  | .ok v => return v
  | .error .keyError => do
    update E key default
    return default
  | .error e => M.raise e

/-- `list(self.items())` of `Mapping`: pairs `(key, self[key])` in the order of the iterator
(`/repo/src/pymt/empt.py:191-197`); `list(self.values())` are the second components. -/
def items (E : Env) (s : EMPT) : Py (List (Bytes × Value)) :=
  s.iter.mapM fun key => do
    let v ← s.get E key
    return (key, v)

/-- `EMPT.get_sparse_trie`, `/repo/src/pymt/empt.py:344-364`: the trie object of the new `SparseEMPT`.  The
storage is a new dict with the same entries (on the heap: `EObj.getSparse`). -/
def getSparse (E : Env) (s : EMPT) : MPT :=
  MPT.init E { kv := s.trie.store.kv, written := s.trie.store.written } s.trie.root s.trie.secure

/-- `EMPT.get_root_trie`, `/repo/src/pymt/empt.py:331-342`, with `RootEMPT.__init__`, lines 622-633: the trie
object of the new `RootEMPT`. -/
def getRootTrie (E : Env) (s : EMPT) : MPT := MPT.init E Store.empty s.trie.root s.trie.secure

end EMPT

/-! ### `SparseEMPT` (`/repo/src/pymt/empt.py:408-606`): an object around a trie, so the state is an `MPT` -/

namespace Sparse

/-- `SparseEMPT.update`, `/repo/src/pymt/empt.py:495-531`.  For other objects line 514 calls `hasattr` with
one argument: AttributeError when there is no such method, otherwise TypeError. -/
def update (E : Env) (key : Bytes) (value : Value) : M MPT Unit :=
  match value with
  | .obj _ false _ _ => M.raise .attributeError
  | .obj _ true _ _ => M.raise .typeError
  | _ => do
    let ref ← M.lift (DataRef.ofValue key value)
    MPT.update E key (ref.encode E)

/-- `SparseEMPT.delete`, `/repo/src/pymt/empt.py:533-543`. -/
def delete (E : Env) (key : Bytes) : M MPT Unit := do
  let t ← M.get
  let present ← M.lift (t.contains E key)
  if !present then M.raise .keyNotFound
  else MPT.delete E key

/-- `SparseEMPT.get_root_trie`, `/repo/src/pymt/empt.py:476-482`: `RootEMPT` has no parameter `mode`. -/
def getRootTrie (_t : MPT) : Py MPT := .error .typeError

/-- `SparseEMPT.encode_rlp`, `/repo/src/pymt/empt.py:596-598`. -/
def encodeRlp (t : MPT) : Py Bytes := t.encode

/-- `SparseEMPT.decode_rlp`, `/repo/src/pymt/empt.py:600-606`. -/
def decodeRlp (E : Env) (b : Bytes) : Py MPT := MPT.decode E b

end Sparse

namespace RootTrie

/-- `RootEMPT.encode_rlp`, `/repo/src/pymt/empt.py:666-668`. -/
def encodeRlp (t : MPT) : Py Bytes := t.encode

/-- `RootEMPT.decode_rlp`, `/repo/src/pymt/empt.py:670-676`. -/
def decodeRlp (E : Env) (b : Bytes) : Py MPT := MPT.decode E b

end RootTrie

/-! ### Storages as objects

`EMPT.__init__` keeps the storages it is given, and its default arguments are two dicts made once, when the
class is defined (`/repo/src/pymt/empt.py:118-124`; the same in `SparseEMPT`, line 425).  So storages need
an identity. -/

/-- The dicts that exist, by address.  `/repo/src/pymt/empt.py:118-124, 424-430`. -/
structure Heap where
  tries : List Store
  datas : List (Dict Value)

/-- Address of the default `trie_storage` of `EMPT`, `/repo/src/pymt/empt.py:120`. -/
def defaultTrie : Nat := 0
/-- Address of the default `data_storage` of `EMPT`, `/repo/src/pymt/empt.py:121`. -/
def defaultData : Nat := 0
/-- Address of the default `trie_storage` of `SparseEMPT`, `/repo/src/pymt/empt.py:425`. -/
def defaultSparse : Nat := 1

/-- After `import pymt`: the default dicts, empty.  `/repo/src/pymt/empt.py:120-121, 426`. -/
def Heap.start : Heap := { tries := [Store.empty, Store.empty], datas := [[]] }

/-- The trie storage at an address.  `/repo/src/pymt/empt.py:178`. -/
def Heap.trieAt (h : Heap) (a : Nat) : Store := h.tries.getD a Store.empty
/-- The data storage at an address.  `/repo/src/pymt/empt.py:177`. -/
def Heap.dataAt (h : Heap) (a : Nat) : Dict Value := h.datas.getD a []

/-- An `EMPT` object: addresses of its storages, and the attributes of its `MPT`
(`/repo/src/pymt/empt.py:177-178`). -/
structure EObj where
  trieAddr : Nat
  dataAddr : Nat
  root : Option Bytes
  secure : Bool
  deriving DecidableEq, Repr

namespace EObj

/-- The object with the contents of its storages.  `/repo/src/pymt/empt.py:177-178, 445`. -/
def load (h : Heap) (o : EObj) : EMPT :=
  { trie := { store := h.trieAt o.trieAddr, root := o.root, secure := o.secure },
    data := h.dataAt o.dataAddr }

/-- Write an object and the contents of its storages back.  `/repo/src/pymt/empt.py:177-178`. -/
def save (h : Heap) (o : EObj) (s : EMPT) : EObj × Heap :=
  ({ o with root := s.trie.root, secure := s.trie.secure },
   { tries := h.tries.set o.trieAddr s.trie.store, datas := h.datas.set o.dataAddr s.data })

/-- `EMPT(trie_storage, data_storage, root, secure)`, `/repo/src/pymt/empt.py:118-178`. -/
def make (E : Env) (h : Heap) (trieAddr dataAddr : Nat) (root : Option Bytes) (secure : Bool) : Py EObj := do
  let s ← EMPT.init E (h.trieAt trieAddr) (h.dataAt dataAddr) root secure
  return { trieAddr, dataAddr, root := s.trie.root, secure := s.trie.secure }

/-- `EMPT()`, `/repo/src/pymt/empt.py:118-124`. -/
def makeDefault (E : Env) (h : Heap) : Py EObj := make E h defaultTrie defaultData none false

/-- A method call on an object.  `/repo/src/pymt/empt.py:195-210, 448-465`. -/
def call {α : Type} (m : M EMPT α) (o : EObj) (h : Heap) : Py α × EObj × Heap :=
  let (r, s) := m (o.load h)
  let (o', h') := o.save h s
  (r, o', h')

end EObj

/-- A `SparseEMPT` object: address of its storage, and the attributes of its `MPT`
(`/repo/src/pymt/empt.py:445`). -/
structure SObj where
  trieAddr : Nat
  root : Option Bytes
  secure : Bool
  deriving DecidableEq, Repr

namespace SObj

/-- The object with the contents of its storage.  `/repo/src/pymt/empt.py:177-178, 445`. -/
def load (h : Heap) (o : SObj) : MPT :=
  { store := h.trieAt o.trieAddr, root := o.root, secure := o.secure }

/-- `SparseEMPT(trie_storage, root, secure)`, `/repo/src/pymt/empt.py:424-445`. -/
def make (E : Env) (h : Heap) (trieAddr : Nat) (root : Option Bytes) (secure : Bool) : SObj :=
  let t := MPT.init E (h.trieAt trieAddr) root secure
  { trieAddr, root := t.root, secure := t.secure }

/-- A method call on an object.  `/repo/src/pymt/empt.py:195-210, 448-465`. -/
def call {α : Type} (m : M MPT α) (o : SObj) (h : Heap) : Py α × SObj × Heap :=
  let (r, t) := m (o.load h)
  (r, { o with root := t.root, secure := t.secure }, { h with tries := h.tries.set o.trieAddr t.store })

end SObj

/-- `EMPT.get_sparse_trie`, `/repo/src/pymt/empt.py:344-364`, with `SparseEMPT.__init__`, line 445: a new dict
with the entries of the trie storage, and an object on it. -/
def EObj.getSparse (E : Env) (o : EObj) (h : Heap) : SObj × Heap :=
  let t := (o.load h).getSparse E
  ({ trieAddr := h.tries.length, root := t.root, secure := t.secure },
   { h with tries := h.tries ++ [t.store] })

end Pymt
