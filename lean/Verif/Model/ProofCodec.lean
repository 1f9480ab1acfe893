import Verif.Model.Merkle
import Verif.Model.Rlp

/-!
# The codec of `Proof` (`/repo/src/pymt/proof.py:151-268`)
-/

namespace Pymt

/-- An entry of a proof: a byte string, or a tuple of byte strings as `MerkleTree` makes them
(`/repo/src/pymt/mt.py:125`). -/
inductive Entry where
  | bytes (b : Bytes)
  | tuple (l : List Bytes)
  deriving DecidableEq, Repr

/-- `"xy" in s` for a two letter needle.  `/repo/src/pymt/proof.py:161, 214`. -/
def hasPair (x y : UInt8) : Bytes → Bool
  | a :: b :: rest => (a = x && b = y) || hasPair x y (b :: rest)
  | _ => false

/-- `"xyz" in s` for a three letter needle.  `/repo/src/pymt/proof.py:163`. -/
def hasTriple (x y z : UInt8) : Bytes → Bool
  | a :: b :: c :: rest => (a = x && b = y && c = z) || hasTriple x y z (b :: c :: rest)
  | _ => false

/-- `"MT" in s`, `/repo/src/pymt/proof.py:157, 211, 186`. -/
def saysMT (s : Bytes) : Bool := hasPair 77 84 s
/-- `"MPT" in s`, `/repo/src/pymt/proof.py:159, 182`. -/
def saysMPT (s : Bytes) : Bool := hasTriple 77 80 84 s

/-- The check of the proof type in the constructor, `/repo/src/pymt/proof.py:12, 64-67`. -/
def acceptedType (ty : Bytes) : Bool := ty = mptPoi || ty = mptPoe || ty = mtPoi

namespace Proof

/-- `Proof(target_key, root_hash, proof, proof_type)` followed by the assignment of the timestamp, as both decoders
do it, `/repo/src/pymt/proof.py:14-67, 195-202, 261-268`. -/
def construct (ty ts key root : Bytes) (proof : List Entry) : Py (Proof Entry) :=
  if acceptedType ty then
    .ok { type := ty, timestamp := ts, targetKey := key, trieRoot := root, proof := proof }
  else .error .typeError

/-- An entry as an RLP item: tuples are lists.  `/repo/src/pymt/proof.py:219-228`. -/
def entryItem : Entry → Item
  | .bytes b => .str b
  | .tuple l => .list (l.map .str)

/-- `encode_rlp`, `/repo/src/pymt/proof.py:204-226`. -/
def encodeRlp (p : Proof Entry) : Py Bytes :=
  if !saysMT p.type then .error .notImplemented
  else .ok (Item.list [.str p.type, .str p.timestamp, .str p.targetKey, .str p.trieRoot,
    .list (p.proof.map entryItem)]).encode

/-- `CountableList(binary)` of pyrlp: a list of byte strings, otherwise DeserializationError.
`/repo/src/pymt/proof.py:251-260`. -/
def binaries : List Item → Py (List Entry)
  | [] => .ok []
  | .str b :: rest => do
    let es ← binaries rest
    return .bytes b :: es
  | .list _ :: _ => .error .rlpDeserialization

/-- `decode_rlp`, `/repo/src/pymt/proof.py:228-268`. -/
def decodeRlp (b : Bytes) : Py (Proof Entry) := do
  let item ← rlpDecode b
  match item with
  | .list [.str ty, .str ts, .str key, .str root, .list l] => do
    let entries ← binaries l
    construct ty ts key root entries
  | _ => .error .rlpDeserialization

/-- The object that `json.dumps` is given: five members, strings and one list of strings.  `/repo/src/pymt/proof.py:156-170`. -/
structure JObj where
  type : Bytes
  timestamp : Bytes
  targetKey : Bytes
  rootHash : Bytes
  proof : List Bytes
  deriving DecidableEq, Repr

/-- Contract of the `json` library for such objects: `loads` undoes `dumps`.  What `loads` does with other
strings is left open.  `/repo/src/pymt/proof.py:169, 180`. -/
structure JsonLib where
  dumps : JObj → Bytes
  loads : Bytes → Py JObj
  loads_dumps : ∀ o, utf8Valid o.type = true → utf8Valid o.timestamp = true → utf8Valid o.targetKey = true →
    utf8Valid o.rootHash = true → (∀ e ∈ o.proof, utf8Valid e = true) → loads (dumps o) = .ok o

/-- `[i.decode() for i in value]`, `/repo/src/pymt/proof.py:158`: a tuple has no `decode`. -/
def decodeAll : List Entry → Py (List Bytes)
  | [] => .ok []
  | .bytes b :: rest => do
    let s ← decodeUtf8 b
    let ss ← decodeAll rest
    return s :: ss
  | .tuple _ :: _ => .error .attributeError

/-- `encode_json`, `/repo/src/pymt/proof.py:151-165`, with the members in the order of
`/repo/src/pymt/proof.py:72-78`.  An accepted type that does not say MT says MPT. -/
def encodeJson (J : JsonLib) (p : Proof Entry) : Py Bytes := do
  let type ← decodeUtf8 p.type
  let timestamp ← decodeUtf8 p.timestamp
  let targetKey ← decodeUtf8 p.targetKey
  let rootHash ← decodeUtf8 p.trieRoot
  if saysMT p.type then do
    let proof ← decodeAll p.proof
    return J.dumps { type, timestamp, targetKey, rootHash, proof }
  else .error .notImplemented

/-- `decode_json`, `/repo/src/pymt/proof.py:167-202`, on strings that hold such an object. -/
def decodeJson (J : JsonLib) (s : Bytes) : Py (Proof Entry) := do
  let o ← J.loads s
  if saysMPT o.type then .error .notImplemented
  else if saysMT o.type then construct o.type o.timestamp o.targetKey o.rootHash (o.proof.map .bytes)
  else .error .typeError

end Proof

/-- The proof object of a Merkle tree, with its entries as the tuples they are (`/repo/src/pymt/mt.py:125-132`). -/
def merkleProof (p : Proof (Bytes × Bytes)) : Proof Entry :=
  { type := p.type, timestamp := p.timestamp, targetKey := p.targetKey, trieRoot := p.trieRoot,
    proof := p.proof.map fun e => .tuple [e.1, e.2] }

end Pymt
