import Verif.Model.Rlp
import Verif.Model.NibblePath

/-!
# Nodes (`/repo/src/pymt/utils/node.py`) and the environment
-/

namespace Pymt

/-- What the Python process provides: the hash of `/repo/src/pymt/utils/hash.py:5-26`
(`keccak_hash(data)` without `hexdigest`: a 32-byte digest) and the recursion limit of the
interpreter. -/
structure Env where
  keccak : Bytes → Bytes
  keccak_len : ∀ b, (keccak b).length = 32
  limit : Nat

/-- `Node.EMPTY_HASH = keccak_hash(rlp.encode(b""))`, `/repo/src/pymt/utils/node.py:59`. -/
def emptyHash (E : Env) : Bytes := E.keccak (Item.encode (.str []))

/-- The three node classes, `/repo/src/pymt/utils/node.py:148-328`.  References are byte strings: empty,
a 32-byte hash, or the RLP encoding of a node shorter than 32 bytes.  `Branch(branches, None)` stores
`b""` (lines 306-309), so the value of a branch is a byte string. -/
inductive Node where
  | leaf (path : NibblePath) (data : Bytes)
  | ext (path : NibblePath) (nextRef : Bytes)
  | branch (branches : List Bytes) (data : Bytes)
  deriving DecidableEq, Repr

/-- `_prepare_reference_for_usage`, `/repo/src/pymt/utils/node.py:7-27`.  The argument comes from
`rlp.decode`, so it is a list or a byte string and the TypeError cannot happen. -/
def prepareForUsage : Item → Bytes
  | .list l => Item.encode (.list l)
  | .str b => b

/-- `_prepare_reference_for_encoding`, `/repo/src/pymt/utils/node.py:30-51`.  The `isinstance(ref,
Node)` case does not occur: references are byte strings in the model. -/
def prepareForEncoding (ref : Bytes) : Py Item :=
  if 0 < ref.length ∧ ref.length < 32 then rlpDecode ref else .ok (.str ref)

/-- `list(map(_prepare_reference_for_encoding, branches))`, `/repo/src/pymt/utils/node.py:324`. -/
def prepareAll : List Bytes → Py (List Item)
  | [] => .ok []
  | r :: rs => do
    let i ← prepareForEncoding r
    let is ← prepareAll rs
    return i :: is

namespace Node

/-- `Leaf.encode`, `Extension.encode`, `Branch.encode` with `include_data=True`,
`/repo/src/pymt/utils/node.py:188-205, 248-271, 311-328`. -/
def encode : Node → Py Bytes
  | .leaf path data => do
    let p ← path.encode true
    return Item.encode (.list [.str p, .str data])
  | .ext path nextRef => do
    let r ← prepareForEncoding nextRef
    let p ← path.encode false
    return Item.encode (.list [.str p, r])
  | .branch branches data => do
    let rs ← prepareAll branches
    return Item.encode (.list (rs ++ [.str data]))

/-- `Leaf(path, data)` applied to an item from `rlp.decode`: TypeError unless it is a byte string,
`/repo/src/pymt/utils/node.py:181-184` (same check for `Branch` at 300-303). -/
def asBytes : Item → Py Bytes
  | .str b => .ok b
  | .list _ => .error .typeError

/-- `Node.decode` with `include_data=True`, `/repo/src/pymt/utils/node.py:61-118`.

`data = rlp.decode(...)` can be a byte string: then `len(data)` is its length, and the accesses in
lines 95/105 hit ints and raise TypeError.  A list of length 17 is a branch, of length 2 a leaf or an
extension by the flag of its first element; `decode_with_type` on a list raises TypeError (`list & int`)
or, when it is empty, IndexError. -/
def decode (encoded : Bytes) : Py Node := do
  let data ← rlpDecode encoded
  match data with
  | .str b => if b.length = 17 ∨ b.length = 2 then .error .typeError else .error .assertion
  | .list l =>
    if l.length = 17 then
      let branches := (l.take 16).map prepareForUsage
      match l[16]? with
      | some d => do
        let v ← asBytes d
        return .branch branches v
      | none => .error .indexError
    else
      match l with
      | [p, d] =>
        match p with
        | .list [] => .error .indexError
        | .list _ => .error .typeError
        | .str pb => do
          let (path, isLeaf) ← NibblePath.decodeWithType pb
          if isLeaf then
            let v ← asBytes d
            return .leaf path v
          else
            return .ext path (prepareForUsage d)
      | _ => .error .assertion

/-- `Node.into_reference`, `/repo/src/pymt/utils/node.py:120-145`. -/
def intoReference (E : Env) (n : Node) : Py Bytes := do
  let encoded ← n.encode
  if encoded.length < 32 then return encoded
  else return E.keccak encoded

end Node
end Pymt
