import Verif.Model.Mpt
import Verif.Model.Merkle

/-!
# The optional arguments: `include_data` of nodes, `hash_key` of `contains`, `keccak_hash_list`
-/

namespace Pymt
namespace Node

/-- `Leaf.encode`, `Extension.encode`, `Branch.encode` with `include_data=False`,
`/repo/src/pymt/utils/node.py:188-205, 248-271, 311-328`. -/
def encodeBare : Node → Py Bytes
  | .leaf path _ => do
    let p ← path.encode true
    return Item.encode (.list [.str p])
  | .ext path nextRef => do
    let _ ← prepareForEncoding nextRef
    let p ← path.encode false
    return Item.encode (.list [.str p])
  | .branch branches _ => do
    let rs ← prepareAll branches
    return Item.encode (.list rs)

/-- The marker `b"1"`, `/repo/src/pymt/utils/node.py:100, 110`. -/
def marker : Bytes := [0x31]

/-- `Node.decode` with `include_data=False`, `/repo/src/pymt/utils/node.py:61-118`.  An item of
`rlp.decode` is never `None` (lines 98 and 108), so the marker is always put in. -/
def decodeBare (encoded : Bytes) : Py Node := do
  let data ← rlpDecode encoded
  match data with
  | .str b => if b.length = 17 ∨ b.length = 2 then .error .typeError else .error .assertion
  | .list l =>
    if l.length = 17 then
      return .branch ((l.take 16).map prepareForUsage) marker
    else
      match l with
      | [p, d] =>
        match p with
        | .list [] => .error .indexError
        | .list _ => .error .typeError
        | .str pb => do
          let (path, isLeaf) ← NibblePath.decodeWithType pb
          if isLeaf then
            return .leaf path marker
          else
            return .ext path (prepareForUsage d)
      | _ => .error .assertion

end Node

namespace MPT

/-- `MPT.contains(key, hash_key)`, `/repo/src/pymt/mpt.py:195-233`. -/
def containsWith (E : Env) (t : MPT) (key : Bytes) (hashKey : Bool) : Py Bool :=
  if t.rootFalsy then .ok false
  else do
    let path : NibblePath := { data := if t.secure && hashKey then E.keccak key else key }
    let (node, path) ← containsAux (t.noRoot E) t.store.kv E.limit (t.root.getD []) path
    match node with
    | some (.branch _ d) => return d ≠ []
    | some (.ext _ _) => return false
    | some (.leaf p _) => p.eq path
    | none => return false

end MPT

/-- The hash object of `Crypto.Hash.keccak` as used in `/repo/src/pymt/utils/hash.py:21-26, 45-51`: it
remembers the bytes it was fed (contract of pycryptodome: `update` may be called in pieces, `digest` is the
hash of all of them). -/
structure Hasher where
  fed : Bytes := []

/-- `hash.update(item)`, `/repo/src/pymt/utils/hash.py:22, 47`. -/
def Hasher.feed (h : Hasher) (b : Bytes) : Hasher := ⟨h.fed ++ b⟩

/-- `keccak_hash`, `/repo/src/pymt/utils/hash.py:5-26`. -/
def keccakHash (E : Env) (data : Bytes) (hexdigest : Bool) : Bytes :=
  let h := (Hasher.mk []).feed data
  if hexdigest then hexOf (E.keccak h.fed) else E.keccak h.fed

/-- `keccak_hash_list`, `/repo/src/pymt/utils/hash.py:29-51`. -/
def keccakHashList (E : Env) (data : List Bytes) (hexdigest : Bool) : Bytes :=
  let h := data.foldl Hasher.feed (Hasher.mk [])
  if hexdigest then hexOf (E.keccak h.fed) else E.keccak h.fed

end Pymt
