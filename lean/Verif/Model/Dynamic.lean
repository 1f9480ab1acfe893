import Verif.Model.Mpt
import Verif.Model.Empt

/-!
# `MPT.update` with values of other types than `bytes` (`/repo/src/pymt/mpt.py:170-192`)

`MPT.update` does not look at the type of the value.  The constructors of nodes do
(`/repo/src/pymt/utils/node.py:181-184, 300-303`), but a leaf that is already there gets the new value by assignment
(`/repo/src/pymt/mpt.py:1049-1050`), so that pyrlp is the first to look at it.
-/

namespace Pymt

/-- A Python value given to `update`.  `int` stands for integers `≥ 0`, `text` for a `str` with its UTF-8 encoding,
`seq` for lists and tuples, `other` for everything pyrlp has no serializer for (negative integers, floats, objects).
Not represented: instances of pyrlp `Serializable`, and `str` with lone surrogates.  `/repo/src/pymt/mpt.py:170-192`. -/
inductive Val where
  | bytes (b : Bytes)
  | bytearray (b : Bytes)
  | int (n : Nat)
  | bool (b : Bool)
  | text (utf8 : Bytes)
  | seq (l : List Val)
  | none
  | other
  deriving Repr

namespace Val

mutual
/-- pyrlp `infer_sedes(obj).serialize(obj)`, as called by `rlp.encode` (`/repo/src/pymt/utils/node.py:203`):
`big_endian_int`, `binary`, `List`, `boolean`, `text`, TypeError for everything else. -/
def item : Val → Py Item
  | .bytes b => .ok (.str b)
  | .bytearray b => .ok (.str b)
  | .int n => .ok (DataRef.intItem n)
  | .bool b => .ok (.str (if b then [1] else []))
  | .text b => .ok (.str b)
  | .seq l => do
    let is ← items l
    return .list is
  | .none => .error .typeError
  | .other => .error .typeError
/-- The elements of a sequence, from left to right.  pyrlp, used in `/repo/src/pymt/utils/node.py:188-206, 311-328`. -/
def items : List Val → Py (List Item)
  | [] => .ok []
  | v :: l => do
    let i ← item v
    let is ← items l
    return i :: is
end

/-- The check of `Leaf.__init__`, `/repo/src/pymt/utils/node.py:181-184`. -/
def asLeaf : Val → Py Bytes
  | .bytes b => .ok b
  | .bytearray b => .ok b
  | _ => .error .typeError

/-- The check of `Branch.__init__` and its `None`, `/repo/src/pymt/utils/node.py:300-309`. -/
def asBranch : Val → Py Bytes
  | .bytes b => .ok b
  | .bytearray b => .ok b
  | .none => .ok []
  | _ => .error .typeError

end Val

namespace MPT

/-- `_store_node` of a leaf after `node.data = value`, `/repo/src/pymt/mpt.py:1049-1051, 1224-1241` with
`Node.into_reference` and `Leaf.encode`, `/repo/src/pymt/utils/node.py:120-145, 188-205`. -/
def storeLeafVal (E : Env) (path : NibblePath) (v : Val) : M Store Bytes := do
  let p ← M.lift (path.encode true)
  let i ← M.lift v.item
  let enc := Item.encode (.list [.str p, i])
  let ref := if enc.length < 32 then enc else E.keccak enc
  if ref.length = 32 then do
    M.modify (fun s => s.set ref enc)
    return ref
  else return ref

/-- `_create_branch_leaf` with any value, `/repo/src/pymt/mpt.py:1168-1191`. -/
def createBranchLeafVal (E : Env) (path : NibblePath) (value : Val) (branches : List Bytes) :
    M Store (List Bytes) := do
  let n ← M.lift path.len
  if n > 0 then do
    let idx ← M.lift (path.nibbleAt 0)
    let d ← M.lift value.asLeaf
    let leafRef ← storeNode E (.leaf (path.consume 1) d)
    M.lift (pySet branches idx leafRef)
  else return branches

/-- `_create_branch_node` with any first value, `/repo/src/pymt/mpt.py:1130-1166`. -/
def createBranchNodeVal (E : Env) (pathA : NibblePath) (valueA : Val) (pathB : NibblePath)
    (valueB : Bytes) : M Store Bytes := do
  let a ← M.lift pathA.len
  let b ← M.lift pathB.len
  if ¬ (a ≠ 0 ∨ b ≠ 0) then M.raise .assertion
  else do
    let branches ← createBranchLeafVal E pathA valueA (List.replicate 16 [])
    let branches ← createBranchLeaf E pathB valueB branches
    let d ← M.lift (if a = 0 then valueA.asBranch else .ok (if b = 0 then valueB else []))
    storeNode E (.branch branches d)

/-- `MPT._update` with any value, `/repo/src/pymt/mpt.py:1012-1128`; compare `updateAux`. -/
def updateValAux (E : Env) : Nat → Bytes → NibblePath → Val → M Store Bytes
  | 0, _, _, _ => M.raise .recursion
  | f + 1, ref, path, value =>
    if ref = [] ∨ ref = emptyHash E then do
      let d ← M.lift value.asLeaf
      storeNode E (.leaf path d)
    else do
      let node ← getNodeM ref
      match node with
      | .leaf npath ndata => do
        let same ← M.lift (npath.eq path)
        if same then storeLeafVal E npath value
        else do
          let common ← M.lift (path.commonPrefix npath)
          let c ← M.lift common.len
          let branchRef ← createBranchNodeVal E (path.consume c) value (npath.consume c) ndata
          if c ≠ 0 then storeNode E (.ext common branchRef)
          else return branchRef
      | .ext npath nextRef => do
        let pre ← M.lift (path.startsWith npath)
        if pre then do
          let m ← M.lift npath.len
          let newRef ← updateValAux E f nextRef (path.consume m) value
          storeNode E (.ext npath newRef)
        else do
          let common ← M.lift (path.commonPrefix npath)
          let c ← M.lift common.len
          let path := path.consume c
          let npath := npath.consume c
          let n ← M.lift path.len
          let branches ← createBranchLeafVal E path value (List.replicate 16 [])
          let branches ← createBranchExtension E npath nextRef branches
          let d ← M.lift (if n = 0 then value.asBranch else .ok [])
          let branchRef ← storeNode E (.branch branches d)
          if c ≠ 0 then storeNode E (.ext common branchRef)
          else return branchRef
      | .branch branches data => do
        let n ← M.lift path.len
        if n = 0 then do
          let d ← M.lift value.asBranch
          storeNode E (.branch branches d)
        else do
          let idx ← M.lift (path.nibbleAt 0)
          let child ← M.lift (pyIndex branches idx)
          let newRef ← updateValAux E f child (path.consume 1) value
          let branches ← M.lift (pySet branches idx newRef)
          storeNode E (.branch branches data)

/-- `MPT.update` with any value, `/repo/src/pymt/mpt.py:170-192`. -/
def updateVal (E : Env) (key : Bytes) (value : Val) : M MPT Unit := do
  let t ← M.get
  let path : NibblePath := { data := t.keyOf E key }
  let result ← onStore (updateValAux E E.limit (t.root.getD []) path value)
  M.modify (fun t => { t with root := some result })

end MPT
end Pymt
