import Verif.Model.Node
import Verif.Model.Proof

/-!
# `MPT` (`/repo/src/pymt/mpt.py`)
-/

namespace Pymt

/-- The storage of a trie: a dict from references to encoded nodes
(`/repo/src/pymt/mpt.py:54-75`; entries are always `bytes`, lines 1240 and 526).
`written` is a *ghost*: every byte string ever written to the storage, in order.  No function reads
it; theorems use it to state collision-freeness and crash points. -/
structure Store where
  kv : Dict Bytes
  written : List Bytes
  deriving DecidableEq, Repr

/-- `self._storage[k] = v`.  `/repo/src/pymt/mpt.py:1240`. -/
def Store.set (s : Store) (k v : Bytes) : Store :=
  { kv := dset s.kv k v, written := s.written ++ [v] }

/-- An empty dict.  `/repo/src/pymt/mpt.py:54-77`. -/
def Store.empty : Store := { kv := [], written := [] }

/-- Python `MPT` objects, `/repo/src/pymt/mpt.py:54-75`.  `root` is `None` after the last key was
deleted (line 264). -/
structure MPT where
  store : Store
  root : Option Bytes
  secure : Bool
  deriving DecidableEq, Repr

/-- `branches[idx] = x` on a Python list.  `/repo/src/pymt/mpt.py:1012-1222`. -/
def pySet {α : Type} (l : List α) (i : Nat) (x : α) : Py (List α) :=
  if i < l.length then .ok (l.set i x) else .error .indexError

namespace MPT

/-- `MPT.__init__`, `/repo/src/pymt/mpt.py:54-75`. -/
def init (E : Env) (store : Store) (root : Option Bytes) (secure : Bool) : MPT :=
  { store := store, root := some (root.getD (emptyHash E)), secure := secure }

/-- `MPT.__len__`, `/repo/src/pymt/mpt.py:84-86`. -/
def len (t : MPT) : Nat := t.store.kv.length

/-- Truth value of `self._root`: false for `None` and `b""`.  `/repo/src/pymt/mpt.py:120-170`. -/
def rootFalsy (t : MPT) : Bool := t.root.getD [] == []

/-- `self._root is None or self._root == Node.EMPTY_HASH`
(`/repo/src/pymt/mpt.py:253, 298, 337, 388, 451, 639`). -/
def noRoot (E : Env) (t : MPT) : Bool := t.root == none || t.root == some (emptyHash E)

/-- `MPT.root_hash`, `/repo/src/pymt/mpt.py:120-136`. -/
def rootHash (E : Env) (t : MPT) : Bytes :=
  let r := t.root.getD []
  if r = [] then emptyHash E
  else if r.length = 32 then r
  else E.keccak r

/-- `if self._secure: encoded_key = keccak_hash(encoded_key)` (e.g. `/repo/src/pymt/mpt.py:163-164`). -/
def keyOf (E : Env) (t : MPT) (key : Bytes) : Bytes := if t.secure then E.keccak key else key

/-- `MPT._get_node`, `/repo/src/pymt/mpt.py:533-562`, for byte-string references and storages holding
bytes.  `Node.decode` only returns the three node classes, so InvalidNodeError cannot happen. -/
def getNode (kv : Dict Bytes) (ref : Bytes) : Py Node := do
  let raw ← if ref.length = 32 then dgetItem kv ref else .ok ref
  Node.decode raw

/-- `MPT._get`, `/repo/src/pymt/mpt.py:564-629`.  The first argument is the number of frames left. -/
def getAux (kv : Dict Bytes) : Nat → Bytes → NibblePath → Py Node
  | 0, _, _ => .error .recursion
  | f + 1, ref, path => do
    let node ← getNode kv ref
    let n ← path.len
    if n = 0 then return node
    else
      match node with
      | .leaf p _ => do
        let same ← p.eq path
        if same then return node else .error .keyNotFound
      | .ext p nextRef => do
        let pre ← path.startsWith p
        if pre then do
          let m ← p.len
          getAux kv f nextRef (path.consume m)
        else .error .extensionPath
      | .branch branches _ => do
        let i ← path.nibbleAt 0
        let branch ← pyIndex branches i
        if branch.length > 0 then getAux kv f branch (path.consume 1)
        else .error .branchPath

/-- `MPT.get`, `/repo/src/pymt/mpt.py:138-168`.  `result_node.data` is an AttributeError on
`Extension`. -/
def get (E : Env) (t : MPT) (key : Bytes) : Py Bytes :=
  if t.rootFalsy then .error .valueError
  else do
    let path : NibblePath := { data := t.keyOf E key }
    let node ← getAux t.store.kv E.limit (t.root.getD []) path
    match node with
    | .leaf _ d => return d
    | .branch _ d => return d
    | .ext _ _ => .error .attributeError

/-- `MPT._contains`, `/repo/src/pymt/mpt.py:631-672`.  Returns the node (`none` for `False`) and the
path as left behind by `consume`, because the caller compares with the consumed path (line 225). -/
def containsAux (noRoot : Bool) (kv : Dict Bytes) : Nat → Bytes → NibblePath →
    Py (Option Node × NibblePath)
  | 0, _, _ => .error .recursion
  | f + 1, ref, path =>
    if noRoot then .ok (none, path)
    else do
      let node ← getNode kv ref
      let n ← path.len
      if n = 0 then return (some node, path)
      else
        match node with
        | .leaf _ _ => return (some node, path)
        | .ext p nextRef => do
          let pre ← path.startsWith p
          if pre then do
            let m ← p.len
            containsAux noRoot kv f nextRef (path.consume m)
          else return (some node, path)
        | .branch branches _ => do
          let i ← path.nibbleAt 0
          let branch ← pyIndex branches i
          if branch.length > 0 then containsAux noRoot kv f branch (path.consume 1)
          else return (some node, path)

/-- `MPT.contains`, `/repo/src/pymt/mpt.py:195-233`, with `hash_key=True`. -/
def contains (E : Env) (t : MPT) (key : Bytes) : Py Bool :=
  if t.rootFalsy then .ok false
  else do
    let path : NibblePath := { data := t.keyOf E key }
    let (node, path) ← containsAux (t.noRoot E) t.store.kv E.limit (t.root.getD []) path
    match node with
    | some (.branch _ d) => return d ≠ []
    | some (.ext _ _) => return false
    | some (.leaf p _) => p.eq path
    | none => return false

/-- `MPT._store_node`, `/repo/src/pymt/mpt.py:1224-1241`. -/
def storeNode (E : Env) (node : Node) : M Store Bytes := do
  let ref ← M.lift (node.intoReference E)
  if ref.length = 32 then do
    let enc ← M.lift node.encode
    M.modify (fun s => s.set ref enc)
    return ref
  else return ref

/-- `_get_node` on the current state.  `/repo/src/pymt/mpt.py:533-562`. -/
def getNodeM (ref : Bytes) : M Store Node := do
  let s ← M.get
  M.lift (getNode s.kv ref)

/-- `MPT._create_branch_leaf`, `/repo/src/pymt/mpt.py:1168-1191`; returns the changed list. -/
def createBranchLeaf (E : Env) (path : NibblePath) (value : Bytes) (branches : List Bytes) :
    M Store (List Bytes) := do
  let n ← M.lift path.len
  if n > 0 then do
    let idx ← M.lift (path.nibbleAt 0)
    let leafRef ← storeNode E (.leaf (path.consume 1) value)
    M.lift (pySet branches idx leafRef)
  else return branches

/-- `MPT._create_branch_extension`, `/repo/src/pymt/mpt.py:1193-1222`; returns the changed list. -/
def createBranchExtension (E : Env) (path : NibblePath) (nextRef : Bytes) (branches : List Bytes) :
    M Store (List Bytes) := do
  let n ← M.lift path.len
  if ¬ n ≥ 1 then M.raise .assertion
  else if n = 1 then do
    let idx ← M.lift (path.nibbleAt 0)
    M.lift (pySet branches idx nextRef)
  else do
    let idx ← M.lift (path.nibbleAt 0)
    let ref ← storeNode E (.ext (path.consume 1) nextRef)
    M.lift (pySet branches idx ref)

/-- `MPT._create_branch_node`, `/repo/src/pymt/mpt.py:1130-1166`. -/
def createBranchNode (E : Env) (pathA : NibblePath) (valueA : Bytes) (pathB : NibblePath)
    (valueB : Bytes) : M Store Bytes := do
  let a ← M.lift pathA.len
  let b ← M.lift pathB.len
  if ¬ (a ≠ 0 ∨ b ≠ 0) then M.raise .assertion
  else do
    let branchValue := if a = 0 then valueA else if b = 0 then valueB else []
    let branches ← createBranchLeaf E pathA valueA (List.replicate 16 [])
    let branches ← createBranchLeaf E pathB valueB branches
    storeNode E (.branch branches branchValue)

/-- `MPT._update`, `/repo/src/pymt/mpt.py:1012-1128`.  The first argument is the number of frames
left; `None` and `b""` as reference are both `[]` (line 1037 tests `not node_ref`). -/
def updateAux (E : Env) : Nat → Bytes → NibblePath → Bytes → M Store Bytes
  | 0, _, _, _ => M.raise .recursion
  | f + 1, ref, path, value =>
    if ref = [] ∨ ref = emptyHash E then storeNode E (.leaf path value)
    else do
      let node ← getNodeM ref
      match node with
      | .leaf npath ndata => do
        let same ← M.lift (npath.eq path)
        if same then storeNode E (.leaf npath value)
        else do
          let common ← M.lift (path.commonPrefix npath)
          let c ← M.lift common.len
          let branchRef ← createBranchNode E (path.consume c) value (npath.consume c) ndata
          if c ≠ 0 then storeNode E (.ext common branchRef)
          else return branchRef
      | .ext npath nextRef => do
        let pre ← M.lift (path.startsWith npath)
        if pre then do
          let m ← M.lift npath.len
          let newRef ← updateAux E f nextRef (path.consume m) value
          storeNode E (.ext npath newRef)
        else do
          let common ← M.lift (path.commonPrefix npath)
          let c ← M.lift common.len
          let path := path.consume c
          let npath := npath.consume c
          let n ← M.lift path.len
          let branchValue := if n = 0 then value else []
          let branches ← createBranchLeaf E path value (List.replicate 16 [])
          let branches ← createBranchExtension E npath nextRef branches
          let branchRef ← storeNode E (.branch branches branchValue)
          if c ≠ 0 then storeNode E (.ext common branchRef)
          else return branchRef
      | .branch branches data => do
        let n ← M.lift path.len
        if n = 0 then storeNode E (.branch branches value)
        else do
          let idx ← M.lift (path.nibbleAt 0)
          let child ← M.lift (pyIndex branches idx)
          let newRef ← updateAux E f child (path.consume 1) value
          let branches ← M.lift (pySet branches idx newRef)
          storeNode E (.branch branches data)

/-- Run a computation on the storage inside an `MPT` object.  `/repo/src/pymt/mpt.py:54-77`. -/
def onStore {α : Type} (m : M Store α) : M MPT α := fun t =>
  let (r, s) := m t.store
  (r, { t with store := s })

/-- `MPT.update`, `/repo/src/pymt/mpt.py:170-192`. -/
def update (E : Env) (key value : Bytes) : M MPT Unit := do
  let t ← M.get
  let path : NibblePath := { data := t.keyOf E key }
  let result ← onStore (updateAux E E.limit (t.root.getD []) path value)
  M.modify (fun t => { t with root := some result })

/-- `MPT._DeleteAction` with the info that goes with it, `/repo/src/pymt/mpt.py:1243-1254`. -/
inductive DeleteAction where
  | deleted
  | updated (ref : Bytes)
  | useless (path : NibblePath) (ref : Bytes)
  deriving DecidableEq, Repr

/-- The search loop of `_build_new_node_from_last_branch`, `/repo/src/pymt/mpt.py:1434-1438`: index of
the first non-empty reference, 0 when there is none. -/
def firstNonEmpty (branches : List Bytes) : Nat :=
  match branches.findIdx? (fun b => b.length > 0) with
  | some i => i
  | none => 0

/-- `MPT._build_new_node_from_last_branch`, `/repo/src/pymt/mpt.py:1410-1463`. -/
def buildFromLastBranch (E : Env) (branches : List Bytes) : M Store DeleteAction := do
  let idx := firstNonEmpty branches
  let prefixNibble : NibblePath := { data := [UInt8.ofNat idx], offset := 1 }
  let childRef ← M.lift (pyIndex branches idx)
  let child ← getNodeM childRef
  match child with
  | .leaf p d => do
    let path ← M.lift (prefixNibble.combine p)
    let ref ← storeNode E (.leaf path d)
    return .useless path ref
  | .ext p r => do
    let path ← M.lift (prefixNibble.combine p)
    let ref ← storeNode E (.ext path r)
    return .useless path ref
  | .branch _ _ => do
    let ref ← storeNode E (.ext prefixNibble childRef)
    return .useless prefixNibble ref

/-- `non_empty_count`, `/repo/src/pymt/mpt.py:1373-1375`. -/
def nonEmptyCount (branches : List Bytes) : Nat := branches.countP (fun b => b.length > 0)

/-- What `_delete` does at a branch after its value or one of its children was deleted,
`/repo/src/pymt/mpt.py:1372-1396`. -/
def afterDeleted (E : Env) (branches : List Bytes) (data : Bytes) : M Store DeleteAction := do
  let count := nonEmptyCount branches
  if count = 0 ∧ data.length = 0 then return .deleted
  else if count = 0 ∧ data.length ≠ 0 then do
    let path : NibblePath := { data := [] }
    let ref ← storeNode E (.leaf path data)
    return .useless path ref
  else if count = 1 ∧ data.length = 0 then buildFromLastBranch E branches
  else do
    let ref ← storeNode E (.branch branches data)
    return .updated ref

/-- `MPT._delete`, `/repo/src/pymt/mpt.py:1256-1408`.  The first argument is the number of frames
left. -/
def deleteAux (E : Env) : Nat → Bytes → NibblePath → M Store DeleteAction
  | 0, _, _ => M.raise .recursion
  | f + 1, ref, path => do
    let node ← getNodeM ref
    match node with
    | .leaf npath _ => do
      let same ← M.lift (path.eq npath)
      if same then return .deleted else M.raise .leafPath
    | .ext npath nextRef => do
      let pre ← M.lift (path.startsWith npath)
      if ¬ pre then M.raise .extensionPath
      else do
        let m ← M.lift npath.len
        let action ← deleteAux E f nextRef (path.consume m)
        match action with
        | .deleted => return .deleted
        | .updated childRef => do
          let newRef ← storeNode E (.ext npath childRef)
          return .updated newRef
        | .useless storedPath storedRef => do
          let child ← getNodeM storedRef
          match child with
          | .leaf p d => do
            let path ← M.lift (npath.combine p)
            let newRef ← storeNode E (.leaf path d)
            return .updated newRef
          | .ext p r => do
            let path ← M.lift (npath.combine p)
            let newRef ← storeNode E (.ext path r)
            return .updated newRef
          | .branch _ _ => do
            let path ← M.lift (npath.combine storedPath)
            let newRef ← storeNode E (.ext path storedRef)
            return .updated newRef
    | .branch branches data => do
      let n ← M.lift path.len
      if ¬ (n ≠ 0 ∨ data.length ≠ 0) then M.raise .assertion
      else if n = 0 ∧ data.length = 0 then M.raise .branchPath
      else if n = 0 ∧ data.length ≠ 0 then afterDeleted E branches []
      else do
        let idx ← M.lift (path.nibbleAt 0)
        let child ← M.lift (pyIndex branches idx)
        if child.length = 0 then M.raise .branchPath
        else do
          let action ← deleteAux E f child (path.consume 1)
          match action with
          | .deleted => do
            let branches ← M.lift (pySet branches idx [])
            afterDeleted E branches data
          | .updated nextRef => do
            let branches ← M.lift (pySet branches idx nextRef)
            let ref ← storeNode E (.branch branches data)
            return .updated ref
          | .useless _ nextRef => do
            let branches ← M.lift (pySet branches idx nextRef)
            let ref ← storeNode E (.branch branches data)
            return .updated ref

/-- `MPT.delete`, `/repo/src/pymt/mpt.py:235-270`. -/
def delete (E : Env) (key : Bytes) : M MPT Unit := do
  let t ← M.get
  if t.noRoot E then M.raise .valueError
  else do
    let path : NibblePath := { data := t.keyOf E key }
    let action ← onStore (deleteAux E E.limit (t.root.getD []) path)
    match action with
    | .deleted => M.modify (fun t => { t with root := none })
    | .updated ref => M.modify (fun t => { t with root := some ref })
    | .useless _ ref => M.modify (fun t => { t with root := some ref })

/-! ### Proofs -/

/-- `MPT._get_proof_of_inclusion`, `/repo/src/pymt/mpt.py:674-750`; the accumulated list is returned. -/
def getPoiAux (kv : Dict Bytes) : Nat → Bytes → NibblePath → List Bytes → Py (List Bytes)
  | 0, _, _, _ => .error .recursion
  | f + 1, ref, path, proof => do
    let node ← getNode kv ref
    let n ← path.len
    if n = 0 then do
      let enc ← node.encode
      return proof ++ [enc]
    else
      match node with
      | .leaf p _ => do
        let same ← p.eq path
        if same then do
          let enc ← node.encode
          return proof ++ [enc]
        else .error .leafPath
      | .ext p nextRef => do
        let pre ← path.startsWith p
        if pre then do
          let m ← p.len
          let enc ← node.encode
          getPoiAux kv f nextRef (path.consume m) (proof ++ [enc])
        else .error .extensionPath
      | .branch branches _ => do
        let i ← path.nibbleAt 0
        let branch ← pyIndex branches i
        if branch.length > 0 then do
          let enc ← node.encode
          getPoiAux kv f branch (path.consume 1) (proof ++ [enc])
        else .error .branchPath

/-- `MPT.get_proof_of_inclusion`, `/repo/src/pymt/mpt.py:273-312`.  `now` is the time stamp. -/
def getPoi (E : Env) (now : Bytes) (t : MPT) (key : Bytes) : Py (Proof Bytes) :=
  if t.noRoot E then .error .valueError
  else do
    let key := t.keyOf E key
    let l ← getPoiAux t.store.kv E.limit (t.root.getD []) { data := key } []
    return { type := mptPoi, timestamp := now, targetKey := key, trieRoot := t.root.getD [], proof := l }

/-- The loop that rebuilds a partial trie from a proof, `/repo/src/pymt/mpt.py:346-353` and
`463-466`: `proof_storage[Node.into_reference(Node.decode(n))] = n`. -/
def proofStorage (E : Env) : List Bytes → Dict Bytes → Py (Dict Bytes)
  | [], acc => .ok acc
  | enc :: rest, acc => do
    let node ← Node.decode enc
    let ref ← node.intoReference E
    proofStorage E rest (dset acc ref enc)

/-- `raw_node = proof_storage[node_ref] if len(node_ref) == 32 else node_ref`,
`/repo/src/pymt/mpt.py:788-794` and `955-967`. -/
def rawOf (ps : Dict Bytes) (ref : Bytes) : Py Bytes :=
  if ref.length = 32 then dgetItem ps ref else .ok ref

/-- `MPT._verify_proof_of_inclusion`, `/repo/src/pymt/mpt.py:752-847`. -/
def verifyPoiAux (ps : Dict Bytes) : Nat → Bytes → NibblePath → Py Bool
  | 0, _, _ => .error .recursion
  | f + 1, ref, path =>
    if ref.length = 32 ∧ dget ps ref = none then .ok false
    else do
      let raw ← rawOf ps ref
      let node ← Node.decode raw
      let n ← path.len
      if n = 0 then
        match node with
        | .ext _ _ => return false
        | .branch _ _ => return true   -- line 807: `node.data != None` always holds
        | .leaf _ _ => return true
      else
        match node with
        | .leaf p _ => p.eq path
        | .ext p nextRef => do
          let pre ← path.startsWith p
          if pre then do
            let m ← p.len
            verifyPoiAux ps f nextRef (path.consume m)
          else .error .extensionPath
        | .branch branches _ => do
          let i ← path.nibbleAt 0
          let branch ← pyIndex branches i
          if branch.length > 0 then verifyPoiAux ps f branch (path.consume 1)
          else .error .branchPath

/-- `MPT.verify_proof_of_inclusion`, `/repo/src/pymt/mpt.py:314-361`.  `rlp.DecodingError` in the
rebuilding loop gives False (lines 348-353), other exceptions escape. -/
def verifyPoi (E : Env) (t : MPT) (p : Proof Bytes) : Py Bool :=
  if p.type ≠ mptPoi then .error .typeError
  else if t.noRoot E then .error .valueError
  else do
    let first ← pyIndex p.proof 0
    if t.rootHash E ≠ E.keccak first then return false
    else
      match proofStorage E p.proof [] with
      | .error .rlpDecoding => return false
      | .error e => .error e
      | .ok ps => do
        let valid ← verifyPoiAux ps E.limit (t.root.getD []) { data := p.targetKey }
        return valid && (t.rootHash E == p.trieRoot)

/-- `MPT._get_proof_of_exclusion`, `/repo/src/pymt/mpt.py:849-912`: the last node, the list, and the
path as left behind by `consume` (the caller uses it in lines 402 and 412). -/
def getPoeAux (kv : Dict Bytes) : Nat → Bytes → NibblePath → List Bytes →
    Py (Node × List Bytes × NibblePath)
  | 0, _, _, _ => .error .recursion
  | f + 1, ref, path, proof => do
    let node ← getNode kv ref
    let n ← path.len
    if n = 0 then do
      let enc ← node.encode
      return (node, proof ++ [enc], path)
    else
      match node with
      | .leaf _ _ => do
        let enc ← node.encode
        return (node, proof ++ [enc], path)
      | .ext p nextRef => do
        let pre ← path.startsWith p
        if pre then do
          let m ← p.len
          let enc ← node.encode
          getPoeAux kv f nextRef (path.consume m) (proof ++ [enc])
        else return (node, proof, path)
      | .branch branches _ => do
        let i ← path.nibbleAt 0
        let branch ← pyIndex branches i
        let enc ← node.encode
        if branch.length > 0 then getPoeAux kv f branch (path.consume 1) (proof ++ [enc])
        else return (node, proof ++ [enc], path)

/-- `b"null"`, `/repo/src/pymt/mpt.py:402`. -/
def nullBytes : Bytes := [110, 117, 108, 108]

/-- `MPT.get_proof_of_exclusion`, `/repo/src/pymt/mpt.py:363-420`. -/
def getPoe (E : Env) (now : Bytes) (t : MPT) (key : Bytes) : Py (Proof Bytes) :=
  if t.noRoot E then .error .valueError
  else do
    let present ← t.contains E key
    if present then .error .poe
    else do
      let key := t.keyOf E key
      let (node, l, path) ← getPoeAux t.store.kv E.limit (t.root.getD []) { data := key } []
      let nullLeaf ← Node.encode (.leaf path nullBytes)
      let result : Proof Bytes :=
        { type := mptPoe, timestamp := now, targetKey := key, trieRoot := t.rootHash E,
          proof := l ++ [nullLeaf] }
      match node with
      | .branch _ d => if d ≠ [] then .error .poe else return result
      | .leaf p _ => do
        let same ← p.eq path
        if same then .error .poe else return result
      | .ext _ _ => return result

/-- `MPT._verify_proof_of_exclusion`, `/repo/src/pymt/mpt.py:914-1010`: the node (`none` for `True`
when the node is missing from the proof, line 964) and the remaining entries. -/
def verifyPoeAux : Nat → Bytes → NibblePath → Dict Bytes → Py (Option Node × Dict Bytes)
  | 0, _, _, _ => .error .recursion
  | f + 1, ref, path, ps =>
    if ref.length = 32 ∧ dget ps ref = none then .ok (none, ps)
    else do
      let raw ← rawOf ps ref
      let node ← Node.decode raw
      if dget ps ref = none then .error .poe
      else do
        let ps := ddel ps ref
        let n ← path.len
        if n = 0 then return (some node, ps)
        else
          match node with
          | .leaf _ _ => return (some node, ps)
          | .ext p nextRef => do
            let pre ← path.startsWith p
            if pre then do
              let m ← p.len
              verifyPoeAux f nextRef (path.consume m) ps
            else return (some node, ps)
          | .branch branches _ => do
            let i ← path.nibbleAt 0
            let branch ← pyIndex branches i
            if branch.length > 0 then verifyPoeAux f branch (path.consume 1) ps
            else return (some node, ps)

/-- `proof.proof[-1]`: IndexError on an empty tuple.  `/repo/src/pymt/mpt.py:458`. -/
def lastItem (l : List Bytes) : Py Bytes :=
  match l.getLast? with
  | some x => .ok x
  | none => .error .indexError

/-- `.data` of a node: AttributeError on `Extension`.  `/repo/src/pymt/mpt.py:458`. -/
def nodeData : Node → Py Bytes
  | .leaf _ d => .ok d
  | .branch _ d => .ok d
  | .ext _ _ => .error .attributeError

/-- `MPT.verify_proof_of_exclusion`, `/repo/src/pymt/mpt.py:422-489`. -/
def verifyPoe (E : Env) (t : MPT) (p : Proof Bytes) : Py Bool :=
  if p.type ≠ mptPoe then .error .typeError
  else if t.noRoot E then .error .valueError
  else do
    let first ← pyIndex p.proof 0
    if t.rootHash E ≠ E.keccak first then return false
    else do
      let last ← lastItem p.proof
      let lastNode ← Node.decode last
      let d ← nodeData lastNode
      if d ≠ nullBytes then return false
      else do
        let ps ← proofStorage E p.proof.dropLast []
        let (node, left) ← verifyPoeAux E.limit (t.root.getD []) { data := p.targetKey } ps
        if left.length ≠ 0 then return false
        else
          match node with
          | some (.leaf q _) => do
            let same ← q.eq { data := p.targetKey }
            return !same
          | some (.branch _ _) => return true  -- line 479: `node.data == None` never holds
          | some (.ext _ _) => return true
          | none => return true

/-! ### Codec -/

/-- `rlp.encode` of a bool (pyrlp `boolean` sedes).
Used in `/repo/src/pymt/mpt.py:498`, `/repo/src/pymt/empt.py:596-599, 666-669`. -/
def boolItem (b : Bool) : Item := if b then .str [1] else .str []

/-- `MPT.encode`, `/repo/src/pymt/mpt.py:492-498`.  `rlp.encode` of `None` raises TypeError (no sedes for NoneType). -/
def encode (t : MPT) : Py Bytes := do
  let storage ← prepareAll (t.store.kv.map (·.2))
  match t.root with
  | none => .error .typeError
  | some r => return Item.encode (.list [.str r, .list storage, boolItem t.secure])

/-- pyrlp `binary` sedes: DeserializationError on lists.  Used in `/repo/src/pymt/mpt.py:515-522`. -/
def binary : Item → Py Bytes
  | .str b => .ok b
  | .list _ => .error .rlpDeserialization

/-- pyrlp `CountableList(binary)` on the elements.  Used in `/repo/src/pymt/mpt.py:515-522`. -/
def binaries : List Item → Py (List Bytes)
  | [] => .ok []
  | x :: xs => do
    let b ← binary x
    let bs ← binaries xs
    return b :: bs

/-- pyrlp `boolean` sedes.  Used in `/repo/src/pymt/mpt.py:515-522`. -/
def boolean : Item → Py Bool
  | .str [] => .ok false
  | .str [1] => .ok true
  | _ => .error .rlpDeserialization

/-- `storage[keccak_hash(n)] = _prepare_reference_for_usage(n)` for all nodes,
`/repo/src/pymt/mpt.py:523-528` (`_prepare_reference_for_usage` is the identity on bytes). -/
def rebuild (E : Env) (nodes : List Bytes) : Store :=
  nodes.foldl (fun s n => s.set (E.keccak n) n) Store.empty

/-- `MPT.decode`, `/repo/src/pymt/mpt.py:500-530`. -/
def decode (E : Env) (data : Bytes) : Py MPT := do
  let item ← rlpDecode data
  match item with
  | .list [r, s, b] => do
    let root ← binary r
    let nodes ← match s with
      | .list l => binaries l
      | .str _ => .error .rlpDeserialization
    let secure ← boolean b
    return init E (rebuild E nodes) (some root) secure
  | _ => .error .rlpDeserialization

end MPT
end Pymt
