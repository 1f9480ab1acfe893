import Verif.Model.Mpt
import Verif.Model.Empt
import Verif.Model.EmptProofs

/-!
# Keys that are not `bytes` (`/repo/src/pymt/mpt.py`, `/repo/src/pymt/empt.py`)

`MPT` does not check the type of a key.  What a wrong key does depends on how far it gets: `NibblePath` uses
`len(data)`, `data[i] >> 4` and `data[i] & 0x0F` (`/repo/src/pymt/utils/nibble_path.py:29-31, 139-162`), and
`keccak_hash` passes it to the library.
-/

namespace Pymt

/-- What may be passed as a key: `bytes`; `bytearray`; a `str` with a number of characters; something without a
length, like None or an int.  (`/repo/src/pymt/mpt.py:138, 170, 195, 235, 273, 363` take any object.) -/
inductive KeyArg where
  | bytes (b : Bytes)
  | bytearray (b : Bytes)
  | text (n : Nat)
  | other
  deriving DecidableEq, Repr

/-- `NibblePath(key)` for a key whose nibbles cannot be read, `/repo/src/pymt/utils/nibble_path.py:10-31`:
`some n` for a `str`, with `n` nibbles left; `none` for an object without a length. -/
abbrev BadPath := Option Nat

namespace BadPath

/-- `len(path)`, `/repo/src/pymt/utils/nibble_path.py:29-31`: TypeError without a length. -/
def len : BadPath → Py Nat
  | some n => .ok n
  | none => .error .typeError

/-- `path.at(i)` for an index below the length, `/repo/src/pymt/utils/nibble_path.py:139-162`: `>>` and `&` of a
character and an int are TypeErrors; so is indexing an object that is not a sequence. -/
def nibbleAt (_ : BadPath) : Py Nat := .error .typeError

/-- `path == p` and `p == path`, `/repo/src/pymt/utils/nibble_path.py:51-72`, for a path `p` of the trie. -/
def eq (p : BadPath) (q : NibblePath) : Py Bool := do
  let m ← q.len
  let n ← p.len
  if n ≠ m then return false
  else if n = 0 then return true
  else do
    let _ ← p.nibbleAt
    return true

/-- `path.starts_with(p)`, `/repo/src/pymt/utils/nibble_path.py:116-137`, for a path `p` of the trie. -/
def startsWith (p : BadPath) (q : NibblePath) : Py Bool := do
  let m ← q.len
  let n ← p.len
  if m > n then return false
  else if m = 0 then return true
  else do
    let _ ← p.nibbleAt
    return true

/-- `path.common_prefix(p)`, `/repo/src/pymt/utils/nibble_path.py:214-235`: the empty path when one of the two is
empty, otherwise the first nibble is read. -/
def commonPrefix (p : BadPath) (q : NibblePath) : Py NibblePath := do
  let n ← p.len
  let m ← q.len
  if n = 0 ∨ m = 0 then return { data := [] }
  else do
    let _ ← p.nibbleAt
    return { data := [] }

/-- `path.encode(is_leaf=True)`, `/repo/src/pymt/utils/nibble_path.py:237-272`, of a path that is not empty: the
first nibble is read. -/
def encode (p : BadPath) : Py Bytes := do
  let _ ← p.len
  let _ ← p.nibbleAt
  return []

end BadPath

namespace MPT

/-- `"... {}".format(node.path, path)` in the messages of exceptions (`/repo/src/pymt/mpt.py:602-605, 613-616`):
`NibblePath.__str__` calls `self._data.hex()`, an AttributeError for a `str`. -/
def message {α : Type} (_ : BadPath) : Py α := .error .attributeError

/-- `MPT._get`, `/repo/src/pymt/mpt.py:564-629`, with such a path, of which at least one nibble is left. -/
def getAuxBad (kv : Dict Bytes) : Nat → Bytes → BadPath → Py Node
  | 0, _, _ => .error .recursion
  | f + 1, ref, path => do
    let node ← getNode kv ref
    let _ ← path.len
    match node with
    | .leaf p _ => do
      let same ← path.eq p
      if same then return node else message path
    | .ext p nextRef => do
      let pre ← path.startsWith p
      if pre then getAuxBad kv f nextRef path else message path
    | .branch _ _ => do
      let _ ← path.nibbleAt
      return node

/-- `MPT._contains`, `/repo/src/pymt/mpt.py:631-672`, with such a path. -/
def containsAuxBad (noRoot : Bool) (kv : Dict Bytes) : Nat → Bytes → BadPath → Py (Option Node)
  | 0, _, _ => .error .recursion
  | f + 1, ref, path =>
    if noRoot then .ok none
    else do
      let node ← getNode kv ref
      let _ ← path.len
      match node with
      | .leaf _ _ => return some node
      | .ext p nextRef => do
        let pre ← path.startsWith p
        if pre then containsAuxBad noRoot kv f nextRef path else return some node
      | .branch _ _ => do
        let _ ← path.nibbleAt
        return some node

/-- `_store_node(Leaf(path, value))`, `/repo/src/pymt/mpt.py:1224-1241`, with such a path: the encoding of the
node reads it before anything is written. -/
def storeLeafBad (path : BadPath) : M Store Bytes := M.lift path.encode

/-- `MPT._create_branch_leaf`, `/repo/src/pymt/mpt.py:1168-1191`, with such a path, which is not empty. -/
def createBranchLeafBad (path : BadPath) : M Store (List Bytes) := do
  let _ ← M.lift path.len
  let _ ← M.lift path.nibbleAt
  return []

/-- `MPT._update`, `/repo/src/pymt/mpt.py:1012-1128`, with such a path.  What would come after the first nibble
was read is left out, because that raises (`BadPath.nibbleAt`). -/
def updateAuxBad (E : Env) : Nat → Bytes → BadPath → M Store Bytes
  | 0, _, _ => M.raise .recursion
  | f + 1, ref, path =>
    if ref = [] ∨ ref = emptyHash E then storeLeafBad path
    else do
      let node ← getNodeM ref
      match node with
      | .leaf npath _ => do
        let _ ← M.lift (path.eq npath)
        let _ ← M.lift (path.commonPrefix npath)
        let _ ← createBranchLeafBad path
        return []
      | .ext npath nextRef => do
        let pre ← M.lift (path.startsWith npath)
        if pre then do
          let newRef ← updateAuxBad E f nextRef path
          storeNode E (.ext npath newRef)
        else do
          let _ ← M.lift (path.commonPrefix npath)
          let _ ← createBranchLeafBad path
          return []
      | .branch _ _ => do
        let _ ← M.lift path.len
        let _ ← M.lift path.nibbleAt
        return []

/-- `MPT._delete`, `/repo/src/pymt/mpt.py:1256-1408`, with such a path.  The calls below an extension with an empty
path are followed; what would come after the first nibble was read is left out. -/
def deleteAuxBad (E : Env) : Nat → Bytes → BadPath → M Store DeleteAction
  | 0, _, _ => M.raise .recursion
  | f + 1, ref, path => do
    let node ← getNodeM ref
    match node with
    | .leaf npath _ => do
      let same ← M.lift (path.eq npath)
      if same then return .deleted else M.raise .leafPath
    | .ext npath nextRef => do
      let pre ← M.lift (path.startsWith npath)
      if ¬ pre then M.raise .extensionPath
      else deleteAuxBad E f nextRef path
    | .branch _ _ => do
      let _ ← M.lift path.len
      let _ ← M.lift path.nibbleAt
      return .deleted

/-- `MPT._get_proof_of_inclusion`, `/repo/src/pymt/mpt.py:674-750`, with such a path. -/
def getPoiAuxBad (kv : Dict Bytes) : Nat → Bytes → BadPath → List Bytes → Py (List Bytes)
  | 0, _, _, _ => .error .recursion
  | f + 1, ref, path, proof => do
    let node ← getNode kv ref
    let _ ← path.len
    match node with
    | .leaf p _ => do
      let same ← path.eq p
      if same then return proof else message path
    | .ext p nextRef => do
      let pre ← path.startsWith p
      if pre then do
        let enc ← node.encode
        getPoiAuxBad kv f nextRef path (proof ++ [enc])
      else message path
    | .branch _ _ => do
      let _ ← path.nibbleAt
      return proof

/-- `MPT._get_proof_of_exclusion`, `/repo/src/pymt/mpt.py:849-912`, with such a path. -/
def getPoeAuxBad (kv : Dict Bytes) : Nat → Bytes → BadPath → List Bytes → Py (List Bytes)
  | 0, _, _, _ => .error .recursion
  | f + 1, ref, path, proof => do
    let node ← getNode kv ref
    let _ ← path.len
    match node with
    | .leaf _ _ => do
      let enc ← node.encode
      return proof ++ [enc]
    | .ext p nextRef => do
      let pre ← path.startsWith p
      if pre then do
        let enc ← node.encode
        getPoeAuxBad kv f nextRef path (proof ++ [enc])
      else return proof
    | .branch _ _ => do
      let _ ← path.nibbleAt
      return proof

/-- The path of a key that is not bytes-like: `keccak_hash(key)` is a TypeError in secure mode
(`/repo/src/pymt/utils/hash.py:22-23`, pycryptodome), otherwise `NibblePath(key)`
(e.g. `/repo/src/pymt/mpt.py:163-166`). -/
def badPath (t : MPT) (path : BadPath) : Py BadPath := if t.secure then .error .typeError else .ok path

/-- `MPT.get`, `/repo/src/pymt/mpt.py:138-168`, with any key.  The characters of a `str` are never used and an
empty `str` has none, so that its path cannot be told from that of `b""`. -/
def getAny (E : Env) (t : MPT) : KeyArg → Py Bytes
  | .bytes b | .bytearray b => t.get E b
  | .text 0 => if t.secure then (if t.rootFalsy then .error .valueError else .error .typeError) else t.get E []
  | .text (n + 1) => getBad (some (2 * (n + 1)))
  | .other => getBad none
where
  /-- `MPT.get`, `/repo/src/pymt/mpt.py:138-168`, with a path that cannot be read. -/
  getBad (path : BadPath) : Py Bytes :=
    if t.rootFalsy then .error .valueError
    else do
      let path ← t.badPath path
      let node ← getAuxBad t.store.kv E.limit (t.root.getD []) path
      match node with
      | .leaf _ d => return d
      | .branch _ d => return d
      | .ext _ _ => .error .attributeError

/-- `MPT.contains`, `/repo/src/pymt/mpt.py:195-233`, with any key. -/
def containsAny (E : Env) (t : MPT) : KeyArg → Py Bool
  | .bytes b | .bytearray b => t.contains E b
  | .text 0 => if t.secure then (if t.rootFalsy then .ok false else .error .typeError) else t.contains E []
  | .text (n + 1) => containsBad (some (2 * (n + 1)))
  | .other => containsBad none
where
  /-- `MPT.contains`, `/repo/src/pymt/mpt.py:195-233`, with a path that cannot be read. -/
  containsBad (path : BadPath) : Py Bool :=
    if t.rootFalsy then .ok false
    else do
      let path ← t.badPath path
      let node ← containsAuxBad (t.noRoot E) t.store.kv E.limit (t.root.getD []) path
      match node with
      | some (.branch _ d) => return d ≠ []
      | some (.ext _ _) => return false
      | some (.leaf p _) => path.eq p
      | none => return false

/-- `MPT.update`, `/repo/src/pymt/mpt.py:170-192`, with any key. -/
def updateAny (E : Env) (key : KeyArg) (value : Bytes) : M MPT Unit :=
  match key with
  | .bytes b | .bytearray b => update E b value
  | .text 0 => do
    let t ← M.get
    if t.secure then M.raise .typeError else update E [] value
  | .text (n + 1) => updateBad (some (2 * (n + 1)))
  | .other => updateBad none
where
  /-- `MPT.update`, `/repo/src/pymt/mpt.py:170-192`, with a path that cannot be read. -/
  updateBad (path : BadPath) : M MPT Unit := do
    let t ← M.get
    let path ← M.lift (t.badPath path)
    let result ← onStore (updateAuxBad E E.limit (t.root.getD []) path)
    M.modify (fun t => { t with root := some result })

/-- `MPT.delete`, `/repo/src/pymt/mpt.py:235-270`, with any key. -/
def deleteAny (E : Env) (key : KeyArg) : M MPT Unit :=
  match key with
  | .bytes b | .bytearray b => delete E b
  | .text 0 => do
    let t ← M.get
    if t.secure then (if t.noRoot E then M.raise .valueError else M.raise .typeError) else delete E []
  | .text (n + 1) => deleteBad (some (2 * (n + 1)))
  | .other => deleteBad none
where
  /-- `MPT.delete`, `/repo/src/pymt/mpt.py:235-270`, with a path that cannot be read. -/
  deleteBad (path : BadPath) : M MPT Unit := do
    let t ← M.get
    if t.noRoot E then M.raise .valueError
    else do
      let path ← M.lift (t.badPath path)
      let action ← onStore (deleteAuxBad E E.limit (t.root.getD []) path)
      match action with
      | .deleted => M.modify (fun t => { t with root := none })
      | .updated ref => M.modify (fun t => { t with root := some ref })
      | .useless _ ref => M.modify (fun t => { t with root := some ref })

/-- `isinstance(target_key, bytes)` in `Proof.__init__`, `/repo/src/pymt/proof.py:36-41`: the key is what was
passed, or its hash in secure mode. -/
def proofKey (secure : Bool) (key : KeyArg) (p : Py (Proof Bytes)) : Py (Proof Bytes) := do
  let p ← p
  match key with
  | .bytes _ => return p
  | _ => if secure then return p else .error .typeError

/-- `MPT.get_proof_of_inclusion`, `/repo/src/pymt/mpt.py:273-312`, with any key. -/
def getPoiAny (E : Env) (now : Bytes) (t : MPT) (key : KeyArg) : Py (Proof Bytes) :=
  match key with
  | .bytes b | .bytearray b => proofKey t.secure key (t.getPoi E now b)
  | .text 0 =>
    if t.secure then (if t.noRoot E then .error .valueError else .error .typeError)
    else proofKey t.secure key (t.getPoi E now [])
  | .text (n + 1) => poiBad (some (2 * (n + 1)))
  | .other => poiBad none
where
  /-- `MPT.get_proof_of_inclusion`, `/repo/src/pymt/mpt.py:273-312`, with a path that cannot be read. -/
  poiBad (path : BadPath) : Py (Proof Bytes) :=
    if t.noRoot E then .error .valueError
    else do
      let path ← t.badPath path
      let l ← getPoiAuxBad t.store.kv E.limit (t.root.getD []) path []
      proofKey t.secure key
        (.ok { type := mptPoi, timestamp := now, targetKey := [], trieRoot := t.root.getD [], proof := l })

/-- `MPT.get_proof_of_exclusion`, `/repo/src/pymt/mpt.py:363-420`, with any key.  The leaf of line 402 is encoded
before the proof is made. -/
def getPoeAny (E : Env) (now : Bytes) (t : MPT) (key : KeyArg) : Py (Proof Bytes) :=
  match key with
  | .bytes b | .bytearray b => proofKey t.secure key (t.getPoe E now b)
  | .text 0 =>
    if t.secure then (if t.noRoot E then .error .valueError else .error .typeError)
    else proofKey t.secure key (t.getPoe E now [])
  | .text (n + 1) => poeBad (some (2 * (n + 1)))
  | .other => poeBad none
where
  /-- `MPT.get_proof_of_exclusion`, `/repo/src/pymt/mpt.py:363-420`, with a path that cannot be read. -/
  poeBad (path : BadPath) : Py (Proof Bytes) :=
    if t.noRoot E then .error .valueError
    else do
      let present ← t.containsAny E key
      if present then .error .poe
      else do
        let path ← t.badPath path
        let l ← getPoeAuxBad t.store.kv E.limit (t.root.getD []) path []
        let enc ← path.encode
        let result : Proof Bytes :=
          { type := mptPoe, timestamp := now, targetKey := [], trieRoot := t.rootHash E,
            proof := l ++ [enc] }
        proofKey t.secure key (.ok result)

end MPT

/-- `if not isinstance(key, bytes): raise TypeError`, the check at the beginning of the methods of `EMPT`
(`/repo/src/pymt/empt.py:247-248, 266-267, 313-314, 326-327, 373-374, 393-394`) and `SparseEMPT`
(lines 491-492, 539-540, 551-552, 562-563, 582-583). -/
def KeyArg.checked : KeyArg → Py Bytes
  | .bytes b => .ok b
  | _ => .error .typeError

namespace EMPT

/-- `EMPT.get`, `/repo/src/pymt/empt.py:240-262`, with any key. -/
def getAny (E : Env) (s : EMPT) (key : KeyArg) : Py Value := do
  let key ← key.checked
  s.get E key

/-- `EMPT.contains`, `/repo/src/pymt/empt.py:320-328`, with any key. -/
def containsAny (E : Env) (s : EMPT) (key : KeyArg) : Py Bool := do
  let key ← key.checked
  s.contains E key

/-- `EMPT.update`, `/repo/src/pymt/empt.py:270-304`, with any key: the value is checked first (lines 285-293), then
the key (lines 295-296). -/
def updateAny (E : Env) (key : KeyArg) (value : Value) : M EMPT Unit :=
  match value with
  | .obj _ false _ _ => M.raise .notImplemented
  | .obj _ true false _ => M.raise .notImplemented
  | _ => do
    let key ← M.lift key.checked
    update E key value

/-- `EMPT.delete`, `/repo/src/pymt/empt.py:306-318`, with any key. -/
def deleteAny (E : Env) (key : KeyArg) : M EMPT Unit := do
  let key ← M.lift key.checked
  delete E key

/-- `EMPT.get_reference`, `/repo/src/pymt/empt.py:264-268`, with any key. -/
def getReferenceAny (E : Env) (s : EMPT) (key : KeyArg) : Py DataRef := do
  let key ← key.checked
  getReference E s.trie key

/-- `EMPT.get_proof_of_inclusion`, `/repo/src/pymt/empt.py:367-375`, with any key. -/
def getPoiAny (E : Env) (s : EMPT) (now : Bytes) (key : KeyArg) : Py (Proof Bytes) := do
  let key ← key.checked
  s.getPoi E now key

/-- `EMPT.get_proof_of_exclusion`, `/repo/src/pymt/empt.py:387-395`, with any key. -/
def getPoeAny (E : Env) (s : EMPT) (now : Bytes) (key : KeyArg) : Py (Proof Bytes) := do
  let key ← key.checked
  s.getPoe E now key

end EMPT

namespace Sparse

/-- `SparseEMPT.get_reference`, `/repo/src/pymt/empt.py:485-493`, with any key. -/
def getReferenceAny (E : Env) (t : MPT) (key : KeyArg) : Py DataRef := do
  let key ← key.checked
  EMPT.getReference E t key

/-- `SparseEMPT.contains`, `/repo/src/pymt/empt.py:545-553`, with any key. -/
def containsAny (E : Env) (t : MPT) (key : KeyArg) : Py Bool := do
  let key ← key.checked
  t.contains E key

/-- `SparseEMPT.update`, `/repo/src/pymt/empt.py:495-531`, with any key: the value is checked first (lines 513-526),
then the key (lines 528-529). -/
def updateAny (E : Env) (key : KeyArg) (value : Value) : M MPT Unit :=
  match value with
  | .obj _ false _ _ => M.raise .attributeError
  | .obj _ true _ _ => M.raise .typeError
  | _ => do
    let key ← M.lift key.checked
    update E key value

/-- `SparseEMPT.delete`, `/repo/src/pymt/empt.py:533-543`, with any key. -/
def deleteAny (E : Env) (key : KeyArg) : M MPT Unit := do
  let key ← M.lift key.checked
  delete E key

/-- `SparseEMPT.get_proof_of_inclusion`, `/repo/src/pymt/empt.py:556-564`, with any key. -/
def getPoiAny (E : Env) (t : MPT) (now : Bytes) (key : KeyArg) : Py (Proof Bytes) := do
  let key ← key.checked
  getPoi E t now key

/-- `SparseEMPT.get_proof_of_exclusion`, `/repo/src/pymt/empt.py:576-584`, with any key. -/
def getPoeAny (E : Env) (t : MPT) (now : Bytes) (key : KeyArg) : Py (Proof Bytes) := do
  let key ← key.checked
  getPoe E t now key

end Sparse
end Pymt
