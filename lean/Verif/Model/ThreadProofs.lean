import Verif.Model.Threads

/-!
# Proofs made and checked while other threads write (`/repo/src/pymt/mpt.py`)

The four proof calls as programs (see `Model/Threads.lean`).  They read the dict and `self._root` and write nothing.
-/

namespace Pymt
namespace MPT

/-- `MPT._get_proof_of_inclusion`, `/repo/src/pymt/mpt.py:674-750`. -/
def poiP : Nat → Option Bytes → NibblePath → List Bytes → Prog (List Bytes)
  | 0, _, _, _ => .raise .recursion
  | f + 1, ref, path, proof => do
    let node ← getNodeP ref
    let n ← Prog.lift path.len
    if n = 0 then do
      let enc ← Prog.lift node.encode
      return proof ++ [enc]
    else
      match node with
      | .leaf p _ => do
        let same ← Prog.lift (p.eq path)
        if same then do
          let enc ← Prog.lift node.encode
          return proof ++ [enc]
        else .raise .leafPath
      | .ext p nextRef => do
        let pre ← Prog.lift (path.startsWith p)
        if pre then do
          let m ← Prog.lift p.len
          let enc ← Prog.lift node.encode
          poiP f (some nextRef) (path.consume m) (proof ++ [enc])
        else .raise .extensionPath
      | .branch branches _ => do
        let i ← Prog.lift (path.nibbleAt 0)
        let branch ← Prog.lift (pyIndex branches i)
        if branch.length > 0 then do
          let enc ← Prog.lift node.encode
          poiP f (some branch) (path.consume 1) (proof ++ [enc])
        else .raise .branchPath

/-- `Proof(...)`, `/repo/src/pymt/proof.py:35-66`: TypeError if the root is not `bytes`; the other arguments always
have the right types here. -/
def proofP (type now key : Bytes) (proof : List Bytes) : Option Bytes → Prog (Proof Bytes)
  | none => .raise .typeError
  | some r => return { type := type, timestamp := now, targetKey := key, trieRoot := r, proof := proof }

/-- `MPT.get_proof_of_inclusion`, `/repo/src/pymt/mpt.py:273-312`; `key` is hashed already in secure mode.
`self._root` is read in lines 298 (twice), 305 and, by `self.root()`, 309. -/
def getPoiCallP (E : Env) (now key : Bytes) : Prog (Proof Bytes) := do
  let no ← noRootP E
  if no then .raise .valueError
  else do
    let r ← Prog.getRoot
    let l ← poiP E.limit r { data := key } []
    let r ← Prog.getRoot
    proofP mptPoi now key l r

/-- `MPT.root_hash`, `/repo/src/pymt/mpt.py:118-136`: `self._root` is read three times, unless the first read finds
it empty.  `len(None)` and `keccak_hash(None)` are TypeErrors. -/
def rootHashP (E : Env) : Prog (Option Bytes) := do
  let r ← Prog.getRoot
  if r.getD [] = [] then return some (emptyHash E)
  else do
    let r ← Prog.getRoot
    match r with
    | none => .raise .typeError
    | some b => do
      let r ← Prog.getRoot
      if b.length = 32 then return r
      else
        match r with
        | none => .raise .typeError
        | some c => return some (E.keccak c)

/-- `MPT._get_proof_of_exclusion`, `/repo/src/pymt/mpt.py:849-912`. -/
def poeP : Nat → Option Bytes → NibblePath → List Bytes → Prog (Node × List Bytes × NibblePath)
  | 0, _, _, _ => .raise .recursion
  | f + 1, ref, path, proof => do
    let node ← getNodeP ref
    let n ← Prog.lift path.len
    if n = 0 then do
      let enc ← Prog.lift node.encode
      return (node, proof ++ [enc], path)
    else
      match node with
      | .leaf _ _ => do
        let enc ← Prog.lift node.encode
        return (node, proof ++ [enc], path)
      | .ext p nextRef => do
        let pre ← Prog.lift (path.startsWith p)
        if pre then do
          let m ← Prog.lift p.len
          let enc ← Prog.lift node.encode
          poeP f (some nextRef) (path.consume m) (proof ++ [enc])
        else return (node, proof, path)
      | .branch branches _ => do
        let i ← Prog.lift (path.nibbleAt 0)
        let branch ← Prog.lift (pyIndex branches i)
        let enc ← Prog.lift node.encode
        if branch.length > 0 then poeP f (some branch) (path.consume 1) (proof ++ [enc])
        else return (node, proof ++ [enc], path)

/-- The checks on the last node, `/repo/src/pymt/mpt.py:404-414`. -/
def notThere (node : Node) (path : NibblePath) : Py Unit :=
  match node with
  | .branch _ d => if d ≠ [] then .error .poe else .ok ()
  | .leaf p _ => do
    let same ← p.eq path
    if same then .error .poe else .ok ()
  | .ext _ _ => .ok ()

/-- `MPT.get_proof_of_exclusion`, `/repo/src/pymt/mpt.py:363-420`; `key` is hashed already in secure mode.
`self._root` is read in line 388 (twice), by `contains` in line 392, in line 399, and by `root_hash` in line 417. -/
def getPoeCallP (E : Env) (now key : Bytes) : Prog (Proof Bytes) := do
  let no ← noRootP E
  if no then .raise .valueError
  else do
    let present ← containsCallP E key
    if present then .raise .poe
    else do
      let r ← Prog.getRoot
      let (node, l, path) ← poeP E.limit r { data := key } []
      let nullLeaf ← Prog.lift (Node.encode (.leaf path nullBytes))
      let _ ← Prog.lift (notThere node path)
      let h ← rootHashP E
      proofP mptPoe now key (l ++ [nullLeaf]) h

/-- `MPT.verify_proof_of_inclusion`, `/repo/src/pymt/mpt.py:314-361`.  `self._root` is read in line 337 (twice), by
`root_hash` in line 341, in line 355, and by `root_hash` in line 358; the walk reads only what the proof brought. -/
def verifyPoiCallP (E : Env) (p : Proof Bytes) : Prog Bool :=
  if p.type ≠ mptPoi then .raise .typeError
  else do
    let no ← noRootP E
    if no then .raise .valueError
    else do
      let h ← rootHashP E
      let first ← Prog.lift (pyIndex p.proof 0)
      if h ≠ some (E.keccak first) then return false
      else
        match proofStorage E p.proof [] with
        | .error .rlpDecoding => return false
        | .error e => .raise e
        | .ok ps => do
          let r ← Prog.getRoot
          match r with
          | none => .raise .typeError
          | some ref => do
            let valid ← Prog.lift (verifyPoiAux ps E.limit ref { data := p.targetKey })
            if valid then do
              let h ← rootHashP E
              return h == some p.trieRoot
            else return false

/-- What `verify_proof_of_exclusion` makes of the walk, `/repo/src/pymt/mpt.py:472-489`. -/
def poeVerdict (key : Bytes) (node : Option Node) (left : Dict Bytes) : Py Bool :=
  if left.length ≠ 0 then return false
  else
    match node with
    | some (.leaf q _) => do
      let same ← q.eq { data := key }
      return !same
    | some (.branch _ _) => return true
    | some (.ext _ _) => return true
    | none => return true

/-- `MPT.verify_proof_of_exclusion`, `/repo/src/pymt/mpt.py:422-489`.  `self._root` is read in line 451 (twice), by
`root_hash` in line 455, and by `root` in line 469. -/
def verifyPoeCallP (E : Env) (p : Proof Bytes) : Prog Bool :=
  if p.type ≠ mptPoe then .raise .typeError
  else do
    let no ← noRootP E
    if no then .raise .valueError
    else do
      let h ← rootHashP E
      let first ← Prog.lift (pyIndex p.proof 0)
      if h ≠ some (E.keccak first) then return false
      else do
        let last ← Prog.lift (lastItem p.proof)
        let lastNode ← Prog.lift (Node.decode last)
        let d ← Prog.lift (nodeData lastNode)
        if d ≠ nullBytes then return false
        else do
          let ps ← Prog.lift (proofStorage E p.proof.dropLast [])
          let r ← Prog.getRoot
          match r with
          | none => .raise .typeError
          | some ref => do
            let (node, left) ← Prog.lift (verifyPoeAux E.limit ref { data := p.targetKey } ps)
            .lift (poeVerdict p.targetKey node left)

end MPT
end Pymt
