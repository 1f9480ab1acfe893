import Verif.Model.Mpt

/-!
# Calls on tries from several threads (`/repo/src/pymt/mpt.py`)

In the rest of the model a call is one step.  Here it is a program that touches what threads share, the dict
`self._storage` and the attribute `self._root`, one access at a time; between two accesses other threads may run.
Everything else a call uses (paths, nodes, lists) is made by the call itself, and `self._secure` never changes.
Assumed: one read or write of a dict entry or of an attribute is atomic, as it is in CPython.
-/

namespace Pymt

/-- A call in progress: finished with a result or an exception, or about to touch shared state.
`load k`: `self._storage[k]`, `/repo/src/pymt/mpt.py:550` (KeyError is never caught and ends the call);
`save k v`: `self._storage[k] = v`, line 1240; `root`: reads `self._root`; `setRoot`: lines 192, 264-270. -/
inductive Prog (α : Type) where
  | done (r : Py α)
  | load (k : Bytes) (next : Bytes → Prog α)
  | save (k v : Bytes) (next : Prog α)
  | root (next : Option Bytes → Prog α)
  | setRoot (r : Option Bytes) (next : Prog α)

namespace Prog

/-- Sequencing; an exception ends the program.  `/repo/src/pymt/mpt.py:138-270`. -/
def bind {α β : Type} : Prog α → (α → Prog β) → Prog β
  | .done (.ok a), f => f a
  | .done (.error e), _ => .done (.error e)
  | .load k n, f => .load k fun v => (n v).bind f
  | .save k v n, f => .save k v (n.bind f)
  | .root n, f => .root fun r => (n r).bind f
  | .setRoot r n, f => .setRoot r (n.bind f)

instance : Monad Prog where
  pure a := .done (.ok a)
  bind := bind

/-- A computation on data of the thread.  `/repo/src/pymt/mpt.py:138-270`. -/
def lift {α : Type} (m : Py α) : Prog α := .done m

/-- `raise e`.  `/repo/src/pymt/mpt.py:138-270`. -/
def raise {α : Type} (e : Err) : Prog α := .done (.error e)

/-- `self._storage[k]`.  `/repo/src/pymt/mpt.py:550`. -/
def loadItem (k : Bytes) : Prog Bytes := .load k fun v => .done (.ok v)

/-- `self._root`.  `/repo/src/pymt/mpt.py:138-270`. -/
def getRoot : Prog (Option Bytes) := .root fun r => .done (.ok r)

end Prog

namespace MPT

/-- The raw node, `/repo/src/pymt/mpt.py:549-554`. -/
def rawP (ref : Bytes) : Prog Bytes := if ref.length = 32 then Prog.loadItem ref else .lift (.ok ref)

/-- `MPT._get_node`, `/repo/src/pymt/mpt.py:533-562`.  `len(None)` is a TypeError. -/
def getNodeP : Option Bytes → Prog Node
  | none => .raise .typeError
  | some ref => do
    let raw ← rawP ref
    .lift (Node.decode raw)

/-- `MPT._store_node`, `/repo/src/pymt/mpt.py:1224-1241`. -/
def storeNodeP (E : Env) (node : Node) : Prog Bytes := do
  let ref ← Prog.lift (node.intoReference E)
  if ref.length = 32 then do
    let enc ← Prog.lift node.encode
    .save ref enc (.done (.ok ref))
  else return ref

/-- `MPT._get`, `/repo/src/pymt/mpt.py:564-629`. -/
def getP : Nat → Option Bytes → NibblePath → Prog Node
  | 0, _, _ => .raise .recursion
  | f + 1, ref, path => do
    let node ← getNodeP ref
    let n ← Prog.lift path.len
    if n = 0 then return node
    else
      match node with
      | .leaf p _ => do
        let same ← Prog.lift (p.eq path)
        if same then return node else .raise .keyNotFound
      | .ext p nextRef => do
        let pre ← Prog.lift (path.startsWith p)
        if pre then do
          let m ← Prog.lift p.len
          getP f (some nextRef) (path.consume m)
        else .raise .extensionPath
      | .branch branches _ => do
        let i ← Prog.lift (path.nibbleAt 0)
        let branch ← Prog.lift (pyIndex branches i)
        if branch.length > 0 then getP f (some branch) (path.consume 1)
        else .raise .branchPath

/-- `.data` of the node found, `/repo/src/pymt/mpt.py:168`. -/
def dataP : Node → Prog Bytes
  | .leaf _ d => .lift (.ok d)
  | .branch _ d => .lift (.ok d)
  | .ext _ _ => .raise .attributeError

/-- `MPT.get`, `/repo/src/pymt/mpt.py:138-168`; `key` is hashed already in secure mode.  `self._root` is read in
lines 160 and 167. -/
def getCallP (E : Env) (key : Bytes) : Prog Bytes := do
  let r ← Prog.getRoot
  if r.getD [] = [] then .raise .valueError
  else do
    let r ← Prog.getRoot
    let node ← getP E.limit r { data := key }
    dataP node

/-- `self._root is None or self._root == Node.EMPTY_HASH`: two reads unless the first gives `None`,
`/repo/src/pymt/mpt.py:253, 639`. -/
def noRootP (E : Env) : Prog Bool := do
  let r ← Prog.getRoot
  if r = none then return true
  else do
    let r ← Prog.getRoot
    return r == some (emptyHash E)

/-- `MPT._contains`, `/repo/src/pymt/mpt.py:631-672`; every call of it reads `self._root` (line 639). -/
def containsP (E : Env) : Nat → Option Bytes → NibblePath → Prog (Option Node × NibblePath)
  | 0, _, _ => .raise .recursion
  | f + 1, ref, path => do
    let no ← noRootP E
    if no then return (none, path)
    else do
      let node ← getNodeP ref
      let n ← Prog.lift path.len
      if n = 0 then return (some node, path)
      else
        match node with
        | .leaf _ _ => return (some node, path)
        | .ext p nextRef => do
          let pre ← Prog.lift (path.startsWith p)
          if pre then do
            let m ← Prog.lift p.len
            containsP E f (some nextRef) (path.consume m)
          else return (some node, path)
        | .branch branches _ => do
          let i ← Prog.lift (path.nibbleAt 0)
          let branch ← Prog.lift (pyIndex branches i)
          if branch.length > 0 then containsP E f (some branch) (path.consume 1)
          else return (some node, path)

/-- What `contains` makes of the node, `/repo/src/pymt/mpt.py:211-231`. -/
def hasP : Option Node × NibblePath → Prog Bool
  | (some (.branch _ d), _) => .lift (.ok (d ≠ []))
  | (some (.ext _ _), _) => .lift (.ok false)
  | (some (.leaf p _), path) => .lift (p.eq path)
  | (none, _) => .lift (.ok false)

/-- `MPT.contains`, `/repo/src/pymt/mpt.py:195-233`; `self._root` is read in lines 202 and 209. -/
def containsCallP (E : Env) (key : Bytes) : Prog Bool := do
  let r ← Prog.getRoot
  if r.getD [] = [] then return false
  else do
    let r ← Prog.getRoot
    let res ← containsP E E.limit r { data := key }
    hasP res

/-- `MPT._create_branch_leaf`, `/repo/src/pymt/mpt.py:1168-1191`. -/
def createBranchLeafP (E : Env) (path : NibblePath) (value : Bytes) (branches : List Bytes) :
    Prog (List Bytes) := do
  let n ← Prog.lift path.len
  if n > 0 then do
    let idx ← Prog.lift (path.nibbleAt 0)
    let leafRef ← storeNodeP E (.leaf (path.consume 1) value)
    .lift (pySet branches idx leafRef)
  else return branches

/-- `MPT._create_branch_extension`, `/repo/src/pymt/mpt.py:1193-1222`. -/
def createBranchExtensionP (E : Env) (path : NibblePath) (nextRef : Bytes) (branches : List Bytes) :
    Prog (List Bytes) := do
  let n ← Prog.lift path.len
  if ¬ n ≥ 1 then .raise .assertion
  else if n = 1 then do
    let idx ← Prog.lift (path.nibbleAt 0)
    .lift (pySet branches idx nextRef)
  else do
    let idx ← Prog.lift (path.nibbleAt 0)
    let ref ← storeNodeP E (.ext (path.consume 1) nextRef)
    .lift (pySet branches idx ref)

/-- `MPT._create_branch_node`, `/repo/src/pymt/mpt.py:1130-1166`. -/
def createBranchNodeP (E : Env) (pathA : NibblePath) (valueA : Bytes) (pathB : NibblePath)
    (valueB : Bytes) : Prog Bytes := do
  let a ← Prog.lift pathA.len
  let b ← Prog.lift pathB.len
  if ¬ (a ≠ 0 ∨ b ≠ 0) then .raise .assertion
  else do
    let branchValue := if a = 0 then valueA else if b = 0 then valueB else []
    let branches ← createBranchLeafP E pathA valueA (List.replicate 16 [])
    let branches ← createBranchLeafP E pathB valueB branches
    storeNodeP E (.branch branches branchValue)

/-- `MPT._update`, `/repo/src/pymt/mpt.py:1012-1128`. -/
def updateP (E : Env) : Nat → Bytes → NibblePath → Bytes → Prog Bytes
  | 0, _, _, _ => .raise .recursion
  | f + 1, ref, path, value =>
    if ref = [] ∨ ref = emptyHash E then storeNodeP E (.leaf path value)
    else do
      let node ← getNodeP (some ref)
      match node with
      | .leaf npath ndata => do
        let same ← Prog.lift (npath.eq path)
        if same then storeNodeP E (.leaf npath value)
        else do
          let common ← Prog.lift (path.commonPrefix npath)
          let c ← Prog.lift common.len
          let branchRef ← createBranchNodeP E (path.consume c) value (npath.consume c) ndata
          if c ≠ 0 then storeNodeP E (.ext common branchRef)
          else return branchRef
      | .ext npath nextRef => do
        let pre ← Prog.lift (path.startsWith npath)
        if pre then do
          let m ← Prog.lift npath.len
          let newRef ← updateP E f nextRef (path.consume m) value
          storeNodeP E (.ext npath newRef)
        else do
          let common ← Prog.lift (path.commonPrefix npath)
          let c ← Prog.lift common.len
          let path := path.consume c
          let npath := npath.consume c
          let n ← Prog.lift path.len
          let branchValue := if n = 0 then value else []
          let branches ← createBranchLeafP E path value (List.replicate 16 [])
          let branches ← createBranchExtensionP E npath nextRef branches
          let branchRef ← storeNodeP E (.branch branches branchValue)
          if c ≠ 0 then storeNodeP E (.ext common branchRef)
          else return branchRef
      | .branch branches data => do
        let n ← Prog.lift path.len
        if n = 0 then storeNodeP E (.branch branches value)
        else do
          let idx ← Prog.lift (path.nibbleAt 0)
          let child ← Prog.lift (pyIndex branches idx)
          let newRef ← updateP E f child (path.consume 1) value
          let branches ← Prog.lift (pySet branches idx newRef)
          storeNodeP E (.branch branches data)

/-- `MPT.update`, `/repo/src/pymt/mpt.py:170-192`; `self._root` is read in line 191 and set in line 192. -/
def updateCallP (E : Env) (key value : Bytes) : Prog Unit := do
  let r ← Prog.getRoot
  let result ← updateP E E.limit (r.getD []) { data := key } value
  .setRoot (some result) (.done (.ok ()))

/-- `MPT._build_new_node_from_last_branch`, `/repo/src/pymt/mpt.py:1410-1463`. -/
def buildFromLastBranchP (E : Env) (branches : List Bytes) : Prog DeleteAction := do
  let idx := firstNonEmpty branches
  let prefixNibble : NibblePath := { data := [UInt8.ofNat idx], offset := 1 }
  let childRef ← Prog.lift (pyIndex branches idx)
  let child ← getNodeP (some childRef)
  match child with
  | .leaf p d => do
    let path ← Prog.lift (prefixNibble.combine p)
    let ref ← storeNodeP E (.leaf path d)
    return .useless path ref
  | .ext p r => do
    let path ← Prog.lift (prefixNibble.combine p)
    let ref ← storeNodeP E (.ext path r)
    return .useless path ref
  | .branch _ _ => do
    let ref ← storeNodeP E (.ext prefixNibble childRef)
    return .useless prefixNibble ref

/-- `_delete` at a branch after its value or a child was deleted, `/repo/src/pymt/mpt.py:1372-1396`. -/
def afterDeletedP (E : Env) (branches : List Bytes) (data : Bytes) : Prog DeleteAction := do
  let count := nonEmptyCount branches
  if count = 0 ∧ data.length = 0 then return .deleted
  else if count = 0 ∧ data.length ≠ 0 then do
    let path : NibblePath := { data := [] }
    let ref ← storeNodeP E (.leaf path data)
    return .useless path ref
  else if count = 1 ∧ data.length = 0 then buildFromLastBranchP E branches
  else do
    let ref ← storeNodeP E (.branch branches data)
    return .updated ref

/-- `MPT._delete`, `/repo/src/pymt/mpt.py:1256-1408`. -/
def deleteP (E : Env) : Nat → Option Bytes → NibblePath → Prog DeleteAction
  | 0, _, _ => .raise .recursion
  | f + 1, ref, path => do
    let node ← getNodeP ref
    match node with
    | .leaf npath _ => do
      let same ← Prog.lift (path.eq npath)
      if same then return .deleted else .raise .leafPath
    | .ext npath nextRef => do
      let pre ← Prog.lift (path.startsWith npath)
      if ¬ pre then .raise .extensionPath
      else do
        let m ← Prog.lift npath.len
        let action ← deleteP E f (some nextRef) (path.consume m)
        match action with
        | .deleted => return .deleted
        | .updated childRef => do
          let newRef ← storeNodeP E (.ext npath childRef)
          return .updated newRef
        | .useless storedPath storedRef => do
          let child ← getNodeP (some storedRef)
          match child with
          | .leaf p d => do
            let path ← Prog.lift (npath.combine p)
            let newRef ← storeNodeP E (.leaf path d)
            return .updated newRef
          | .ext p r => do
            let path ← Prog.lift (npath.combine p)
            let newRef ← storeNodeP E (.ext path r)
            return .updated newRef
          | .branch _ _ => do
            let path ← Prog.lift (npath.combine storedPath)
            let newRef ← storeNodeP E (.ext path storedRef)
            return .updated newRef
    | .branch branches data => do
      let n ← Prog.lift path.len
      if ¬ (n ≠ 0 ∨ data.length ≠ 0) then .raise .assertion
      else if n = 0 ∧ data.length = 0 then .raise .branchPath
      else if n = 0 ∧ data.length ≠ 0 then afterDeletedP E branches []
      else do
        let idx ← Prog.lift (path.nibbleAt 0)
        let child ← Prog.lift (pyIndex branches idx)
        if child.length = 0 then .raise .branchPath
        else do
          let action ← deleteP E f (some child) (path.consume 1)
          match action with
          | .deleted => do
            let branches ← Prog.lift (pySet branches idx [])
            afterDeletedP E branches data
          | .updated nextRef => do
            let branches ← Prog.lift (pySet branches idx nextRef)
            let ref ← storeNodeP E (.branch branches data)
            return .updated ref
          | .useless _ nextRef => do
            let branches ← Prog.lift (pySet branches idx nextRef)
            let ref ← storeNodeP E (.branch branches data)
            return .updated ref

/-- The assignment at the end of `MPT.delete`, `/repo/src/pymt/mpt.py:262-270`. -/
def finishP : DeleteAction → Prog Unit
  | .deleted => .setRoot none (.done (.ok ()))
  | .updated ref => .setRoot (some ref) (.done (.ok ()))
  | .useless _ ref => .setRoot (some ref) (.done (.ok ()))

/-- `MPT.delete`, `/repo/src/pymt/mpt.py:235-270`; `self._root` is read in line 253 (once or twice) and 260. -/
def deleteCallP (E : Env) (key : Bytes) : Prog Unit := do
  let no ← noRootP E
  if no then .raise .valueError
  else do
    let r ← Prog.getRoot
    let action ← deleteP E E.limit r { data := key }
    finishP action

end MPT

/-- A call a thread makes on a trie object.  `/repo/src/pymt/mpt.py:138-270`. -/
inductive Call where
  | update (k v : Bytes)
  | delete (k : Bytes)
  | get (k : Bytes)
  | contains (k : Bytes)
  deriving DecidableEq, Repr

/-- What a call returns: `None`, `bytes`, or `bool`.  `/repo/src/pymt/mpt.py:138-270`. -/
inductive Ans where
  | none
  | value (v : Bytes)
  | bool (b : Bool)
  deriving DecidableEq, Repr

/-- The program of a call, `/repo/src/pymt/mpt.py:138-270`. -/
def Call.prog (E : Env) (secure : Bool) : Call → Prog Ans
  | .update k v => do MPT.updateCallP E (if secure then E.keccak k else k) v; return .none
  | .delete k => do MPT.deleteCallP E (if secure then E.keccak k else k); return .none
  | .get k => do
    let v ← MPT.getCallP E (if secure then E.keccak k else k)
    return .value v
  | .contains k => do
    let b ← MPT.containsCallP E (if secure then E.keccak k else k)
    return .bool b

/-- A thread: the call in progress with the number of its trie object, the calls still to make, and the outcomes of
the calls made (exceptions are caught).  `/repo/src/pymt/mpt.py:138-270`. -/
structure Thread where
  cur : Option (Nat × Prog Ans)
  rest : List (Nat × Call)
  outs : List (Py Ans)

/-- Threads, trie objects by number (`_root` and `_secure`, `/repo/src/pymt/mpt.py:54-75`), and the dict all the
objects were made with. -/
structure World where
  threads : Nat → Thread
  store : Store
  roots : Nat → Option Bytes
  secure : Nat → Bool

namespace World

/-- Replace thread `j`.  `/repo/src/pymt/mpt.py:138-270`. -/
def setThread (w : World) (j : Nat) (th : Thread) : World :=
  { w with threads := fun i => if i = j then th else w.threads i }

/-- Trie object `i`.  `/repo/src/pymt/mpt.py:54-77`. -/
def obj (w : World) (i : Nat) : MPT := { store := w.store, root := w.roots i, secure := w.secure i }

/-- Thread `j` runs until it has touched shared state once, begun a call or ended one.  `/repo/src/pymt/mpt.py:138-270`. -/
def step (E : Env) (j : Nat) (w : World) : World :=
  let th := w.threads j
  match th.cur with
  | none =>
    match th.rest with
    | [] => w
    | (i, c) :: rest => w.setThread j { th with cur := some (i, c.prog E (w.secure i)), rest := rest }
  | some (_, .done r) => w.setThread j { th with cur := none, outs := th.outs ++ [r] }
  | some (i, .load k n) =>
    match dget w.store.kv k with
    | some v => w.setThread j { th with cur := some (i, n v) }
    | none => w.setThread j { th with cur := some (i, .done (.error .keyError)) }
  | some (i, .save k v n) =>
    { w.setThread j { th with cur := some (i, n) } with store := w.store.set k v }
  | some (i, .root n) => w.setThread j { th with cur := some (i, n (w.roots i)) }
  | some (i, .setRoot r n) =>
    { w.setThread j { th with cur := some (i, n) } with
      roots := fun i' => if i' = i then r else w.roots i' }

/-- A schedule: which thread moves next.  `/repo/src/pymt/mpt.py:138-270`. -/
def run (E : Env) (sched : List Nat) (w : World) : World := sched.foldl (fun w j => w.step E j) w

/-- New trie objects `MPT(d, secure=...)` over one empty dict `d`, and threads about to make their calls.
`/repo/src/pymt/mpt.py:54-77`. -/
def new (E : Env) (secure : Nat → Bool) (calls : Nat → List (Nat × Call)) : World where
  threads j := { cur := none, rest := calls j, outs := [] }
  store := Store.empty
  roots _ := some (emptyHash E)
  secure := secure

end World
end Pymt
