import Verif.Model.Merkle

/-!
# Calls on one `MerkleTree` from several threads (`/repo/src/pymt/merkletools.py`, `/repo/src/pymt/mt.py`)

In `Model/Merkle.lean` a call is one step.  Here it is a program that touches what threads share, the attributes
`self.levels` and `self.is_ready` and the list `self.leaves`, one access at a time; between two accesses other threads
may run.  Everything else a call uses is made by the call itself or never changes.
Assumed: one read or write of an attribute, and one operation on a list (`len`, indexing, slicing, `index`, `append`),
is atomic, as it is in CPython.  Left out is `reset_tree`; so the attribute `self.leaves` always has the same list.
-/

namespace Pymt

/-- An element of the list `self.levels`: a list made by `_calculate_next_level`, which nothing changes afterwards, or
the list `self.leaves` itself, `/repo/src/pymt/merkletools.py:152-154, 160-162`.  The list `self.levels` is replaced, never
changed. -/
inductive LevelRef where
  | kept (l : List Bytes)
  | leaves
  deriving DecidableEq, Repr

/-- What the threads share: the attributes of a `MerkleTree`, `/repo/src/pymt/merkletools.py:28-45, 95-99`. -/
structure MState where
  secure : Bool
  leaves : List Bytes
  levels : Option (List LevelRef)
  ready : Bool
  deriving DecidableEq, Repr

/-- A call in progress: finished with a result or an exception, or about to touch shared state.
`levels`, `setLevels`, `ready`, `setReady`: the attributes; `leaves`: one operation that reads the list of leaves;
`append`: `self.leaves.append(value)`, `/repo/src/pymt/merkletools.py:115`;
`rounds`: at the `while`, line 163 (with `next` to do after the loop). -/
inductive MProg (α : Type) where
  | done (r : Py α)
  | levels (next : Option (List LevelRef) → MProg α)
  | setLevels (l : List LevelRef) (next : MProg α)
  | ready (next : Bool → MProg α)
  | setReady (b : Bool) (next : MProg α)
  | leaves (next : List Bytes → MProg α)
  | append (v : Bytes) (next : MProg α)
  | rounds (next : MProg α)

namespace MProg

/-- One operation on the list `self.levels[i]`, when `self.levels` has just been read: TypeError when it is `None`,
IndexError when it is too short; reading a list made by `_calculate_next_level` is no access to shared state.
`/repo/src/pymt/merkletools.py:101-219`. -/
def onLevel {α : Type} (i : Nat) (f : List Bytes → MProg α) : Option (List LevelRef) → MProg α
  | none => .done (.error .typeError)
  | some ls =>
    match ls[i]? with
    | none => .done (.error .indexError)
    | some (.kept l) => f l
    | some .leaves => .leaves f

/-- One operation on the list `self.levels[i]`.  `/repo/src/pymt/merkletools.py:101-219`. -/
def withLevel {α : Type} (i : Nat) (f : List Bytes → MProg α) : MProg α := .levels (onLevel i f)

/-- The end of `_calculate_next_level`, `/repo/src/pymt/merkletools.py:147-154`: `n` is the (even) number of nodes to
pair, `solo` the node left over, if any. -/
def pairUp {α : Type} (H : HashFn) (n : Nat) (solo : List Bytes) (next : MProg α) : MProg α :=
  withLevel 0 fun l =>
    let evens := MTree.everyOther (l.take n)
    withLevel 0 fun l =>
      let odds := MTree.everyOther ((l.take n).drop 1)
      .levels fun
        | none => .done (.error .typeError)
        | some ls => .setLevels (.kept ((evens.zip odds).map (fun (l, r) => H.hash (l ++ r)) ++ solo) :: ls) next

/-- `_calculate_next_level`, `/repo/src/pymt/merkletools.py:139-154`. -/
def nextLevel {α : Type} (H : HashFn) (next : MProg α) : MProg α :=
  withLevel 0 fun l =>
    let n := l.length
    if n % 2 = 1 then
      withLevel 0 fun l =>
        match l.getLast? with
        | none => .done (.error .indexError)
        | some solo => pairUp H (n - 1) [solo] next
    else pairUp H n [] next

/-- `while len(self.levels[0]) > 1: self._calculate_next_level()`, `/repo/src/pymt/merkletools.py:163-164`, from the
moment the condition has read `self.levels`. -/
def round {α : Type} (H : HashFn) (next : MProg α) : Option (List LevelRef) → MProg α :=
  onLevel 0 fun l => if l.length > 1 then nextLevel H (.rounds next) else next

/-- `make_tree`, `/repo/src/pymt/merkletools.py:156-165`, `/repo/src/pymt/mt.py:82-84`. -/
def make {α : Type} (next : MProg α) : MProg α :=
  .setReady false <| .leaves fun l =>
    if l.length > 0 then .setLevels [.leaves] (.rounds (.setReady true next)) else .setReady true next

/-- `MerkleTools.get_merkle_root`, `/repo/src/pymt/merkletools.py:167-177`: `self.levels` is read in the condition, if
`self.is_ready`, and for the result. -/
def rootRaw {α : Type} (f : Bytes → MProg α) : MProg α :=
  .ready fun r =>
    if r then
      .levels fun
        | none => .done (.error .valueError)
        | some _ => withLevel 0 fun l =>
          match l[0]? with
          | none => .done (.error .indexError)
          | some b => f (hexOf b)
    else .done (.error .valueError)

/-- `MerkleTree.get_merkle_root`, `/repo/src/pymt/mt.py:90-95`. -/
def root {α : Type} (f : Bytes → MProg α) : MProg α :=
  .ready fun r => if r then rootRaw f else make (rootRaw f)

/-- The loop in `MerkleTools.get_proof_of_inclusion`, `/repo/src/pymt/merkletools.py:206-219`, for `x` from the first
argument down to 1; `self.levels` is read once or twice in every round.  `acc` is the proof so far. -/
def proofLoop {α : Type} (f : List (Bytes × Bytes) → MProg α) : Nat → Nat → List (Bytes × Bytes) → MProg α
  | 0, _, acc => f acc
  | x + 1, index, acc => withLevel (x + 1) fun level =>
    if index = level.length - 1 ∧ level.length % 2 = 1 then proofLoop f x (index / 2) acc
    else
      let isRight := index % 2 = 1
      withLevel (x + 1) fun level =>
        match level[if isRight then index - 1 else index + 1]? with
        | none => .done (.error .indexError)
        | some sibling => proofLoop f x (index / 2) (acc ++ [(if isRight then MTree.left else MTree.right, hexOf sibling)])

/-- `MerkleTools.get_proof_of_inclusion`, `/repo/src/pymt/merkletools.py:179-219`; `leaf` is hashed already in secure
mode.  Line 202 reads the leaves once more, without effect since there are never fewer. -/
def proofRaw {α : Type} (leaf : Bytes) (f : List (Bytes × Bytes) → MProg α) : MProg α :=
  .leaves fun l =>
    match l.idxOf? leaf with
    | none => .done (.error .valueError)
    | some index => .levels fun
      | none => .done (.error .valueError)
      | some _ => .ready fun r =>
        if r then
          .leaves fun _ => .levels fun
            | none => .done (.error .typeError)
            | some ls => proofLoop f (ls.length - 1) index []
        else .done (.error .valueError)

/-- What `MerkleTree.verify_proof_of_inclusion` does before `self.get_merkle_root()`, `/repo/src/pymt/mt.py:148-163`: it
touches nothing that threads share. -/
def checks (H : HashFn) (p : Proof (Bytes × Bytes)) : Py Bool := do
  let entries ← MTree.decodeEntries p.proof
  let text ← decodeUtf8 p.trieRoot
  let merkleRoot ← fromHex text
  match MTree.verifyRaw H entries p.targetKey merkleRoot with
  | .error e => if MTree.isValueError e then return false else .error e
  | .ok b => return b

/-- `MerkleTree.verify_proof_of_inclusion`, `/repo/src/pymt/mt.py:134-170`. -/
def verify {α : Type} (H : HashFn) (p : Proof (Bytes × Bytes)) (f : Bool → MProg α) : MProg α :=
  match checks H p with
  | .error e => .done (.error e)
  | .ok true => root fun r => f (r == p.trieRoot)
  | .ok false => f false

/-- One access to shared state; finished programs do nothing.  `/repo/src/pymt/merkletools.py:101-219`. -/
def step {α : Type} (H : HashFn) : MProg α → MState → MProg α × MState
  | .done r, s => (.done r, s)
  | .levels n, s => (n s.levels, s)
  | .setLevels l n, s => (n, { s with levels := some l })
  | .ready n, s => (n s.ready, s)
  | .setReady b n, s => (n, { s with ready := b })
  | .leaves n, s => (n s.leaves, s)
  | .append v n, s => (n, { s with leaves := s.leaves ++ [v] })
  | .rounds n, s => (round H n s.levels, s)

end MProg

/-- A call a thread makes on a `MerkleTree`, `/repo/src/pymt/mt.py:27-170`.  `now` is the clock reading of the proof made. -/
inductive MCall where
  | put (value : Bytes)
  | get (index : Int)
  | count
  | make
  | root
  | poi (now key : Bytes)
  | verify (p : Proof (Bytes × Bytes))

/-- What a call returns: `None`, text or `bytes`, a number, a `Proof`, a `bool`.
`/repo/src/pymt/merkletools.py:101-219`, `/repo/src/pymt/mt.py:27-134`. -/
inductive MAns where
  | none
  | bytes (b : Bytes)
  | nat (n : Nat)
  | proof (p : Proof (Bytes × Bytes))
  | bool (b : Bool)

/-- The program of a call, `/repo/src/pymt/mt.py:27-170`. -/
def MCall.prog (H : HashFn) (secure : Bool) : MCall → MProg MAns
  | .put v => .append (MTree.leafOf H secure v) (.done (.ok .none))
  | .get i => .leaves fun l => .done ((MTree.pyIndexInt l i).map fun b => .bytes (hexOf b))
  | .count => .leaves fun l => .done (.ok (.nat l.length))
  | .make => MProg.make (.done (.ok .none))
  | .root => MProg.root fun r => .done (.ok (.bytes r))
  | .poi now key => MProg.proofRaw (MTree.leafOf H secure key) fun proof => MProg.root fun r =>
      .done (.ok (.proof { type := mtPoi, timestamp := now, targetKey := key, trieRoot := r, proof := proof }))
  | .verify p => MProg.verify H p fun b => .done (.ok (.bool b))

/-- A thread: the call in progress, the calls still to make, and the outcomes of the calls made (exceptions are
caught).  `/repo/src/pymt/merkletools.py:101-219`. -/
structure MThread where
  cur : Option (MProg MAns)
  rest : List MCall
  outs : List (Py MAns)

/-- Threads and the tree they share.  `/repo/src/pymt/merkletools.py:101-219`. -/
structure MWorld where
  threads : Nat → MThread
  tree : MState

namespace MWorld

/-- Replace thread `j`.  `/repo/src/pymt/merkletools.py:101-219`. -/
def setThread (w : MWorld) (j : Nat) (th : MThread) : MWorld :=
  { w with threads := fun i => if i = j then th else w.threads i }

/-- Thread `j` runs until it has touched shared state once, begun a call or ended one.
`/repo/src/pymt/merkletools.py:101-219`. -/
def step (H : HashFn) (j : Nat) (w : MWorld) : MWorld :=
  let th := w.threads j
  match th.cur with
  | none =>
    match th.rest with
    | [] => w
    | c :: rest => w.setThread j { th with cur := some (c.prog H w.tree.secure), rest := rest }
  | some (.done r) => w.setThread j { th with cur := none, outs := th.outs ++ [r] }
  | some p => { w.setThread j { th with cur := some (p.step H w.tree).1 } with tree := (p.step H w.tree).2 }

/-- A schedule: which thread moves next.  `/repo/src/pymt/merkletools.py:101-219`. -/
def run (H : HashFn) (sched : List Nat) (w : MWorld) : MWorld := sched.foldl (fun w j => w.step H j) w

end MWorld

/-- The tree as threads see it: the last of the levels is the list of leaves, `/repo/src/pymt/merkletools.py:160-162`. -/
def MTree.shared (t : MTree) : MState where
  secure := t.secure
  leaves := t.leaves
  levels := t.upper.map fun u => u.map .kept ++ [.leaves]
  ready := t.ready

/-- Threads about to make their calls on a tree.  `/repo/src/pymt/merkletools.py:17-45`. -/
def MWorld.new (t : MTree) (calls : Nat → List MCall) : MWorld where
  threads j := { cur := none, rest := calls j, outs := [] }
  tree := t.shared

end Pymt
