import Verif.Model.MerkleThreads

/-!
# Calls on one `MerkleTree` from several threads, `reset_tree` included (`/repo/src/pymt/merkletools.py`, `/repo/src/pymt/mt.py`)

`reset_tree` makes `self.leaves` another list, and a call that has read the attribute goes on with the list it got.  So here
lists are objects, and reading the attribute `self.leaves` and using the list are two accesses.
Assumed, as in `Model/MerkleThreads.lean`: one read or write of an attribute and one operation on a list are atomic.
-/

namespace Pymt

/-- An element of the list `self.levels`: a list made by `_calculate_next_level`, which nothing changes afterwards, or a list
that is or was `self.leaves`, `/repo/src/pymt/merkletools.py:152-154, 160-162`; `o` is its number. -/
inductive HLevel where
  | kept (l : List Bytes)
  | list (o : Nat)
  deriving DecidableEq, Repr

/-- What the threads share, `/repo/src/pymt/merkletools.py:28-45, 95-99`: the attributes of a `MerkleTree`, and the lists that
have been `self.leaves`, the oldest first; `leaves` is the number of the one that is. -/
structure HState where
  secure : Bool
  lists : List (List Bytes)
  leaves : Nat
  levels : Option (List HLevel)
  ready : Bool
  deriving DecidableEq, Repr

/-- A call in progress: finished, or about to touch shared state.
`leaves`, `levels`, `ready`: reads the attribute; `setLevels`, `setReady`: assigns it;
`fresh`: `self.leaves = list()`, `/repo/src/pymt/merkletools.py:97`;
`list o`: one operation that reads list `o`; `append o v`: `append(v)` on list `o`, line 115;
`rounds`: at the `while`, line 163 (with `next` to do after the loop). -/
inductive HProg (α : Type) where
  | done (r : Py α)
  | leaves (next : Nat → HProg α)
  | fresh (next : HProg α)
  | list (o : Nat) (next : List Bytes → HProg α)
  | append (o : Nat) (v : Bytes) (next : HProg α)
  | levels (next : Option (List HLevel) → HProg α)
  | setLevels (l : Option (List HLevel)) (next : HProg α)
  | ready (next : Bool → HProg α)
  | setReady (b : Bool) (next : HProg α)
  | rounds (next : HProg α)

namespace HProg

/-- One operation on the list `self.leaves`: the attribute, then the list.  `/repo/src/pymt/merkletools.py:101-219`. -/
def onLeaves {α : Type} (f : List Bytes → HProg α) : HProg α := .leaves fun o => .list o f

/-- One operation on the list `self.levels[i]`, when `self.levels` has just been read: TypeError when it is `None`,
IndexError when it is too short; reading a list made by `_calculate_next_level` is no access to shared state.
`/repo/src/pymt/merkletools.py:101-219`. -/
def onLevel {α : Type} (i : Nat) (f : List Bytes → HProg α) : Option (List HLevel) → HProg α
  | none => .done (.error .typeError)
  | some ls =>
    match ls[i]? with
    | none => .done (.error .indexError)
    | some (.kept l) => f l
    | some (.list o) => .list o f

/-- One operation on the list `self.levels[i]`.  `/repo/src/pymt/merkletools.py:101-219`. -/
def withLevel {α : Type} (i : Nat) (f : List Bytes → HProg α) : HProg α := .levels (onLevel i f)

/-- The end of `_calculate_next_level`, `/repo/src/pymt/merkletools.py:147-154`: `n` is the (even) number of nodes to
pair, `solo` the node left over, if any. -/
def pairUp {α : Type} (H : HashFn) (n : Nat) (solo : List Bytes) (next : HProg α) : HProg α :=
  withLevel 0 fun l =>
    let evens := MTree.everyOther (l.take n)
    withLevel 0 fun l =>
      let odds := MTree.everyOther ((l.take n).drop 1)
      .levels fun
        | none => .done (.error .typeError)
        | some ls => .setLevels (some (.kept ((evens.zip odds).map (fun (l, r) => H.hash (l ++ r)) ++ solo) :: ls)) next

/-- `_calculate_next_level`, `/repo/src/pymt/merkletools.py:139-154`. -/
def nextLevel {α : Type} (H : HashFn) (next : HProg α) : HProg α :=
  withLevel 0 fun l =>
    let n := l.length
    if n % 2 = 1 then
      withLevel 0 fun l =>
        match l.getLast? with
        | none => .done (.error .indexError)
        | some solo => pairUp H (n - 1) [solo] next
    else pairUp H n [] next

/-- `while len(self.levels[0]) > 1: self._calculate_next_level()`, `/repo/src/pymt/merkletools.py:163-164`, from the
moment the condition has read `self.levels`. -/
def round {α : Type} (H : HashFn) (next : HProg α) : Option (List HLevel) → HProg α :=
  onLevel 0 fun l => if l.length > 1 then nextLevel H (.rounds next) else next

/-- `make_tree`, `/repo/src/pymt/merkletools.py:156-165`, `/repo/src/pymt/mt.py:82-84`: line 159 asks for the number of
leaves, line 161 reads the attribute once more. -/
def make {α : Type} (next : HProg α) : HProg α :=
  .setReady false <| onLeaves fun l =>
    if l.length > 0 then .leaves fun o => .setLevels (some [.list o]) (.rounds (.setReady true next)) else .setReady true next

/-- `reset_tree`, `/repo/src/pymt/merkletools.py:95-99`, `/repo/src/pymt/mt.py:86-88`. -/
def reset {α : Type} (next : HProg α) : HProg α := .fresh (.setLevels none (.setReady false next))

/-- `MerkleTools.get_merkle_root`, `/repo/src/pymt/merkletools.py:167-177`: `self.levels` is read in the condition, if
`self.is_ready`, and for the result. -/
def rootRaw {α : Type} (f : Bytes → HProg α) : HProg α :=
  .ready fun r =>
    if r then
      .levels fun
        | none => .done (.error .valueError)
        | some _ => withLevel 0 fun l =>
          match l[0]? with
          | none => .done (.error .indexError)
          | some b => f (hexOf b)
    else .done (.error .valueError)

/-- `MerkleTree.get_merkle_root`, `/repo/src/pymt/mt.py:90-95`. -/
def root {α : Type} (f : Bytes → HProg α) : HProg α :=
  .ready fun r => if r then rootRaw f else make (rootRaw f)

/-- The loop in `MerkleTools.get_proof_of_inclusion`, `/repo/src/pymt/merkletools.py:206-219`, for `x` from the first
argument down to 1; `self.levels` is read once or twice in every round.  `acc` is the proof so far. -/
def proofLoop {α : Type} (f : List (Bytes × Bytes) → HProg α) : Nat → Nat → List (Bytes × Bytes) → HProg α
  | 0, _, acc => f acc
  | x + 1, index, acc => withLevel (x + 1) fun level =>
    if index = level.length - 1 ∧ level.length % 2 = 1 then proofLoop f x (index / 2) acc
    else
      let isRight := index % 2 = 1
      withLevel (x + 1) fun level =>
        match level[if isRight then index - 1 else index + 1]? with
        | none => .done (.error .indexError)
        | some sibling => proofLoop f x (index / 2) (acc ++ [(if isRight then MTree.left else MTree.right, hexOf sibling)])

/-- `MerkleTools.get_proof_of_inclusion`, `/repo/src/pymt/merkletools.py:179-219`; `leaf` is hashed already in secure
mode. -/
def proofRaw {α : Type} (leaf : Bytes) (f : List (Bytes × Bytes) → HProg α) : HProg α :=
  onLeaves fun l =>
    match l.idxOf? leaf with
    | none => .done (.error .valueError)
    | some index => .levels fun
      | none => .done (.error .valueError)
      | some _ => .ready fun r =>
        if r then
          onLeaves fun l =>
            if index < l.length then
              .levels fun
                | none => .done (.error .typeError)
                | some ls => proofLoop f (ls.length - 1) index []
            else .done (.error .valueError)
        else .done (.error .valueError)

/-- `MerkleTree.verify_proof_of_inclusion`, `/repo/src/pymt/mt.py:134-170`. -/
def verify {α : Type} (H : HashFn) (p : Proof (Bytes × Bytes)) (f : Bool → HProg α) : HProg α :=
  match MProg.checks H p with
  | .error e => .done (.error e)
  | .ok true => root fun r => f (r == p.trieRoot)
  | .ok false => f false

/-- One access to shared state; finished programs do nothing.  Every list in use has been made: `[]` in place of a missing
one never occurs.  `/repo/src/pymt/merkletools.py:101-219`. -/
def step {α : Type} (H : HashFn) : HProg α → HState → HProg α × HState
  | .done r, s => (.done r, s)
  | .leaves n, s => (n s.leaves, s)
  | .fresh n, s => (n, { s with lists := s.lists ++ [[]], leaves := s.lists.length })
  | .list o n, s => (n (s.lists[o]?.getD []), s)
  | .append o v n, s => (n, { s with lists := s.lists.modify o (· ++ [v]) })
  | .levels n, s => (n s.levels, s)
  | .setLevels l n, s => (n, { s with levels := l })
  | .ready n, s => (n s.ready, s)
  | .setReady b n, s => (n, { s with ready := b })
  | .rounds n, s => (round H n s.levels, s)

end HProg

/-- A call a thread makes on a `MerkleTree`: `reset_tree`, `/repo/src/pymt/mt.py:86-88`, or another one. -/
inductive HCall where
  | reset
  | call (c : MCall)

/-- The program of a call, `/repo/src/pymt/mt.py:27-170`. -/
def HCall.prog (H : HashFn) (secure : Bool) : HCall → HProg MAns
  | .reset => HProg.reset (.done (.ok .none))
  | .call (.put v) => .leaves fun o => .append o (MTree.leafOf H secure v) (.done (.ok .none))
  | .call (.get i) => HProg.onLeaves fun l => .done ((MTree.pyIndexInt l i).map fun b => .bytes (hexOf b))
  | .call .count => HProg.onLeaves fun l => .done (.ok (.nat l.length))
  | .call .make => HProg.make (.done (.ok .none))
  | .call .root => HProg.root fun r => .done (.ok (.bytes r))
  | .call (.poi now key) => HProg.proofRaw (MTree.leafOf H secure key) fun proof => HProg.root fun r =>
      .done (.ok (.proof { type := mtPoi, timestamp := now, targetKey := key, trieRoot := r, proof := proof }))
  | .call (.verify p) => HProg.verify H p fun b => .done (.ok (.bool b))

/-- A thread: the call in progress, the calls still to make, and the outcomes of the calls made (exceptions are
caught).  `/repo/src/pymt/merkletools.py:101-219`. -/
structure HThread where
  cur : Option (HProg MAns)
  rest : List HCall
  outs : List (Py MAns)

/-- Threads and the tree they share.  `/repo/src/pymt/merkletools.py:101-219`. -/
structure HWorld where
  threads : Nat → HThread
  tree : HState

namespace HWorld

/-- Replace thread `j`.  `/repo/src/pymt/merkletools.py:101-219`. -/
def setThread (w : HWorld) (j : Nat) (th : HThread) : HWorld :=
  { w with threads := fun i => if i = j then th else w.threads i }

/-- Thread `j` runs until it has touched shared state once, begun a call or ended one.
`/repo/src/pymt/merkletools.py:101-219`. -/
def step (H : HashFn) (j : Nat) (w : HWorld) : HWorld :=
  let th := w.threads j
  match th.cur with
  | none =>
    match th.rest with
    | [] => w
    | c :: rest => w.setThread j { th with cur := some (c.prog H w.tree.secure), rest := rest }
  | some (.done r) => w.setThread j { th with cur := none, outs := th.outs ++ [r] }
  | some p => { w.setThread j { th with cur := some (p.step H w.tree).1 } with tree := (p.step H w.tree).2 }

/-- A schedule: which thread moves next.  `/repo/src/pymt/merkletools.py:101-219`. -/
def run (H : HashFn) (sched : List Nat) (w : HWorld) : HWorld := sched.foldl (fun w j => w.step H j) w

end HWorld

/-- The tree as threads see it: one list of leaves, which is the last of the levels, `/repo/src/pymt/merkletools.py:160-162`. -/
def MTree.objects (t : MTree) : HState where
  secure := t.secure
  lists := [t.leaves]
  leaves := 0
  levels := t.upper.map fun u => u.map .kept ++ [.list 0]
  ready := t.ready

/-- Threads about to make their calls on a tree.  `/repo/src/pymt/merkletools.py:17-45`. -/
def HWorld.new (t : MTree) (calls : Nat → List HCall) : HWorld where
  threads j := { cur := none, rest := calls j, outs := [] }
  tree := t.objects

end Pymt
