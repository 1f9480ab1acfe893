import Verif.Model.MerkleThreads
import Verif.Spec.Merkle

/-!
# Specification: threads that share a `MerkleTree`
-/

namespace Pymt

/-- The call made by a client that is alone: outcome, and the object afterwards. -/
def MCall.alone (H : HashFn) (t : MTree) : MCall → Py MAns × MTree
  | .put v => ((MTree.put H v t).1.map fun _ => .none, (MTree.put H v t).2)
  | .get i => ((t.get i).map .bytes, t)
  | .count => (.ok (.nat t.count), t)
  | .make => ((MTree.make H t).1.map fun _ => .none, (MTree.make H t).2)
  | .root => ((MTree.root H t).1.map .bytes, (MTree.root H t).2)
  | .poi now k => ((MTree.getPoi H now k t).1.map .proof, (MTree.getPoi H now k t).2)
  | .verify p => ((MTree.verifyPoi H p t).1.map .bool, (MTree.verifyPoi H p t).2)

/-- A call other than `put` and `make_tree`. -/
def MCall.Asks : MCall → Prop
  | .put _ | .make => False
  | _ => True

/-- A call of `put`, `get`, `get_count` (which have nothing to do with the root). -/
def MCall.Plain : MCall → Prop
  | .put _ | .get _ | .count => True
  | _ => False

/-- The value a call puts in, if any. -/
def MCall.value? : MCall → Option Bytes
  | .put v => some v
  | _ => none

/-- Calls of several clients made one after the other: their outcomes, each with the number of its client. -/
def MCall.inTurn (H : HashFn) : List (Nat × MCall) → MTree → List (Nat × Py MAns)
  | [], _ => []
  | (j, c) :: cs, t => (j, (c.alone H t).1) :: inTurn H cs (c.alone H t).2

/-- The object after these calls. -/
def MCall.afterTurns (H : HashFn) (cs : List (Nat × MCall)) (t : MTree) : MTree :=
  cs.foldl (fun t c => (c.2.alone H t).2) t

/-- What belongs to client `j`. -/
def ofClient {α : Type} (j : Nat) (l : List (Nat × α)) : List α := (l.filter fun e => e.1 = j).map (·.2)

/-- What a thread that makes the tree may take for its leaves while others add some, from `before` to `after`: the leaves
there were at some moment; or, if there was an odd number `n` of them, a later leaf in the place of the last of these. -/
def Taken (before after leaves : List Bytes) : Prop :=
  (before <+: leaves ∧ leaves <+: after) ∨
  ∃ n j b, n % 2 = 1 ∧ 3 ≤ n ∧ before.length ≤ n ∧ n ≤ j ∧ after[j]? = some b ∧ leaves = after.take (n - 1) ++ [b]

/-- All threads have made all their calls. -/
def MWorld.Over (w : MWorld) : Prop := ∀ j, (w.threads j).cur = none ∧ (w.threads j).rest = []

/-- Never are two calls in progress at the same time (as when every call is made under one lock). -/
def MWorld.OneAtATime (H : HashFn) (w : MWorld) (sched : List Nat) : Prop :=
  ∀ q i j, i ≠ j → ((w.run H (sched.take q)).threads i).cur = none ∨ ((w.run H (sched.take q)).threads j).cur = none

/-- The order of the calls is one they can have had: at any moment `q` of the schedule, some of the calls at its beginning
are those that came first, among them all calls that had ended, and none that had not begun. -/
def MCall.InTime (H : HashFn) (w : MWorld) (calls : Nat → List MCall) (sched : List Nat) (order : List (Nat × MCall)) : Prop :=
  ∀ q, ∃ first then', order = first ++ then' ∧ ∀ j,
    ((w.run H (sched.take q)).threads j).outs.length ≤ (ofClient j first).length ∧
    (ofClient j first).length + ((w.run H (sched.take q)).threads j).rest.length ≤ (calls j).length

end Pymt
