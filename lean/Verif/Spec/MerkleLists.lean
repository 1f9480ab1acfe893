import Verif.Model.MerkleLists
import Verif.Spec.MerkleThreads

/-!
# Specification: threads that share a `MerkleTree` and may reset it
-/

namespace Pymt

/-- The call made by a client that is alone: outcome, and the object afterwards. -/
def HCall.alone (H : HashFn) (t : MTree) : HCall → Py MAns × MTree
  | .reset => ((MTree.reset t).1.map fun _ => .none, (MTree.reset t).2)
  | .call c => c.alone H t

/-- A call of `put`, `get`, `get_count`, `reset_tree` (which do not ask for the root or for levels). -/
def HCall.Plain : HCall → Prop
  | .reset => True
  | .call c => c.Plain

/-- Calls of several clients made one after the other: their outcomes, each with the number of its client. -/
def HCall.inTurn (H : HashFn) : List (Nat × HCall) → MTree → List (Nat × Py MAns)
  | [], _ => []
  | (j, c) :: cs, t => (j, (c.alone H t).1) :: inTurn H cs (c.alone H t).2

/-- The object after these calls. -/
def HCall.afterTurns (H : HashFn) (cs : List (Nat × HCall)) (t : MTree) : MTree :=
  cs.foldl (fun t c => (c.2.alone H t).2) t

/-- All threads have made all their calls. -/
def HWorld.Over (w : HWorld) : Prop := ∀ j, (w.threads j).cur = none ∧ (w.threads j).rest = []

/-- Never are two calls in progress at the same time (as when every call is made under one lock). -/
def HWorld.OneAtATime (H : HashFn) (w : HWorld) (sched : List Nat) : Prop :=
  ∀ q i j, i ≠ j → ((w.run H (sched.take q)).threads i).cur = none ∨ ((w.run H (sched.take q)).threads j).cur = none

/-- The attributes are those of this tree; lists that are no longer `self.leaves` do not count. -/
structure HState.Shows (s : HState) (t : MTree) : Prop where
  secure : s.secure = t.secure
  leaves : s.lists[s.leaves]? = some t.leaves
  levels : s.levels = t.upper.map fun u => u.map .kept ++ [.list s.leaves]
  ready : s.ready = t.ready

/-- A program that runs alone, for `n` accesses to shared state. -/
def HProg.alone {α : Type} (H : HashFn) : Nat → HProg α → HState → HProg α × HState
  | 0, p, s => (p, s)
  | n + 1, p, s => alone H n (p.step H s).1 (p.step H s).2

/-- The order of the calls is one they can have had: at any moment `q` of the schedule, some of the calls at its beginning
are those that came first, among them all calls that had ended, and none that had not begun. -/
def HCall.InTime (H : HashFn) (w : HWorld) (calls : Nat → List HCall) (sched : List Nat) (order : List (Nat × HCall)) : Prop :=
  ∀ q, ∃ first then', order = first ++ then' ∧ ∀ j,
    ((w.run H (sched.take q)).threads j).outs.length ≤ (ofClient j first).length ∧
    (ofClient j first).length + ((w.run H (sched.take q)).threads j).rest.length ≤ (calls j).length

end Pymt
