import Verif.Spec.MerkleThreads

/-!
# Specification: the past of a `MerkleTree`
-/

namespace Pymt

/-- Something done with a `MerkleTree`: one of its calls, or `reset_tree()`. -/
inductive Deed where
  | call (c : MCall)
  | reset

/-- The outcome of it, and the object afterwards. -/
def Deed.does (H : HashFn) (t : MTree) : Deed → Py MAns × MTree
  | .call c => c.alone H t
  | .reset => ((MTree.reset t).1.map fun _ => .none, (MTree.reset t).2)

/-- The object after these deeds. -/
def Deed.after (H : HashFn) (ds : List Deed) (t : MTree) : MTree := ds.foldl (fun t d => (d.does H t).2) t

/-- Their outcomes. -/
def Deed.outcomes (H : HashFn) : List Deed → MTree → List (Py MAns)
  | [], _ => []
  | d :: ds, t => (d.does H t).1 :: outcomes H ds (d.does H t).2

/-- The values put in since the last reset. -/
def Deed.values (ds : List Deed) : List Bytes :=
  ds.foldl (fun l d => match d with
    | .call (.put v) => l ++ [v]
    | .reset => []
    | _ => l) []

/-- Does this call need the root of the tree?  (A proof whose entries do not lead to the root it names is refused
without.) -/
def MCall.NeedsRoot (H : HashFn) : MCall → Bool
  | .root => true
  | .verify p => match MProg.checks H p with
    | .ok true => true
    | _ => false
  | _ => false

/-- How many values there were when the tree was last made, if it has been made since the last reset: by `make_tree`, or by
the first call that needs the root. -/
def Deed.lastMade (H : HashFn) (ds : List Deed) : Option Nat :=
  (ds.foldl (fun (s : Nat × Option Nat) d => match d with
    | .reset => (0, none)
    | .call (.put _) => (s.1 + 1, s.2)
    | .call .make => (s.1, some s.1)
    | .call c => if c.NeedsRoot H then (s.1, some (s.2.getD s.1)) else s) (0, none)).2

end Pymt
