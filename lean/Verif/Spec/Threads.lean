import Verif.Spec.History
import Verif.Spec.Kept
import Verif.Model.Threads

/-!
# Specification: calls of several threads
-/

namespace Pymt

/-- A call made by a client that is alone: outcome, and the object afterwards. -/
def Call.seq (E : Env) (c : Call) (t : MPT) : Py Ans × MPT :=
  match c with
  | .update k v => ((MPT.update E k v t).1.map (fun _ => .none), (MPT.update E k v t).2)
  | .delete k => ((MPT.delete E k t).1.map (fun _ => .none), (MPT.delete E k t).2)
  | .get k => ((t.get E k).map .value, t)
  | .contains k => ((t.contains E k).map .bool, t)

/-- The key a call names. -/
def Call.key : Call → Bytes
  | .update k _ => k
  | .delete k => k
  | .get k => k
  | .contains k => k

/-- A call that may change the trie. -/
def Call.op? : Call → Option Op
  | .update k v => some (.update k v)
  | .delete k => some (.delete k)
  | _ => none

/-- The calls of a list that may change a trie. -/
def writesOf (l : List (Nat × Call)) : List Op := l.filterMap fun c => c.2.op?

/-- Every trie has one writer: thread `j` updates and deletes in trie `j` only (and reads where it likes). -/
def OneWriter (calls : Nat → List (Nat × Call)) : Prop :=
  ∀ j, ∀ c ∈ calls j, c.2.op? ≠ none → c.1 = j

/-- What theorems about threads with one writer for every trie assume: keys are short enough, and no two nodes that
the writers would write on their own collide. -/
structure Peaceful (E : Env) (secure : Nat → Bool) (calls : Nat → List (Nat × Call)) (log : List Bytes) : Prop where
  one : OneWriter calls
  fits : ∀ j, ∀ c ∈ calls j, Fits E (secure c.1) c.2.key
  all : ∀ j, ∀ w ∈ (MPT.after E (secure j) (writesOf (calls j))).store.written, w ∈ log
  log : LogOk E log

/-- Trie `j` after the first `p` calls of its writer, had that thread been alone. -/
def stateAt (E : Env) (secure : Nat → Bool) (calls : Nat → List (Nat × Call)) (j p : Nat) : MPT :=
  MPT.after E (secure j) (writesOf ((calls j).take p))

/-- The program has ended. -/
def Prog.over {α : Type} : Prog α → Bool
  | .done _ => true
  | _ => false

/-- How many calls of thread `j` have had their effect: those that ended, and one that is about to return. -/
def World.ended (w : World) (j : Nat) : Nat :=
  (w.threads j).outs.length + match (w.threads j).cur with
    | some (_, p) => if p.over then 1 else 0
    | none => 0

/-- The state of affairs after the first `q` steps of a schedule. -/
def worldAt (E : Env) (secure : Nat → Bool) (calls : Nat → List (Nat × Call)) (sched : List Nat) (q : Nat) : World :=
  (World.new E secure calls).run E (sched.take q)

/-- Thread `j` is in the middle of its `n`-th call (counting from 0). -/
def World.Running (w : World) (j n : Nat) : Prop :=
  (w.threads j).outs.length = n ∧ (w.threads j).cur.isSome = true

/-- What theorems about threads that write to the same trie assume: keys are short enough, and no two nodes collide
among those that some interleaving writes. -/
structure Crowd (E : Env) (secure : Nat → Bool) (calls : Nat → List (Nat × Call)) (log : List Bytes) : Prop where
  fits : ∀ j, ∀ c ∈ calls j, Fits E (secure c.1) c.2.key
  all : ∀ sched, ∀ x ∈ ((World.new E secure calls).run E sched).store.written, x ∈ log
  log : LogOk E log

/-- Every operation of the list is a call some thread makes on trie `i`. -/
def FromCalls (calls : Nat → List (Nat × Call)) (i : Nat) (ops : List Op) : Prop :=
  ∀ op ∈ ops, ∃ j, ∃ c, (i, c) ∈ calls j ∧ c.op? = some op

/-- After the operations `v` is the value of `k`.  Unless in secure mode, some empty values are not kept (C25). -/
def Stored (secure : Bool) (ops : List Op) (k v : Bytes) : Prop :=
  contents ops k = some v ∧ (secure = false → (k, v) ∈ kept ops)

/-- The trie answers as a map after the operations: `get` and `contains` of present keys, and `contains` of absent keys
where the code gets it right at all (C01). -/
def ReadsAs (E : Env) (t : MPT) (ops : List Op) : Prop :=
  ∀ k, Fits E t.secure k → (t.secure = true → CollFree E (k :: ops.map Op.key)) →
    (∀ v, Stored t.secure ops k v → t.get E k = .ok v ∧ t.contains E k = .ok true) ∧
    ((∀ v, ¬ Stored t.secure ops k v) →
      (t.secure = true ∨ ∀ k', k' <+: k → k' ≠ k → ∀ v, ¬ Stored t.secure ops k' v) → t.contains E k = .ok false)

/-- Writers of trie `i` take turns, as they do when they hold a lock while they call `update` or `delete`: no two such
calls of different threads run at the same time. -/
def Turns (E : Env) (secure : Nat → Bool) (calls : Nat → List (Nat × Call)) (sched : List Nat) (i : Nat) : Prop :=
  ∀ q, q ≤ sched.length → ∀ j n c j' n' c',
    (worldAt E secure calls sched q).Running j n → (calls j)[n]? = some (i, c) → c.op? ≠ none →
    (worldAt E secure calls sched q).Running j' n' → (calls j')[n']? = some (i, c') → c'.op? ≠ none → j = j'

/-- The calls on trie `i` by which thread `j` changed it, in order: those that returned without an exception. -/
def successes (calls : Nat → List (Nat × Call)) (w : World) (i j : Nat) : List Op :=
  ((calls j).zip (w.threads j).outs).filterMap fun e => if e.1.1 = i ∧ e.2 = .ok .none then e.1.2.op? else none

/-- Those of a list of changes that thread `j` made. -/
def ofThread (j : Nat) (l : List (Nat × Op)) : List Op := l.filterMap fun e => if e.1 = j then some e.2 else none

end Pymt
