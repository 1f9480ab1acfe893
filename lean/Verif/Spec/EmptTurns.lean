import Verif.Spec.EmptCrowd
import Verif.Spec.EmptCollect

/-!
# Specification: threads that take turns to write to one `EMPT`
-/

namespace Pymt

/-- A call that may change the `EMPT`. -/
def ECall.op? : ECall → Option EOp
  | .update k v => some (.update k v)
  | .delete k => some (.delete k)
  | _ => none

/-- A call made by a client that is alone: outcome, and the object afterwards. -/
def ECall.seq (E : Env) (c : ECall) (s : EMPT) : Py EAns × EMPT :=
  match c with
  | .update k v => ((EMPT.update E k v s).1.map (fun _ => .none), (EMPT.update E k v s).2)
  | .delete k => ((EMPT.delete E k s).1.map (fun _ => .none), (EMPT.delete E k s).2)
  | .get k => ((s.get E k).map .value, s)
  | .contains k => ((s.contains E k).map .bool, s)

/-- The state of affairs after the first `q` steps of a schedule. -/
def eworldAt (E : Env) (secure : Bool) (calls : Nat → List ECall) (sched : List Nat) (q : Nat) : EWorld :=
  (EWorld.new E secure calls).run E (sched.take q)

/-- The `EMPT` as the `n`-th access of a further thread finds it; that access happens after
`mom n` steps. -/
def eviewAt (E : Env) (secure : Bool) (calls : Nat → List ECall) (sched : List Nat) (mom : Nat → Nat) (n : Nat) : EMPT :=
  (eworldAt E secure calls sched (mom n)).obj

/-- Thread `j` is in the middle of its `n`-th call (counting from 0). -/
def EWorld.Running (w : EWorld) (j n : Nat) : Prop :=
  (w.threads j).outs.length = n ∧ (w.threads j).cur.isSome = true

/-- Writers take turns, as they do when they hold a lock while they call `update` or `delete`: no two such calls of
different threads run at the same time. -/
def ETurns (E : Env) (secure : Bool) (calls : Nat → List ECall) (sched : List Nat) : Prop :=
  ∀ q, q ≤ sched.length → ∀ j n c j' n' c',
    (eworldAt E secure calls sched q).Running j n → (calls j)[n]? = some c → c.op? ≠ none →
    (eworldAt E secure calls sched q).Running j' n' → (calls j')[n']? = some c' → c'.op? ≠ none → j = j'

/-- No thread is in the middle of an `update` or a `delete`. -/
def EWorld.Unwritten (w : EWorld) (calls : Nat → List ECall) : Prop :=
  ∀ j n c, w.Running j n → (calls j)[n]? = some c → c.op? = none

/-- The call that changes the `EMPT` and that thread `j` begins with its next step, if any. -/
def EWorld.begins (w : EWorld) (j : Nat) : List (Nat × EOp) :=
  match (w.threads j).cur, (w.threads j).rest with
  | none, c :: _ => c.op?.toList.map fun op => (j, op)
  | _, _ => []

/-- The calls of `update` and `delete` of all threads, in the order in which they begin. -/
def EWorld.order (E : Env) : EWorld → List Nat → List (Nat × EOp)
  | _, [] => []
  | w, j :: sched => w.begins j ++ EWorld.order E (w.step E j) sched

/-- One client makes the calls on a new `EMPT`, one after the other: those that are marked as calls of thread `j`, with
their outcomes. -/
def oneByOne (E : Env) (secure : Bool) (order : List (Nat × EOp)) (j : Nat) : List (EOp × Py EAns) :=
  (order.zip (EMPT.outcomes E (order.map Prod.snd) (EMPT.new E secure))).filterMap fun e =>
    if e.1.1 = j then some (e.1.2, e.2.map fun _ => EAns.none) else none

/-- The calls of `update` and `delete` that thread `j` has finished, with their outcomes. -/
def EWorld.finished (w : EWorld) (calls : Nat → List ECall) (j : Nat) : List (EOp × Py EAns) :=
  ((calls j).zip (w.threads j).outs).filterMap fun e => e.1.op?.map fun op => (op, e.2)

end Pymt
