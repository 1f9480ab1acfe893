import Verif.Spec.EmptPool
import Verif.Model.EmptPoolEnd

/-!
# Specification: threads with an `EMPT` each over the same two dicts, whose calls may be ended
-/

namespace Pymt

/-- The changes of a thread, given its calls, their outcomes (`none` when the call was ended), and which of the ended calls
took effect. -/
def changesTook (h : List ((ECall × Option (Py EAns)) × Bool)) : List EOp :=
  h.filterMap fun e => match e.1.2 with
    | some (.ok _) => e.1.1.op?
    | some (.error _) => none
    | none => if e.2 then e.1.1.op? else none

end Pymt
