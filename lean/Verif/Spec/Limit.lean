import Verif.Spec.History

/-!
# Specification: histories with keys of any length
-/

namespace Pymt

/-- The same environment with another recursion limit. -/
def Env.withLimit (E : Env) (n : Nat) : Env := { E with limit := n }

/-- The calls of a history that did not end in a RecursionError. -/
def MPT.done (E : Env) : List Op → MPT → List Op
  | [], _ => []
  | op :: ops, t =>
    if (MPT.exec E op t).1 = .error .recursion then done E ops (MPT.exec E op t).2
    else op :: done E ops (MPT.exec E op t).2

end Pymt
