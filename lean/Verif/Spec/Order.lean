import Verif.Spec.Empt

/-!
# Specification: when a key was added
-/

namespace Pymt

/-- Call number `i` (from 0) of the history is the one that added the key: before it the key was absent, and ever since
it is present. -/
def AddedAt (ops : List EOp) (k : Bytes) (i : Nat) : Prop :=
  i < ops.length ∧ econtents (ops.take i) k = none ∧
    ∀ j, i < j → j ≤ ops.length → econtents (ops.take j) k ≠ none

end Pymt
