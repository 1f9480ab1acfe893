import Verif.Model.Node

/-!
# Specification: the value a node carries
-/

namespace Pymt

/-- The value of a leaf or branch. -/
def Node.value? : Node → Option Bytes
  | .leaf _ d => some d
  | .branch _ d => some d
  | .ext _ _ => none

end Pymt
