import Verif.Spec.Exclusion

/-!
# Specification: a key beside all present ones
-/

namespace Pymt

/-- All present paths begin with some nibbles with which `e` does not begin. -/
def Off (P : Bytes → Prop) (e : Bytes) : Prop :=
  ∃ c, (∀ e1, P e1 → c <+: toNibs e1) ∧ ¬ c <+: toNibs e

/-- Two or more paths are present. -/
def Several (P : Bytes → Prop) : Prop := ∃ e1 e2, P e1 ∧ P e2 ∧ e1 ≠ e2

end Pymt
