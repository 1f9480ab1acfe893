import Verif.Spec.Map
import Verif.Spec.Nibbles
import Verif.Spec.History

/-!
# Where an absent key leaves the present ones, exactly

Everything here is a condition on contents (a map on paths), not on tries.  A point is a list of nibbles.
-/

namespace Pymt

/-- The contents of a trie as a map on paths: in secure mode every key is replaced by its hash. -/
def pathContents (E : Env) (secure : Bool) (ops : List Op) : Contents :=
  contents (ops.map (Op.mapKey (effective E secure)))

/-- Some present key goes through the point. -/
def Thru (m : Contents) (b : List Nib) : Prop := ∃ k, m k ≠ none ∧ b <+: toNibs k

/-- Two present keys go through the point and part there (one of them may end there). -/
def Fork (m : Contents) (b : List Nib) : Prop :=
  ∃ k1 k2, m k1 ≠ none ∧ m k2 ≠ none ∧ k1 ≠ k2 ∧ b <+: toNibs k1 ∧ b <+: toNibs k2 ∧
    ∀ i, ¬ (b ++ [i] <+: toNibs k1 ∧ b ++ [i] <+: toNibs k2)

/-- Exactly one present key goes through the point. -/
def Lone (m : Contents) (b : List Nib) (k : Bytes) : Prop :=
  m k ≠ none ∧ b <+: toNibs k ∧ ∀ k', m k' ≠ none → b <+: toNibs k' → k' = k

/-- The point is on a present key, and is the start, or a point where present keys part, or directly
after such a point. -/
def Knot (m : Contents) (b : List Nib) : Prop :=
  Thru m b ∧ (b = [] ∨ Fork m b ∨ ∃ c i, b = c ++ [i] ∧ Fork m c)

/-- The last such point on the way of `p`. -/
def Stop (m : Contents) (p b : List Nib) : Prop :=
  b <+: p ∧ Knot m b ∧ ∀ b', b' <+: p → Knot m b' → b' <+: b

end Pymt
