import Verif.Model.EmptLoops
import Verif.Spec.Empt

/-!
# Equal contents of `EMPT` objects; what a loop over one does
-/

namespace Pymt

/-- Two values that count as equal: byte strings with the same bytes, or the same object. -/
def Value.Alike (v w : Value) : Prop :=
  (∃ b, (v = .bytes b ∨ v = .bytearray b) ∧ (w = .bytes b ∨ w = .bytearray b)) ∨
  ∃ i a b c a' b' c', v = .obj i a b c ∧ w = .obj i a' b' c'

/-- The same keys, with values that count as equal. -/
def AlikeContents (m m' : EContents) : Prop :=
  ∀ k, (m k = none ∧ m' k = none) ∨ ∃ v w, m k = some v ∧ m' k = some w ∧ v.Alike w

/-- A call that gives a key of `keys` another value. -/
def EOp.Replaces (keys : List Bytes) : EOp → Prop
  | .update k v => k ∈ keys ∧ v.storable = true
  | .delete _ => False

/-- A call that removes a key of `keys` or adds a new one. -/
def EOp.Resizes (keys : List Bytes) : EOp → Prop
  | .update k v => k ∉ keys ∧ v.storable = true
  | .delete k => k ∈ keys

end Pymt
