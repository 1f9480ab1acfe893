import Verif.Model.Keys

/-!
# Keys of the wrong type
-/

namespace Pymt

/-- A key that is not bytes-like: a `str`, or an object without a length. -/
def KeyArg.Wrong : KeyArg → Prop
  | .bytes _ | .bytearray _ => False
  | .text _ | .other => True

/-- Such a key, except the empty `str`. -/
def KeyArg.Unreadable : KeyArg → Prop
  | .bytes _ | .bytearray _ => False
  | .text n => n ≠ 0
  | .other => True

end Pymt
