import Verif.Spec.Empt

/-!
# Specification: objects that change while an EMPT holds them

The data storage of an `EMPT` keeps the object given to `update` itself (`/repo/src/pymt/empt.py:304`), no copy.
-/

namespace Pymt

/-- A call, or a moment at which the user changes an object: from now on its `encode_rlp()` returns `enc`. -/
inductive XOp where
  | call (op : EOp)
  | change (id : Nat) (enc : Bytes)
  deriving DecidableEq, Repr

/-- The same object after object `id` changed.  Changes to a `bytearray` in place are not represented. -/
def Value.turn (id : Nat) (enc : Bytes) : Value → Value
  | .obj i e d x => .obj i e d (if i = id then enc else x)
  | v => v

namespace EMPT

/-- An object changes; the data storage holds it by reference (`/repo/src/pymt/empt.py:304`), under any number
of keys. -/
def change (id : Nat) (enc : Bytes) (s : EMPT) : EMPT :=
  { s with data := s.data.map fun e => (e.1, e.2.turn id enc) }

/-- One step.  The argument of `update` says what `encode_rlp()` returns at this moment, for all keys the object is
kept under. -/
def step (E : Env) (s : EMPT) : XOp → EMPT
  | .change id enc => s.change id enc
  | .call (.update k (.obj id e d enc)) => (update E k (.obj id e d enc) (s.change id enc)).2
  | .call op => (exec E op s).2

/-- The object after such a history; exceptions are caught and the object is used on. -/
def afterM (E : Env) (secure : Bool) (ops : List XOp) : EMPT := ops.foldl (step E) (new E secure)

end EMPT

/-- The calls of a history. -/
def calls : List XOp → List EOp
  | [] => []
  | .call op :: ops => op :: calls ops
  | .change _ _ :: ops => calls ops

/-- What a step says about the present encoding of an object. -/
def XOp.says (id : Nat) : XOp → Option Bytes
  | .change i enc => if i = id then some enc else none
  | .call (.update _ (.obj i _ _ enc)) => if i = id then some enc else none
  | .call _ => none

/-- The last encoding of an object according to a history. -/
def lastEnc (ops : List XOp) (id : Nat) : Option Bytes := (ops.filterMap (XOp.says id)).getLast?

/-- A value as it is at the end of a history. -/
def Value.now (ops : List XOp) : Value → Value
  | .obj i e d x => .obj i e d ((lastEnc ops i).getD x)
  | v => v

end Pymt
