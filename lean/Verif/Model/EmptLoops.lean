import Verif.Model.Empt

/-!
# `==` of `EMPT` objects and loops over them (`/repo/src/pymt/empt.py`)

`EMPT` is a `MutableMapping` (line 93) and defines neither `__eq__` nor `items`; both come from `Mapping`
(CPython `Lib/_collections_abc.py`).
-/

namespace Pymt

/-- `x == y` of two values of a data storage (`/repo/src/pymt/empt.py:285-304` says what these are): `bytes` and
`bytearray` by their contents.  Simplification: other objects do not define `__eq__` and are compared by
identity, as `object` does. -/
def Value.pyEq : Value → Value → Bool
  | .bytes a, .bytes b | .bytes a, .bytearray b | .bytearray a, .bytes b | .bytearray a, .bytearray b => a == b
  | .obj i _ _ _, .obj j _ _ _ => i == j
  | _, _ => false

/-- `dict(pairs)` on the pairs of `items()` (`Mapping.__eq__`, used by `EMPT`, `/repo/src/pymt/empt.py:93`):
the last pair with a key wins. -/
def dictOf (pairs : List (Bytes × Value)) : Dict Value := pairs.foldl (fun d e => dset d e.1 e.2) []

/-- `==` of two dicts (CPython `dict_equal`; called by `Mapping.__eq__` for `/repo/src/pymt/empt.py:93`): the
sizes agree, and every key of the first has an equal value in the second. -/
def dictEq (a b : Dict Value) : Bool :=
  a.length == b.length && a.all fun e =>
    match dget b e.1 with
    | some v => e.2.pyEq v
    | none => false

namespace EMPT

/-- `empt == d` for a dict `d`: `Mapping.__eq__`, inherited by `/repo/src/pymt/empt.py:93`, is
`dict(self.items()) == dict(other.items())`.  `items()` reads every value with `__getitem__` (lines 195-197), so
what `get` raises comes out of the comparison. -/
def eqDict (E : Env) (s : EMPT) (d : Dict Value) : Py Bool := do
  let a ← s.items E
  return dictEq (dictOf a) d

/-- `empt == other` for two `EMPT` objects: `Mapping.__eq__`, inherited by `/repo/src/pymt/empt.py:93`.  The
values of both are read with `get` (lines 195-197), first those of `empt`. -/
def eqMap (E : Env) (s u : EMPT) : Py Bool := do
  let a ← s.items E
  let b ← u.items E
  return dictEq (dictOf a) (dictOf b)

/-- What is left of `for key in empt: body(key)` when `n` keys are to come (`__iter__`,
`/repo/src/pymt/empt.py:191-193`, is the iterator of the data storage).  Before every step, also before the one
that finds no more keys, the iterator of a dict compares the size of the dict with the size `used` at the start
and raises RuntimeError when they differ (CPython `dictiter_iternextkey`); then it yields the next entry.
Simplification: entries are found by their position.  So a body that removes one key and adds another in one
step, so that the size stays the same, is outside the model. -/
def loopFrom (body : Bytes → M EMPT Unit) (used : Nat) : Nat → M EMPT Unit
  | 0 => do
    let s ← M.get
    if s.len ≠ used then M.raise .runtime else pure ()
  | n + 1 => do
    let s ← M.get
    if s.len ≠ used then M.raise .runtime
    else match s.iter[used - (n + 1)]? with
      | none => pure ()
      | some key => do
        body key
        loopFrom body used n

/-- `for key in empt: body(key)`, `/repo/src/pymt/empt.py:191-193`. -/
def loop (body : Bytes → M EMPT Unit) : M EMPT Unit := do
  let s ← M.get
  loopFrom body s.len s.len

/-- `for key, value in empt.items(): body(key, value)`: `ItemsView.__iter__` runs
`for key in empt: yield (key, empt[key])` (`/repo/src/pymt/empt.py:191-197`), so the value is read when the loop
reaches the key. -/
def loopItems (E : Env) (body : Bytes → Value → M EMPT Unit) : M EMPT Unit :=
  loop fun key => do
    let s ← M.get
    let v ← M.lift (s.get E key)
    body key v

end EMPT
end Pymt
