import Verif.Model.NibblePath
import Verif.Model.Equality
import Verif.Model.Merkle

/-!
# `NibblePath` objects: any offset, printing, and `consume` in place (`/repo/src/pymt/utils/nibble_path.py`)

`Model/NibblePath.lean` has paths as values with an offset that is not negative, which is all that the tries use.  Here a path is
an object as a client of the class sees it.
-/

namespace Pymt

/-- A `NibblePath` object, `/repo/src/pymt/utils/nibble_path.py:10-27`.  `isList`: whether `_data` is a list of ints, as in the
objects made by `_create_new` (lines 199-212), and not `bytes`. -/
structure PathObj where
  isList : Bool
  data : Bytes
  offset : Int
  deriving DecidableEq, Repr

namespace PathObj

/-- `len(path)`, `/repo/src/pymt/utils/nibble_path.py:29-31`; Python raises ValueError when `__len__` returns a negative number. -/
def len (p : PathObj) : Py Nat :=
  let n := (p.data.length : Int) * 2 - p.offset
  if n < 0 then .error .valueError else .ok n.toNat

/-- `at`, `/repo/src/pymt/utils/nibble_path.py:139-162`: `//` rounds down, `%` is not negative, and a negative index counts from
the end. -/
def nibbleAt (p : PathObj) (idx : Int) : Py Nat := do
  let i := idx + p.offset
  let byte ← MTree.pyIndexInt p.data (i.fdiv 2)
  return if i.fmod 2 = 0 then byte.toNat >>> 4 else byte.toNat &&& 0x0F

/-- A path of `Model/NibblePath.lean` as an object, `/repo/src/pymt/utils/nibble_path.py:10-27`. -/
def ofPath (isList : Bool) (p : NibblePath) : PathObj := ⟨isList, p.data, p.offset⟩

/-- `common_prefix`, `/repo/src/pymt/utils/nibble_path.py:214-235`, for offsets that are not negative: the result has a list for
its data (line 199). -/
def commonPrefix (p q : NibblePath) : Py PathObj := do
  let r ← p.commonPrefix q
  return ofPath true r

/-- `combine`, `/repo/src/pymt/utils/nibble_path.py:318-334`, for offsets that are not negative. -/
def combine (p q : NibblePath) : Py PathObj := do
  let r ← p.combine q
  return ofPath true r

/-- `str(n)` for an int `n ≥ 0`, as in `format`, `/repo/src/pymt/utils/nibble_path.py:39-41`. -/
def digits (n : Nat) : Bytes := (Nat.toDigits 10 n).map fun c => UInt8.ofNat c.toNat

/-- `str(n)` for an int, as in `format`, `/repo/src/pymt/utils/nibble_path.py:39-41`. -/
def intText (n : Int) : Bytes := if n < 0 then 45 :: digits n.natAbs else digits n.natAbs

/-- `<NibblePath: Data: 0x`, `/repo/src/pymt/utils/nibble_path.py:39`. -/
def sData : Bytes := [60, 78, 105, 98, 98, 108, 101, 80, 97, 116, 104, 58, 32, 68, 97, 116, 97, 58, 32, 48, 120]
/-- `, Offset: `, `/repo/src/pymt/utils/nibble_path.py:39`. -/
def sOffset : Bytes := [44, 32, 79, 102, 102, 115, 101, 116, 58, 32]
/-- `<Hex 0x`, `/repo/src/pymt/utils/nibble_path.py:49`. -/
def sHex : Bytes := [60, 72, 101, 120, 32, 48, 120]
/-- ` | Raw `, `/repo/src/pymt/utils/nibble_path.py:49`. -/
def sRaw : Bytes := [32, 124, 32, 82, 97, 119, 32]

/-- `repr(path)`, `/repo/src/pymt/utils/nibble_path.py:33-41`: a list has no `hex`. -/
def repr (p : PathObj) : Py Bytes :=
  if p.isList then .error .attributeError
  else .ok (sData ++ (hexOf p.data ++ (sOffset ++ (intText p.offset ++ [62]))))

/-- `str(path)`, `/repo/src/pymt/utils/nibble_path.py:43-49`. -/
def str (p : PathObj) : Py Bytes :=
  if p.isList then .error .attributeError
  else .ok (sHex ++ (hexOf p.data ++ (sRaw ++ (reprBytes p.data ++ [62]))))

/-- `path.consume(amount)` for the path at an address, `/repo/src/pymt/utils/nibble_path.py:164-179`: changes the object and returns
it. -/
def consume (a : Nat) (amount : Int) : M (List PathObj) Nat := do
  M.modify fun h => h.modify a fun p => { p with offset := p.offset + amount }
  return a

end PathObj
end Pymt
