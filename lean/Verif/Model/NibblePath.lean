import Verif.Model.Py

/-!
# `NibblePath` (`/repo/src/pymt/utils/nibble_path.py`)

Python objects of this class are mutable (`consume`); the model is functional, and the places in
`mpt.py` which use a path after it was consumed get the consumed path explicitly.
-/

namespace Pymt

/-- `NibblePath.__init__`, `/repo/src/pymt/utils/nibble_path.py:10-27`.  `_data` may be `bytes` or a
list of ints below 256 (from `_create_new`); both are `Bytes` here.  The offset is never negative in
`/repo`. -/
structure NibblePath where
  data : Bytes
  offset : Nat := 0
  deriving DecidableEq, Repr

namespace NibblePath

/-- `NibblePath.__len__`, `/repo/src/pymt/utils/nibble_path.py:29-31`.  Python's `len` raises
ValueError when `__len__` gives a negative number. -/
def len (p : NibblePath) : Py Nat :=
  if p.offset ≤ p.data.length * 2 then .ok (p.data.length * 2 - p.offset) else .error .valueError

/-- `NibblePath.at`, `/repo/src/pymt/utils/nibble_path.py:139-162`.  `>> 4` and `& 0x0F` on ints. -/
def nibbleAt (p : NibblePath) (idx : Nat) : Py Nat :=
  let idx := idx + p.offset
  let byteIdx := idx / 2
  let nibbleIdx := idx % 2
  match p.data[byteIdx]? with
  | none => .error .indexError
  | some byte => .ok (if nibbleIdx = 0 then byte.toNat >>> 4 else byte.toNat &&& 0x0F)

/-- The loop `for i in range(n): if self.at(i) != other.at(i): return False` shared by `__eq__`
(`/repo/src/pymt/utils/nibble_path.py:68-72`) and `starts_with` (lines 133-137): `i` is the current
index, the last argument the number of iterations left. -/
def sameFrom (p q : NibblePath) : Nat → Nat → Py Bool
  | _, 0 => .ok true
  | i, k + 1 => do
    let a ← p.nibbleAt i
    let b ← q.nibbleAt i
    if a ≠ b then return false
    else sameFrom p q (i + 1) k

/-- `NibblePath.__eq__`, `/repo/src/pymt/utils/nibble_path.py:51-72`. -/
def eq (p q : NibblePath) : Py Bool := do
  let n ← p.len
  let m ← q.len
  if n ≠ m then return false
  else sameFrom p q 0 n

/-- `NibblePath.starts_with`, `/repo/src/pymt/utils/nibble_path.py:116-137`: is `q` a prefix of `p`. -/
def startsWith (p q : NibblePath) : Py Bool := do
  let m ← q.len
  let n ← p.len
  if m > n then return false
  else sameFrom p q 0 m

/-- `NibblePath.decode_with_type`, `/repo/src/pymt/utils/nibble_path.py:74-97`.
`ODD_FLAG = 0x10` and `LEAF_FLAG = 0x20` (lines 7-8).  IndexError on the empty string. -/
def decodeWithType (data : Bytes) : Py (NibblePath × Bool) :=
  match data with
  | [] => .error .indexError
  | b0 :: _ =>
    let isOdd := b0.toNat &&& 0x10 == 0x10
    let isLeaf := b0.toNat &&& 0x20 == 0x20
    .ok ({ data := data, offset := if isOdd then 1 else 2 }, isLeaf)

/-- `NibblePath.consume`, `/repo/src/pymt/utils/nibble_path.py:164-179`. -/
def consume (p : NibblePath) (amount : Nat) : NibblePath := { p with offset := p.offset + amount }

/-- The loop `while pos < length: data.append(at(pos) * 16 + at(pos + 1)); pos += 2` shared by
`_create_new` (`/repo/src/pymt/utils/nibble_path.py:206-208`) and `encode` (lines 267-270).  The last
argument is the number of iterations left; `length - pos` is even where the loop starts. -/
def packFrom (at_ : Nat → Py Nat) : Nat → Nat → Py Bytes
  | _, 0 => .ok []
  | pos, k + 1 => do
    let a ← at_ pos
    let b ← at_ (pos + 1)
    let rest ← packFrom at_ (pos + 2) k
    return UInt8.ofNat (a * 16 + b) :: rest

/-- `NibblePath._create_new`, `/repo/src/pymt/utils/nibble_path.py:181-212`, given the `at` method of
the source object. -/
def createNew (at_ : Nat → Py Nat) (length : Nat) : Py NibblePath :=
  if length % 2 = 1 then do
    let first ← at_ 0
    let rest ← packFrom at_ 1 ((length - 1) / 2)
    return { data := UInt8.ofNat first :: rest, offset := 1 }
  else do
    let all ← packFrom at_ 0 (length / 2)
    return { data := all, offset := 0 }

/-- The loop of `common_prefix`, `/repo/src/pymt/utils/nibble_path.py:230-233`: number of equal
nibbles from index `i` on, at most the last argument. -/
def commonFrom (p q : NibblePath) : Nat → Nat → Py Nat
  | _, 0 => .ok 0
  | i, k + 1 => do
    let a ← p.nibbleAt i
    let b ← q.nibbleAt i
    if a ≠ b then return 0
    else do
      let n ← commonFrom p q (i + 1) k
      return n + 1

/-- `NibblePath.common_prefix`, `/repo/src/pymt/utils/nibble_path.py:214-235`. -/
def commonPrefix (p q : NibblePath) : Py NibblePath := do
  let n ← p.len
  let m ← q.len
  let c ← commonFrom p q 0 (min n m)
  createNew p.nibbleAt c

/-- `NibblePath.encode`, `/repo/src/pymt/utils/nibble_path.py:237-272` (hex-prefix encoding). -/
def encode (p : NibblePath) (isLeaf : Bool) : Py Bytes := do
  let n ← p.len
  let leafFlag := if isLeaf then 0x20 else 0x00
  if n % 2 = 1 then
    let first ← p.nibbleAt 0
    let rest ← packFrom p.nibbleAt 1 ((n - 1) / 2)
    return UInt8.ofNat (0x10 + first + leafFlag) :: rest
  else
    let rest ← packFrom p.nibbleAt 0 (n / 2)
    return UInt8.ofNat leafFlag :: rest

/-- `NibblePath._Chained.at`, `/repo/src/pymt/utils/nibble_path.py:298-316`. -/
def chainedAt (p q : NibblePath) (idx : Nat) : Py Nat := do
  let n ← p.len
  if idx < n then p.nibbleAt idx else q.nibbleAt (idx - n)

/-- `NibblePath.combine`, `/repo/src/pymt/utils/nibble_path.py:318-334`. -/
def combine (p q : NibblePath) : Py NibblePath := do
  let n ← p.len
  let m ← q.len
  createNew (chainedAt p q) (n + m)

end NibblePath
end Pymt
