import Verif.Model.Py

/-!
# Text: UTF-8, hexadecimal

A Python `str` is represented by its UTF-8 encoding; no code in `/repo` makes surrogates.
-/

namespace Pymt

/-- Continuation byte of UTF-8.
Used in `/repo/src/pymt/proof.py:161-168`, `/repo/src/pymt/mt.py:152-154`, `/repo/src/pymt/keypairs.py:261`. -/
def isCont (b : UInt8) : Bool := 0x80 ≤ b && b ≤ 0xBF

/-- Is a byte string valid UTF-8 (as CPython's strict decoder decides: RFC 3629, table 3-7 of the Unicode
standard)?.  Used in `/repo/src/pymt/proof.py:161-168`, `/repo/src/pymt/mt.py:152-154`, `/repo/src/pymt/keypairs.py:261`. -/
def utf8Valid : Bytes → Bool
  | [] => true
  | a :: rest =>
    if a ≤ 0x7F then utf8Valid rest
    else
      match rest with
      | [] => false
      | b :: rest1 =>
        if 0xC2 ≤ a && a ≤ 0xDF then isCont b && utf8Valid rest1
        else
          match rest1 with
          | [] => false
          | c :: rest2 =>
            if a = 0xE0 then (0xA0 ≤ b && b ≤ 0xBF) && isCont c && utf8Valid rest2
            else if a = 0xED then (0x80 ≤ b && b ≤ 0x9F) && isCont c && utf8Valid rest2
            else if 0xE1 ≤ a && a ≤ 0xEF then isCont b && isCont c && utf8Valid rest2
            else
              match rest2 with
              | [] => false
              | d :: rest3 =>
                if a = 0xF0 then (0x90 ≤ b && b ≤ 0xBF) && isCont c && isCont d && utf8Valid rest3
                else if a = 0xF4 then (0x80 ≤ b && b ≤ 0x8F) && isCont c && isCont d && utf8Valid rest3
                else if 0xF1 ≤ a && a ≤ 0xF3 then isCont b && isCont c && isCont d && utf8Valid rest3
                else false

/-- `b.decode()`: UnicodeDecodeError when not valid (used in `/repo/src/pymt/mt.py:151-154`,
`/repo/src/pymt/proof.py:157-164`). -/
def decodeUtf8 (b : Bytes) : Py Bytes := if utf8Valid b then .ok b else .error .unicode

/-- Lower-case hexadecimal digit.  Used in `/repo/src/pymt/merkletools.py:91`, `/repo/src/pymt/keypairs.py:223-227`. -/
def hexDigit (n : Nat) : UInt8 := UInt8.ofNat (if n < 10 then 48 + n else 87 + n)

/-- `b.hex()`, `/repo/src/pymt/merkletools.py:90-93`. -/
def hexOf : Bytes → Bytes
  | [] => []
  | b :: bs => hexDigit (b.toNat / 16) :: hexDigit (b.toNat % 16) :: hexOf bs

/-- ASCII white space (C `isspace`).
Used in `/repo/src/pymt/merkletools.py:112, 195, 248, 252`, `/repo/src/pymt/mt.py:154`, `/repo/src/pymt/keypairs.py:262-266`. -/
def isSpace (c : UInt8) : Bool := c = 32 || (9 ≤ c && c ≤ 13)

/-- Value of a hexadecimal digit, either case.
Used in `/repo/src/pymt/merkletools.py:112, 195, 248, 252`, `/repo/src/pymt/mt.py:154`, `/repo/src/pymt/keypairs.py:262-266`. -/
def hexVal (c : UInt8) : Option Nat :=
  if 48 ≤ c && c ≤ 57 then some (c.toNat - 48)
  else if 97 ≤ c && c ≤ 102 then some (c.toNat - 87)
  else if 65 ≤ c && c ≤ 70 then some (c.toNat - 55)
  else none

/-- `bytes.fromhex(s)` and `bytearray.fromhex(s)` (CPython `_PyBytes_FromHex`): pairs of digits, white space
between the pairs; ValueError otherwise.
Used in `/repo/src/pymt/merkletools.py:112, 195, 248, 252`, `/repo/src/pymt/mt.py:154`, `/repo/src/pymt/keypairs.py:262-266`. -/
def fromHex : Bytes → Py Bytes
  | [] => .ok []
  | [c] => if isSpace c then .ok [] else .error .valueError
  | c :: d :: rest =>
    if isSpace c then fromHex (d :: rest)
    else
      match hexVal c, hexVal d with
      | some x, some y => do
        let bs ← fromHex rest
        return UInt8.ofNat (16 * x + y) :: bs
      | _, _ => .error .valueError

end Pymt
