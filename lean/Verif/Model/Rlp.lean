import Verif.Model.Py

/-!
# RLP: the contract of the `rlp` library (pyrlp)

`/repo` calls `rlp.encode` on (nested lists of) byte strings and `rlp.decode` with and without sedes.
pyrlp is not part of `/repo`; this file is its contract, written out as executable functions:
minimal encodings, and a *strict* decoder which rejects non-minimal encodings, trailing bytes and
truncated input, always with `rlp.DecodingError`.
-/

namespace Pymt

/-- What `rlp.decode` returns without sedes: byte strings and (Python) lists.
Used by `/repo/src/pymt/utils/node.py:89`. -/
inductive Item where
  | str (b : Bytes)
  | list (l : List Item)

/-- Big-endian digits of `n` in exactly `k` bytes (pyrlp `int_to_big_endian`, fixed width).
Used in `/repo/src/pymt/utils/node.py:62-118, 188-206, 248-271, 311-328`, `/repo/src/pymt/mpt.py:498, 522`. -/
def beFix : Nat → Nat → Bytes
  | 0, _ => []
  | k + 1, n => beFix k (n / 256) ++ [UInt8.ofNat (n % 256)]

/-- Minimal big-endian representation of a positive integer (pyrlp `int_to_big_endian`).
Used in `/repo/src/pymt/utils/node.py:62-118, 188-206, 248-271, 311-328`, `/repo/src/pymt/mpt.py:498, 522`. -/
def beBytes (n : Nat) : Bytes := beFix (n.log2 / 8 + 1) n

/-- pyrlp `big_endian_to_int`.
Used in `/repo/src/pymt/utils/node.py:62-118, 188-206, 248-271, 311-328`, `/repo/src/pymt/mpt.py:498, 522`. -/
def ofBE (b : Bytes) : Nat := b.foldl (fun acc x => acc * 256 + x.toNat) 0

/-- pyrlp `length_prefix(length, offset)`: one byte for lengths below 56, otherwise the length of
the length, then the length.  (pyrlp raises for lengths `≥ 256^8`; such objects cannot exist in
CPython, and the theorems assume lengths `< 2^64`.).
Used in `/repo/src/pymt/utils/node.py:62-118, 188-206, 248-271, 311-328`, `/repo/src/pymt/mpt.py:498, 522`. -/
def lenPrefix (offset n : Nat) : Bytes :=
  if n < 56 then [UInt8.ofNat (offset + n)]
  else
    let l := beBytes n
    UInt8.ofNat (offset + 55 + l.length) :: l

/-- pyrlp `encode_raw` on a byte string.
Used in `/repo/src/pymt/utils/node.py:62-118, 188-206, 248-271, 311-328`, `/repo/src/pymt/mpt.py:498, 522`. -/
def encStr (b : Bytes) : Bytes :=
  match b with
  | [x] => if x.toNat < 128 then [x] else lenPrefix 128 1 ++ [x]
  | _ => lenPrefix 128 b.length ++ b

mutual
/-- `rlp.encode` on byte strings and lists (pyrlp `encode_raw`).
Used in `/repo/src/pymt/utils/node.py:62-118, 188-206, 248-271, 311-328`, `/repo/src/pymt/mpt.py:498, 522`. -/
def Item.encode : Item → Bytes
  | .str b => encStr b
  | .list l => lenPrefix 192 (Item.encodeList l).length ++ Item.encodeList l
/-- Concatenated encodings of the elements of a list.
Used in `/repo/src/pymt/utils/node.py:62-118, 188-206, 248-271, 311-328`, `/repo/src/pymt/mpt.py:498, 522`. -/
def Item.encodeList : List Item → Bytes
  | [] => []
  | x :: xs => Item.encode x ++ Item.encodeList xs
end

/-- Cut `n` bytes off the front; `none` when there are not that many.
Used in `/repo/src/pymt/utils/node.py:62-118, 188-206, 248-271, 311-328`, `/repo/src/pymt/mpt.py:498, 522`. -/
def takeExact (n : Nat) (b : Bytes) : Option (Bytes × Bytes) :=
  if n ≤ b.length then some (b.take n, b.drop n) else none

/-- The payload of a long string or list: `ll` length bytes without leading zero, a length of at
least 56, then that many bytes.
Used in `/repo/src/pymt/utils/node.py:62-118, 188-206, 248-271, 311-328`, `/repo/src/pymt/mpt.py:498, 522`. -/
def longBody (ll : Nat) (rest : Bytes) : Option (Bytes × Bytes) :=
  match takeExact ll rest with
  | none => none
  | some (lb, rest') =>
    if lb.head? = some 0 then none
    else if ofBE lb < 56 then none
    else takeExact (ofBE lb) rest'

/-- pyrlp `consume_length_prefix` plus the slice of the payload: is it a list, its payload, and the
bytes after it.  `none` is `rlp.DecodingError`.
Used in `/repo/src/pymt/utils/node.py:62-118, 188-206, 248-271, 311-328`, `/repo/src/pymt/mpt.py:498, 522`. -/
def header : Bytes → Option (Bool × Bytes × Bytes)
  | [] => none
  | b0 :: rest =>
    let n := b0.toNat
    if n < 128 then some (false, [b0], rest)
    else if n < 184 then
      match takeExact (n - 128) rest with
      | none => none
      | some (p, r) =>
        match p with
        | [x] => if x.toNat < 128 then none else some (false, p, r)
        | _ => some (false, p, r)
    else if n < 192 then (longBody (n - 183) rest).map fun (p, r) => (false, p, r)
    else if n < 248 then (takeExact (n - 192) rest).map fun (p, r) => (true, p, r)
    else (longBody (n - 247) rest).map fun (p, r) => (true, p, r)

/-- Decode a whole byte string as a sequence of items (pyrlp `consume_payload` on lists).
The counter bounds the number of nested steps; `decode` gives it the length of the input, which is
always enough.  Used in `/repo/src/pymt/utils/node.py:62-118, 188-206, 248-271, 311-328`, `/repo/src/pymt/mpt.py:498, 522`. -/
def decodeSeq : Nat → Bytes → Option (List Item)
  | _, [] => some []
  | 0, _ => none
  | f + 1, b :: bs =>
    match header (b :: bs) with
    | none => none
    | some (isList, p, r) =>
      match decodeSeq f r with
      | none => none
      | some tl =>
        if isList then
          match decodeSeq f p with
          | none => none
          | some l => some (.list l :: tl)
        else some (.str p :: tl)

/-- `rlp.decode(b)` without sedes (strict): exactly one item and nothing after it.
Called in `/repo/src/pymt/utils/node.py:49,89`. -/
def rlpDecode (b : Bytes) : Py Item :=
  match decodeSeq b.length b with
  | some [x] => .ok x
  | _ => .error .rlpDecoding

end Pymt
