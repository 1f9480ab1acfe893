import Verif.Model.Py

/-!
# Specification: nibble sequences and the hex-prefix encoding

Independent of the model of `NibblePath`: plain lists of nibbles, and the hex-prefix encoding as the
Ethereum Yellow Paper (appendix C) gives it.
-/

namespace Pymt

/-- A nibble. -/
abbrev Nib := Fin 16

/-- The two nibbles of a byte, high one first. -/
def byteNibs (b : UInt8) : List Nib :=
  [⟨b.toNat / 16, by have := b.toNat_lt; omega⟩, ⟨b.toNat % 16, by omega⟩]

/-- The nibbles of a byte string: this is the path of a key. -/
def toNibs (b : Bytes) : List Nib := b.flatMap byteNibs

/-- Two nibbles per byte (an odd rest is dropped; only used on even lists). -/
def pack : List Nib → Bytes
  | a :: b :: q => UInt8.ofNat (a.val * 16 + b.val) :: pack q
  | _ => []

/-- Hex-prefix encoding (Yellow Paper, appendix C): a flag nibble `2·leaf + odd`, a zero nibble if
the length is even, then the path. -/
def hp (leaf : Bool) (q : List Nib) : Bytes :=
  if q.length % 2 = 1 then pack ((if leaf then 3 else 1) :: q)
  else pack ((if leaf then 2 else 0) :: 0 :: q)

/-- Longest common prefix. -/
def lcp : List Nib → List Nib → List Nib
  | a :: p, b :: q => if a = b then a :: lcp p q else []
  | _, _ => []

end Pymt
