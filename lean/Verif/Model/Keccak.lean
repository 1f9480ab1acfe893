import Verif.Model.Node

/-!
# Keccak-256

A concrete instance of the hash parameter: the Keccak sponge with rate 1088, capacity 512 and the
original padding `0x01 … 0x80` (`pycryptodome`'s `Crypto.Hash.keccak` with `digest_bits=256`, used in
`/repo/src/pymt/utils/hash.py:5-51`).  No theorem about the trie depends on it; it is used to state
concrete examples and counterexamples with the hash that the code really uses.
-/

namespace Pymt
namespace Keccak

/-- Rotation of a 64-bit lane to the left.  pycryptodome, used in `/repo/src/pymt/utils/hash.py:21-22`. -/
def rotl (x n : Nat) : Nat := ((x <<< n) ||| (x >>> (64 - n))) % 2 ^ 64

/-- Rotation offsets, lane `x + 5y`.  pycryptodome, used in `/repo/src/pymt/utils/hash.py:21-22`. -/
def offsets : List Nat :=
  [0, 1, 62, 28, 27, 36, 44, 6, 55, 20, 3, 10, 43, 25, 39, 41, 45, 15, 21, 8, 18, 2, 61, 56, 14]

/-- Round constants.  pycryptodome, used in `/repo/src/pymt/utils/hash.py:21-22`. -/
def consts : List Nat :=
  [0x0000000000000001, 0x0000000000008082, 0x800000000000808A, 0x8000000080008000,
   0x000000000000808B, 0x0000000080000001, 0x8000000080008081, 0x8000000000008009,
   0x000000000000008A, 0x0000000000000088, 0x0000000080008009, 0x000000008000000A,
   0x000000008000808B, 0x800000000000008B, 0x8000000000008089, 0x8000000000008003,
   0x8000000000008002, 0x8000000000000080, 0x000000000000800A, 0x800000008000000A,
   0x8000000080008081, 0x8000000000008080, 0x0000000080000001, 0x8000000080008008]

/-- Lane `x + 5y` of a state.  pycryptodome, used in `/repo/src/pymt/utils/hash.py:21-22`. -/
def lane (s : List Nat) (i : Nat) : Nat := s.getD i 0

/-- θ.  pycryptodome, used in `/repo/src/pymt/utils/hash.py:21-22`. -/
def theta (s : List Nat) : List Nat :=
  let c := (List.range 5).map fun x =>
    lane s x ^^^ lane s (x + 5) ^^^ lane s (x + 10) ^^^ lane s (x + 15) ^^^ lane s (x + 20)
  let d := (List.range 5).map fun x => lane c ((x + 4) % 5) ^^^ rotl (lane c ((x + 1) % 5)) 1
  (List.range 25).map fun i => lane s i ^^^ lane d (i % 5)

/-- ρ and π: lane `(x, y)` of the result is the rotated lane `(x + 3y, x)`.
pycryptodome, used in `/repo/src/pymt/utils/hash.py:21-22`. -/
def rhoPi (s : List Nat) : List Nat :=
  (List.range 25).map fun i =>
    let x := i % 5
    let y := i / 5
    let j := (x + 3 * y) % 5 + 5 * x
    rotl (lane s j) (offsets.getD j 0)

/-- χ.  pycryptodome, used in `/repo/src/pymt/utils/hash.py:21-22`. -/
def chi (s : List Nat) : List Nat :=
  (List.range 25).map fun i =>
    let x := i % 5
    let y := i / 5
    lane s i ^^^ ((lane s ((x + 1) % 5 + 5 * y) ^^^ (2 ^ 64 - 1)) &&& lane s ((x + 2) % 5 + 5 * y))

/-- ι.  pycryptodome, used in `/repo/src/pymt/utils/hash.py:21-22`. -/
def iota (rc : Nat) : List Nat → List Nat
  | [] => []
  | a :: s => (a ^^^ rc) :: s

/-- The permutation Keccak-f[1600].  pycryptodome, used in `/repo/src/pymt/utils/hash.py:21-22`. -/
def permute (s : List Nat) : List Nat :=
  consts.foldl (fun s rc => iota rc (chi (rhoPi (theta s)))) s

/-- The little-endian number of a list of bytes.  pycryptodome, used in `/repo/src/pymt/utils/hash.py:21-22`. -/
def leNat : Bytes → Nat
  | [] => 0
  | b :: bs => b.toNat + 256 * leNat bs

/-- Padding to a multiple of 136 bytes.  pycryptodome, used in `/repo/src/pymt/utils/hash.py:21-22`. -/
def pad (m : Bytes) : Bytes :=
  let k := 136 - m.length % 136
  if k = 1 then m ++ [0x81] else m ++ [0x01] ++ List.replicate (k - 2) 0 ++ [0x80]

/-- The 17 lanes of a block, extended by zeros to 25.  pycryptodome, used in `/repo/src/pymt/utils/hash.py:21-22`. -/
def blockLanes (b : Bytes) : List Nat :=
  (List.range 25).map fun i => leNat ((b.drop (8 * i)).take 8)

/-- Absorb `n` blocks.  pycryptodome, used in `/repo/src/pymt/utils/hash.py:21-22`. -/
def absorb : Nat → Bytes → List Nat → List Nat
  | 0, _, s => s
  | n + 1, m, s => absorb n (m.drop 136)
      (permute ((List.range 25).map fun i => lane s i ^^^ lane (blockLanes (m.take 136)) i))

/-- Keccak-256.  pycryptodome, used in `/repo/src/pymt/utils/hash.py:21-22`. -/
def keccak256 (m : Bytes) : Bytes :=
  let p := pad m
  let s := absorb (p.length / 136) p (List.replicate 25 0)
  (List.range 32).map fun i => UInt8.ofNat (lane s (i / 8) >>> (8 * (i % 8)))

theorem keccak256_len (m : Bytes) : (keccak256 m).length = 32 := by simp [keccak256]

end Keccak

/-- The environment of the real program: Keccak-256 and CPython's default recursion limit.
pycryptodome, used in `/repo/src/pymt/utils/hash.py:21-22`. -/
def realEnv : Env := { keccak := Keccak.keccak256, keccak_len := Keccak.keccak256_len, limit := 1000 }

end Pymt
