import Verif.Model.Mpt
import Verif.Model.ProofCodec

/-!
# `==` and `hash` of tries, Merkle trees and proofs

`__hash__` is modelled as the method; the builtin `hash(x)` reduces its result modulo a prime, `==` does not.
-/

namespace Pymt

/-- Digits and single underscores, CPython `long_from_binary_base`: `under` says whether the last byte was an
underscore.  Gives the value and the rest; `none` for two underscores in a row or one at the end.
Used in `/repo/src/pymt/proof.py:90`, `/repo/src/pymt/merkletools.py:65`. -/
def scan16 : Bool → Nat → Bytes → Option (Nat × Bytes)
  | under, acc, [] => if under then none else some (acc, [])
  | under, acc, c :: cs =>
    if c = 95 then (if under then none else scan16 true acc cs)
    else
      match hexVal c with
      | some d => scan16 false (16 * acc + d) cs
      | none => if under then none else some (acc, c :: cs)

/-- The sign.  Used in `/repo/src/pymt/proof.py:90`, `/repo/src/pymt/merkletools.py:65`. -/
def dropSign : Bytes → Bool × Bytes
  | 43 :: t => (false, t)
  | 45 :: t => (true, t)
  | s => (false, s)

/-- The prefix `0x` with the one underscore allowed after it.
Used in `/repo/src/pymt/proof.py:90`, `/repo/src/pymt/merkletools.py:65`. -/
def dropPrefix : Bytes → Bytes
  | 48 :: 120 :: 95 :: t => t
  | 48 :: 88 :: 95 :: t => t
  | 48 :: 120 :: t => t
  | 48 :: 88 :: t => t
  | s => s

/-- `int(s, 16)` for `s : bytes` or an ASCII `str`, used in `/repo/src/pymt/mpt.py:101`,
`/repo/src/pymt/merkletools.py:65`, `/repo/src/pymt/proof.py:89` (CPython `PyLong_FromString`): white space, a sign,
`0x`, digits, white space; ValueError otherwise. -/
def parseInt16 (s : Bytes) : Py Int :=
  let (neg, s) := dropSign (s.dropWhile isSpace)
  match dropPrefix s with
  | [] => .error .valueError
  | c :: cs =>
    match hexVal c with
    | none => .error .valueError
    | some d =>
      match scan16 false d cs with
      | none => .error .valueError
      | some (n, rest) =>
        if rest.dropWhile isSpace = [] then .ok (if neg then - (n : Int) else n) else .error .valueError

namespace MPT

/-- `__hash__`, `/repo/src/pymt/mpt.py:100-101`: `int` of the *raw* digest.  `keccak_hash(None)` raises TypeError. -/
def hash (E : Env) (t : MPT) : Py Int :=
  match t.root with
  | none => .error .typeError
  | some r => parseInt16 (E.keccak r)

/-- `__eq__`, `/repo/src/pymt/mpt.py:103-106`, between two tries. -/
def eq (E : Env) (t u : MPT) : Py Bool := do
  let a ← t.hash E
  let b ← u.hash E
  return a == b

end MPT

namespace MTree

/-- `__hash__`, `/repo/src/pymt/merkletools.py:63-65` with `get_merkle_root` of `/repo/src/pymt/mt.py:90-95`. -/
def hash (H : HashFn) : M MTree Int := do
  let r ← root H
  M.lift (parseInt16 r)

/-- `__eq__`, `/repo/src/pymt/merkletools.py:67-69`, between two trees: the result, and the two objects afterwards
(computing the root of a tree that is not ready makes it). -/
def eq (H : HashFn) (t u : MTree) : Py Bool × MTree × MTree :=
  match t.hash H with
  | (.error e, t') => (.error e, t', u)
  | (.ok a, t') =>
    match u.hash H with
    | (.error e, u') => (.error e, t', u')
    | (.ok b, u') => (.ok (a == b), t', u')

end MTree

/-- A byte within the `repr` of a byte string with quote `q` (CPython `PyBytes_Repr`).
Used in `/repo/src/pymt/proof.py:83-86, 90`. -/
def reprByte (q c : UInt8) : Bytes :=
  if c = q ∨ c = 92 then [92, c]
  else if c = 9 then [92, 116]
  else if c = 10 then [92, 110]
  else if c = 13 then [92, 114]
  else if c < 32 ∨ 127 ≤ c then [92, 120, hexDigit (c.toNat / 16), hexDigit (c.toNat % 16)]
  else [c]

/-- `repr(b)` for `b : bytes`: single quotes, unless there are single quotes but no double quotes in `b`.
Used in `/repo/src/pymt/proof.py:83-86, 90`. -/
def reprBytes (b : Bytes) : Bytes :=
  let q : UInt8 := if b.contains 39 && !b.contains 34 then 34 else 39
  98 :: q :: (b.flatMap (reprByte q) ++ [q])

/-- The later elements of a tuple and the closing parenthesis.  Used in `/repo/src/pymt/proof.py:83-86, 90`. -/
def reprRest {α : Type} (f : α → Bytes) : List α → Bytes
  | [] => [41]
  | x :: xs => 44 :: 32 :: (f x ++ reprRest f xs)

/-- `repr` of a tuple with elements shown by `f`: `()`, `(x,)`, `(x, y)`.  Used in `/repo/src/pymt/proof.py:83-86, 90`. -/
def reprTuple {α : Type} (f : α → Bytes) : List α → Bytes
  | [] => [40, 41]
  | [x] => 40 :: (f x ++ [44, 41])
  | x :: y :: ys => 40 :: (f x ++ reprRest f (y :: ys))

/-- `repr` of an entry of a proof.  Used in `/repo/src/pymt/proof.py:83-86, 90`. -/
def reprEntry : Entry → Bytes
  | .bytes b => reprBytes b
  | .tuple l => reprTuple reprBytes l

namespace Proof

/-- `{'proof_type': `.  `/repo/src/pymt/proof.py:72-80, 90`. -/
def rType : Bytes := [123, 39, 112, 114, 111, 111, 102, 95, 116, 121, 112, 101, 39, 58, 32]
/-- `, 'timestamp': `.  `/repo/src/pymt/proof.py:72-80, 90`. -/
def rTime : Bytes := [44, 32, 39, 116, 105, 109, 101, 115, 116, 97, 109, 112, 39, 58, 32]
/-- `, 'target_key': `.  `/repo/src/pymt/proof.py:72-80, 90`. -/
def rKey : Bytes := [44, 32, 39, 116, 97, 114, 103, 101, 116, 95, 107, 101, 121, 39, 58, 32]
/-- `, 'root_hash': `.  `/repo/src/pymt/proof.py:72-80, 90`. -/
def rRoot : Bytes := [44, 32, 39, 114, 111, 111, 116, 95, 104, 97, 115, 104, 39, 58, 32]
/-- `, 'proof': `.  `/repo/src/pymt/proof.py:72-80, 90`. -/
def rProof : Bytes := [44, 32, 39, 112, 114, 111, 111, 102, 39, 58, 32]

/-- `str(self.__dict__()).encode()`, `/repo/src/pymt/proof.py:70-79, 89`. -/
def dictRepr (p : Proof Entry) : Bytes :=
  rType ++ (reprBytes p.type ++ (rTime ++ (reprBytes p.timestamp ++ (rKey ++ (reprBytes p.targetKey ++
    (rRoot ++ (reprBytes p.trieRoot ++ (rProof ++ (reprTuple reprEntry p.proof ++ [125])))))))))

/-- `__hash__`, `/repo/src/pymt/proof.py:87-89`. -/
def hash (E : Env) (p : Proof Entry) : Py Int := parseInt16 (hexOf (E.keccak p.dictRepr))

/-- `__eq__`, `/repo/src/pymt/proof.py:91-96`, between two proofs. -/
def eq (E : Env) (p q : Proof Entry) : Py Bool := do
  let a ← p.hash E
  let b ← q.hash E
  return a == b

end Proof
end Pymt
