import Verif.Model.Equality

/-!
# The hash function of a Merkle tree (`/repo/src/pymt/merkletools.py:17-45`)
-/

namespace Pymt

/-- The functions of `hashlib` that `/repo/src/pymt/merkletools.py:29-40` accepts. -/
inductive HashType where
  | sha256 | md5 | sha224 | sha384 | sha512 | sha3_256 | sha3_224 | sha3_384 | sha3_512
  deriving DecidableEq, Repr

namespace HashType

/-- The list in `/repo/src/pymt/merkletools.py:29-39`: the names as ASCII, and the functions. -/
def names : List (Bytes × HashType) :=
  [([115, 104, 97, 50, 53, 54], sha256),
   ([109, 100, 53], md5),
   ([115, 104, 97, 50, 50, 52], sha224),
   ([115, 104, 97, 51, 56, 52], sha384),
   ([115, 104, 97, 53, 49, 50], sha512),
   ([115, 104, 97, 51, 95, 50, 53, 54], sha3_256),
   ([115, 104, 97, 51, 95, 50, 50, 52], sha3_224),
   ([115, 104, 97, 51, 95, 51, 56, 52], sha3_384),
   ([115, 104, 97, 51, 95, 53, 49, 50], sha3_512)]

/-- `digest_size` of the functions chosen in `/repo/src/pymt/merkletools.py:40` (documented in `hashlib`). -/
def size : HashType → Nat
  | sha256 | sha3_256 => 32
  | md5 => 16
  | sha224 | sha3_224 => 28
  | sha384 | sha3_384 => 48
  | sha512 | sha3_512 => 64

/-- `hash_type.lower()`, `/repo/src/pymt/merkletools.py:28`, on the UTF-8 text.  Simplification: only ASCII letters
change.  Of the other characters only İ and the Kelvin sign have a lower case with ASCII letters in it, and none of
the names contains an i or a k. -/
def lower (text : Bytes) : Bytes := text.map fun b => if 65 ≤ b ∧ b ≤ 90 then b + 32 else b

/-- The choice of the function, `/repo/src/pymt/merkletools.py:28-42`; `none` stands for the `Exception` of line 42. -/
def parse (text : Bytes) : Option HashType := (names.find? fun e => e.1 == lower text).map (·.2)

end HashType

/-- The nine functions themselves (`getattr(hashlib, hash_type)`, `/repo/src/pymt/merkletools.py:40`): any functions with
digests of the right lengths. -/
structure Hashlib where
  fn : HashType → HashFn
  size_eq : ∀ k, (fn k).size = k.size

namespace MTree

/-- `MerkleTree(secure, hash_type)` with the argument `hash_type` as text, `/repo/src/pymt/mt.py:7-24`,
`/repo/src/pymt/merkletools.py:17-45`: the function and the new object, or `none` for the `Exception` of line 42. -/
def newOf (L : Hashlib) (secure : Bool) (hashType : Bytes) : Option (HashFn × MTree) :=
  (HashType.parse hashType).map fun k => (L.fn k, new secure)

/-- `__eq__`, `/repo/src/pymt/merkletools.py:67-69`, between two trees that may have different hash functions. -/
def eqOf (H H' : HashFn) (t u : MTree) : Py Bool × MTree × MTree :=
  match t.hash H with
  | (.error e, t') => (.error e, t', u)
  | (.ok a, t') =>
    match u.hash H' with
    | (.error e, u') => (.error e, t', u')
    | (.ok b, u') => (.ok (a == b), t', u')

end MTree
end Pymt
