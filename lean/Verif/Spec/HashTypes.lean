import Verif.Model.HashTypes

/-!
# Names of hash functions
-/

namespace Pymt

/-- ASCII text as bytes. -/
def asciiOf (l : List Char) : Bytes := l.map fun c => UInt8.ofNat c.toNat

/-- The names that are accepted, and what they stand for. -/
def acceptedNames : List (List Char × HashType) :=
  [(['s', 'h', 'a', '2', '5', '6'], .sha256), (['s', 'h', 'a', '2', '2', '4'], .sha224),
   (['s', 'h', 'a', '3', '8', '4'], .sha384), (['s', 'h', 'a', '5', '1', '2'], .sha512), (['m', 'd', '5'], .md5),
   (['s', 'h', 'a', '3', '_', '2', '5', '6'], .sha3_256), (['s', 'h', 'a', '3', '_', '2', '2', '4'], .sha3_224),
   (['s', 'h', 'a', '3', '_', '3', '8', '4'], .sha3_384), (['s', 'h', 'a', '3', '_', '5', '1', '2'], .sha3_512)]

/-- The two texts differ at most in that the first has capital letters where the second has small ones. -/
def SameUpToCase (text name : Bytes) : Prop :=
  text.length = name.length ∧
    ∀ e ∈ text.zip name, e.1 = e.2 ∨ 97 ≤ e.2.toNat ∧ e.2.toNat ≤ 122 ∧ e.1.toNat + 32 = e.2.toNat

instance (text name : Bytes) : Decidable (SameUpToCase text name) := by unfold SameUpToCase; infer_instance

end Pymt
