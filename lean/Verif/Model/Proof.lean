import Verif.Model.Py

/-!
# `Proof` (`/repo/src/pymt/proof.py`): the data

The codec is in `Verif/Model/ProofCodec.lean`.
-/

namespace Pymt

/-- `Proof`, `/repo/src/pymt/proof.py:9-69`, as made by its constructor (types already checked).
`α` is the type of the proof entries: byte strings for MPT proofs, pairs for Merkle tree proofs.
`_timestamp` is the clock reading at construction; no function except the codec, `==` and `hash` of
`Proof` looks at it. -/
structure Proof (α : Type) where
  type : Bytes
  timestamp : Bytes
  targetKey : Bytes
  trieRoot : Bytes
  proof : List α

/-- `b"MPT-POI"`, `/repo/src/pymt/proof.py:12`. -/
def mptPoi : Bytes := [77, 80, 84, 45, 80, 79, 73]
/-- `b"MPT-POE"`, `/repo/src/pymt/proof.py:12`. -/
def mptPoe : Bytes := [77, 80, 84, 45, 80, 79, 69]
/-- `b"MT-POI"`, `/repo/src/pymt/proof.py:12`. -/
def mtPoi : Bytes := [77, 84, 45, 80, 79, 73]

end Pymt
