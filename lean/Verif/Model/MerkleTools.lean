import Verif.Model.Merkle

/-!
# `MerkleTools.verify_proof_of_inclusion` with text arguments (`/repo/src/pymt/merkletools.py`)

`get_leaf` and `get_merkle_root` of `MerkleTools` return `str`; `verify_proof_of_inclusion` is documented for
`bytes` but checks nothing.  `Model/Merkle.lean` has the function for `bytes`; this file has it for both types.
-/

namespace Pymt.MTree

/-- A `bytes` (or `bytearray`, which compares and adds like it) or a `str` of ASCII characters.
`/repo/src/pymt/merkletools.py:221-254`. -/
inductive Str where
  | bytes (b : Bytes)
  | text (b : Bytes)
  deriving DecidableEq, Repr

/-- `==`: a `str` is never equal to a `bytes`.  `/repo/src/pymt/merkletools.py:221-254`. -/
def Str.eq : Str → Str → Bool
  | .bytes a, .bytes b => a == b
  | .text a, .text b => a == b
  | _, _ => false

/-- `sibling + proof_hash`, `/repo/src/pymt/merkletools.py:248`: `bytearray + str` raises TypeError. -/
def addLeft (sibling : Bytes) : Str → Py Bytes
  | .bytes h => .ok (sibling ++ h)
  | .text _ => .error .typeError

/-- `proof_hash + sibling`, `/repo/src/pymt/merkletools.py:252`: `str + bytearray` raises TypeError. -/
def addRight (sibling : Bytes) : Str → Py Bytes
  | .bytes h => .ok (h ++ sibling)
  | .text _ => .error .typeError

/-- The `try` block, `/repo/src/pymt/merkletools.py:245-248`, for a dict with the one entry `pos : hex`. -/
def tryLeft (H : HashFn) (pos hex : Bytes) (h : Str) : Py Bytes := do
  let sibling ← if pos = left then fromHex hex else .error .keyError
  let s ← addLeft sibling h
  return H.hash s

/-- The `except` block, `/repo/src/pymt/merkletools.py:249-252`. -/
def exceptRight (H : HashFn) (pos hex : Bytes) (h : Str) : Py Bytes := do
  let sibling ← if pos = right then fromHex hex else .error .keyError
  let s ← addRight sibling h
  return H.hash s

/-- The loop, `/repo/src/pymt/merkletools.py:243-252`. -/
def foldAny (H : HashFn) : List (Bytes × Bytes) → Str → Py Str
  | [], h => .ok h
  | (pos, hex) :: ps, h =>
    match tryLeft H pos hex h with
    | .ok h' => foldAny H ps (.bytes h')
    | .error _ => do
      let h' ← exceptRight H pos hex h
      foldAny H ps (.bytes h')

/-- `MerkleTools.verify_proof_of_inclusion`, `/repo/src/pymt/merkletools.py:221-254`. -/
def verifyAny (H : HashFn) (proof : List (Bytes × Bytes)) (target root : Str) : Py Bool :=
  if proof.length = 0 then .ok (target.eq root)
  else do
    let h ← foldAny H proof target
    return h.eq root

end Pymt.MTree
