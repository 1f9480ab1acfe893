import Verif.Model.Text
import Verif.Model.Proof

/-!
# `MerkleTools` and `MerkleTree` (`/repo/src/pymt/merkletools.py`, `/repo/src/pymt/mt.py`)

Arguments have the documented types, so the `isinstance` checks of `mt.py` never fire.
-/

namespace Pymt

/-- The hash function chosen in `/repo/src/pymt/merkletools.py:28-42` (nine functions of `hashlib`): any
function with digests of one length. -/
structure HashFn where
  hash : Bytes → Bytes
  size : Nat
  hash_len : ∀ b, (hash b).length = size

/-- A `MerkleTree`, `/repo/src/pymt/merkletools.py:28-45, 95-99`.

`levels` of the code is `None` or a list whose last element *is* the list `leaves` (line 160 puts the list
itself there, so later calls of `add_leaf` change it); `upper` holds the levels before that one. -/
structure MTree where
  secure : Bool
  leaves : List Bytes
  upper : Option (List (List Bytes))
  ready : Bool
  deriving DecidableEq, Repr

namespace MTree

/-- `MerkleTree(secure, hash_type)`, `/repo/src/pymt/mt.py:7-24`, `/repo/src/pymt/merkletools.py:17-45`. -/
def new (secure : Bool) : MTree := { secure, leaves := [], upper := none, ready := false }

/-- `reset_tree`, `/repo/src/pymt/merkletools.py:95-99`, `/repo/src/pymt/mt.py:86-88`. -/
def reset : M MTree Unit := M.modify fun t => { t with leaves := [], upper := none, ready := false }

/-- The leaf made of a value, `/repo/src/pymt/merkletools.py:110-114, 193-197`. -/
def leafOf (H : HashFn) (secure : Bool) (value : Bytes) : Bytes := if secure then H.hash value else value

/-- `MerkleTree.put` and `add_leaf`, `/repo/src/pymt/mt.py:27-49`, `/repo/src/pymt/merkletools.py:101-115`. -/
def put (H : HashFn) (value : Bytes) : M MTree Unit :=
  M.modify fun t => { t with leaves := t.leaves ++ [leafOf H t.secure value] }

/-- `MerkleTree.put_list`, `/repo/src/pymt/mt.py:51-58`. -/
def putList (H : HashFn) : List Bytes → M MTree Unit
  | [] => pure ()
  | v :: vs => do
    put H v
    putList H vs

/-- List indexing `l[i]` with Python's negative indices.  Used in `/repo/src/pymt/merkletools.py:117-129`. -/
def pyIndexInt {α : Type} (l : List α) (i : Int) : Py α :=
  if 0 ≤ i then pyIndex l i.toNat
  else if -(l.length : Int) ≤ i then pyIndex l (l.length + i).toNat
  else .error .indexError

/-- `MerkleTree.get` and `get_leaf`, `/repo/src/pymt/mt.py:60-76`, `/repo/src/pymt/merkletools.py:117-129`. -/
def get (t : MTree) (index : Int) : Py Bytes := do
  let leaf ← pyIndexInt t.leaves index
  return hexOf leaf

/-- `get_count`, `__len__`, `get_leaf_count`: `/repo/src/pymt/mt.py:78-80`,
`/repo/src/pymt/merkletools.py:53-54, 131-133`. -/
def count (t : MTree) : Nat := t.leaves.length

/-- `l[0::2]`.  `/repo/src/pymt/merkletools.py:148`. -/
def everyOther {α : Type} : List α → List α
  | [] => []
  | [a] => [a]
  | a :: _ :: rest => a :: everyOther rest

/-- `_calculate_next_level`, `/repo/src/pymt/merkletools.py:139-154`: the new level. -/
def nextLevel (H : HashFn) (level : List Bytes) : List Bytes :=
  let odd := level.length % 2 = 1
  let n := if odd then level.length - 1 else level.length
  let evens := everyOther (level.take n)
  let odds := everyOther ((level.take n).drop 1)
  let new := (evens.zip odds).map fun (l, r) => H.hash (l ++ r)
  if odd then new ++ (level.getLast?).toList else new

/-- The loop of `make_tree`, `/repo/src/pymt/merkletools.py:163-164`; the first argument bounds the number of
rounds (each shortens the first level, so the number of leaves is enough). -/
def buildLevels (H : HashFn) : Nat → List (List Bytes) → List (List Bytes)
  | 0, levels => levels
  | n + 1, levels =>
    match levels with
    | [] => []
    | top :: rest => if top.length > 1 then buildLevels H n (nextLevel H top :: top :: rest) else top :: rest

/-- `make_tree`, `/repo/src/pymt/merkletools.py:156-165`, `/repo/src/pymt/mt.py:82-84`. -/
def make (H : HashFn) : M MTree Unit := M.modify fun t =>
  if t.leaves.length > 0 then
    { t with upper := some (buildLevels H t.leaves.length [t.leaves]).dropLast, ready := true }
  else { t with ready := true }

/-- `self.levels`.  `/repo/src/pymt/merkletools.py:152-162`. -/
def levels (t : MTree) : Option (List (List Bytes)) := t.upper.map (· ++ [t.leaves])

/-- `MerkleTools.get_merkle_root`, `/repo/src/pymt/merkletools.py:167-177`. -/
def rootRaw (t : MTree) : Py Bytes :=
  match t.ready, t.levels with
  | true, some ls => do
    let top ← pyIndex ls 0
    let r ← pyIndex top 0
    return hexOf r
  | _, _ => .error .valueError

/-- `MerkleTree.get_merkle_root`, `/repo/src/pymt/mt.py:90-95`. -/
def root (H : HashFn) : M MTree Bytes := do
  let t ← M.get
  if !t.ready then make H else pure ()
  let t ← M.get
  M.lift t.rootRaw

/-- `b"left"`.  `/repo/src/pymt/merkletools.py:215`, `/repo/src/pymt/mt.py:98-132`. -/
def left : Bytes := [108, 101, 102, 116]
/-- `b"right"`.  `/repo/src/pymt/merkletools.py:215`, `/repo/src/pymt/mt.py:98-132`. -/
def right : Bytes := [114, 105, 103, 104, 116]

/-- The loop in `MerkleTools.get_proof_of_inclusion`, `/repo/src/pymt/merkletools.py:206-219`, over the levels
from the leaves up, without the topmost.  `int(index / 2.0)` is `index / 2` (for fewer than 2^53 leaves). -/
def proofLoop : List (List Bytes) → Nat → Py (List (Bytes × Bytes))
  | [], _ => .ok []
  | level :: up, index =>
    if index = level.length - 1 ∧ level.length % 2 = 1 then proofLoop up (index / 2)
    else do
      let isRight := index % 2 = 1
      let sibling ← pyIndex level (if isRight then index - 1 else index + 1)
      let rest ← proofLoop up (index / 2)
      return (if isRight then left else right, hexOf sibling) :: rest

/-- `MerkleTools.get_proof_of_inclusion`, `/repo/src/pymt/merkletools.py:179-219`; `list.index` raises
ValueError when the leaf is missing. -/
def proofRaw (H : HashFn) (t : MTree) (key : Bytes) : Py (List (Bytes × Bytes)) :=
  match t.leaves.idxOf? (leafOf H t.secure key) with
  | none => .error .valueError
  | some index =>
    match t.ready, t.levels with
    | true, some ls => proofLoop (ls.reverse.dropLast) index
    | _, _ => .error .valueError

/-- `MerkleTree.get_proof_of_inclusion`, `/repo/src/pymt/mt.py:98-132`. -/
def getPoi (H : HashFn) (now : Bytes) (key : Bytes) : M MTree (Proof (Bytes × Bytes)) := do
  let t ← M.get
  let proof ← M.lift (t.proofRaw H key)
  let r ← root H
  return { type := mtPoi, timestamp := now, targetKey := key, trieRoot := r, proof := proof }

/-- The loop in `MerkleTools.verify_proof_of_inclusion`, `/repo/src/pymt/merkletools.py:243-254`.  Each entry is
a dict with one key; the bare `except` catches a missing key as well as bad digits. -/
def foldProof (H : HashFn) : List (Bytes × Bytes) → Bytes → Py Bytes
  | [], h => .ok h
  | (pos, hex) :: ps, h =>
    match (if pos = left then fromHex hex else .error .keyError) with
    | .ok sibling => foldProof H ps (H.hash (sibling ++ h))
    | .error _ =>
      if pos = right then
        match fromHex hex with
        | .ok sibling => foldProof H ps (H.hash (h ++ sibling))
        | .error e => .error e
      else .error .keyError

/-- `MerkleTools.verify_proof_of_inclusion`, `/repo/src/pymt/merkletools.py:221-254`. -/
def verifyRaw (H : HashFn) (proof : List (Bytes × Bytes)) (target root : Bytes) : Py Bool :=
  if proof.length = 0 then .ok (target == root)
  else do
    let h ← foldProof H proof target
    return h == root

/-- The conversion of the entries, `/repo/src/pymt/mt.py:150-152`. -/
def decodeEntries : List (Bytes × Bytes) → Py (List (Bytes × Bytes))
  | [] => .ok []
  | (a, b) :: ps => do
    let a ← decodeUtf8 a
    let b ← decodeUtf8 b
    let rest ← decodeEntries ps
    return (a, b) :: rest

/-- Is the exception a ValueError?  (UnicodeDecodeError is a subclass.).  `/repo/src/pymt/mt.py:161-162`. -/
def isValueError : Err → Bool
  | .valueError => true
  | .unicode => true
  | _ => false

/-- `MerkleTree.verify_proof_of_inclusion`, `/repo/src/pymt/mt.py:134-170`, for proofs whose entries are pairs of
byte strings. -/
def verifyPoi (H : HashFn) (p : Proof (Bytes × Bytes)) : M MTree Bool := do
  let entries ← M.lift (decodeEntries p.proof)
  let text ← M.lift (decodeUtf8 p.trieRoot)
  let merkleRoot ← M.lift (fromHex text)
  match verifyRaw H entries p.targetKey merkleRoot with
  | .error e => if isValueError e then return false else M.raise e
  | .ok true => do
    let r ← root H
    return r == p.trieRoot
  | .ok false => return false

end MTree
end Pymt
