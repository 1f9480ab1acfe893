import Verif.Model.Equality
import Verif.Model.Keys

/-!
# Printing proofs and Merkle trees, and loops over an `MPT`
(`/repo/src/pymt/proof.py:82-86`, `/repo/src/pymt/merkletools.py:56-61, 71-73`, `/repo/src/pymt/mpt.py:91-92`)
-/

namespace Pymt

namespace Proof

/-- `Proof(type=`, `/repo/src/pymt/proof.py:84`. -/
def sType : Bytes := [80, 114, 111, 111, 102, 40, 116, 121, 112, 101, 61]
/-- `, timestamp=`, `/repo/src/pymt/proof.py:84`. -/
def sTime : Bytes := [44, 32, 116, 105, 109, 101, 115, 116, 97, 109, 112, 61]
/-- `, target_key=`, `/repo/src/pymt/proof.py:84`. -/
def sKey : Bytes := [44, 32, 116, 97, 114, 103, 101, 116, 95, 107, 101, 121, 61]
/-- `, root_hash=`, `/repo/src/pymt/proof.py:84`. -/
def sRoot : Bytes := [44, 32, 114, 111, 111, 116, 95, 104, 97, 115, 104, 61]
/-- `, proof=`, `/repo/src/pymt/proof.py:84`. -/
def sProof : Bytes := [44, 32, 112, 114, 111, 111, 102, 61]

/-- `repr(proof)`, which `str(proof)` gives too, `/repo/src/pymt/proof.py:82-86`. -/
def repr (p : Proof Entry) : Bytes :=
  sType ++ (reprBytes p.type ++ (sTime ++ (reprBytes p.timestamp ++ (sKey ++ (reprBytes p.targetKey ++
    (sRoot ++ (reprBytes p.trieRoot ++ (sProof ++ (reprTuple reprEntry p.proof ++ [41])))))))))

end Proof

/-- The later elements of a list and the closing bracket.  Used in `/repo/src/pymt/merkletools.py:59`. -/
def reprMore {α : Type} (f : α → Bytes) : List α → Bytes
  | [] => [93]
  | x :: xs => 44 :: 32 :: (f x ++ reprMore f xs)

/-- `repr` of a list with elements shown by `f`: `[]`, `[x]`, `[x, y]`.  Used in `/repo/src/pymt/merkletools.py:59`. -/
def reprList {α : Type} (f : α → Bytes) : List α → Bytes
  | [] => [91, 93]
  | x :: xs => 91 :: (f x ++ reprMore f xs)

namespace MTree

/-- The text of a node in a level, `/repo/src/pymt/merkletools.py:59`.  Leaves are bytearrays (lines 112-114), and a last leaf
without a partner is carried up as it is (lines 142-144, 150-151); digests are `bytes` (line 149).  `f` is how a bytearray shows
its content: CPython does it in nearly, but not quite, the way it shows `bytes`. -/
def nodeText (f : Bytes → Bytes) : Bool × Bytes → Bytes
  | (true, b) => [98, 121, 116, 101, 97, 114, 114, 97, 121, 40] ++ (f b ++ [41])
  | (false, b) => reprBytes b

/-- `Tree not ready`, `/repo/src/pymt/merkletools.py:61`. -/
def notReadyText : Bytes := [84, 114, 101, 101, 32, 110, 111, 116, 32, 114, 101, 97, 100, 121]

/-- `str(tree)` and `repr(tree)`, `/repo/src/pymt/merkletools.py:56-61, 71-73, 135-137`.  `arrays i j` tells whether node `j` of
level `i` is a bytearray; the model does not keep track of this. -/
def str (f : Bytes → Bytes) (arrays : Nat → Nat → Bool) (t : MTree) : Bytes :=
  if t.ready then
    match t.levels with
    | none => [78, 111, 110, 101]
    | some ls => reprList (reprList (nodeText f)) (ls.mapIdx fun i l => l.mapIdx fun j b => (arrays i j, b))
  else notReadyText

end MTree

namespace MPT

/-- `list(trie)` and every `for key in trie`: `MPT` has no `__iter__`, so Python calls `trie[0]`, `trie[1]`, … until IndexError
(`/repo/src/pymt/mpt.py:91-92`; ints are keys without a length).  `n` bounds the number of rounds. -/
def listing (E : Env) (t : MPT) : Nat → List Bytes → Option (Py (List Bytes))
  | 0, _ => none
  | n + 1, got =>
    match t.getAny E .other with
    | .ok v => listing E t n (got ++ [v])
    | .error .indexError => some (.ok got)
    | .error e => some (.error e)

end MPT
end Pymt
