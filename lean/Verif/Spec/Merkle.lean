import Verif.Model.Merkle
import Verif.Spec.Assume

/-!
# Merkle trees: specification
-/

namespace Pymt

deriving instance DecidableEq for Proof

/-- A call on a `MerkleTree` (`root` stands for all calls that ask for the root). -/
inductive MOp where
  | put (value : Bytes)
  | make
  | reset
  | root
  deriving DecidableEq, Repr

namespace MTree

/-- One call; results are dropped, exceptions caught. -/
def exec (H : HashFn) : MOp → MTree → MTree
  | .put v, t => (put H v t).2
  | .make, t => (make H t).2
  | .reset, t => (reset t).2
  | .root, t => (MTree.root H t).2

/-- A history of calls. -/
def run (H : HashFn) (ops : List MOp) (t : MTree) : MTree := ops.foldl (fun t op => exec H op t) t

/-- `MerkleTree(secure)` after a history. -/
def after (H : HashFn) (secure : Bool) (ops : List MOp) : MTree := run H ops (new secure)

end MTree

/-- The values a tree should hold after a history: everything put since the last reset. -/
def held : List MOp → List Bytes
  | ops => ops.foldl (fun l op => match op with
    | .put v => l ++ [v]
    | .reset => []
    | _ => l) []

/-- Put the values, then build. -/
def putAndMake (vs : List Bytes) : List MOp := vs.map .put ++ [.make]

/-- The largest power of two below `n`, found by doubling `k`; the first argument bounds the steps. -/
def splitFrom : Nat → Nat → Nat → Nat
  | 0, k, _ => k
  | f + 1, k, n => if 2 * k < n then splitFrom f (2 * k) n else k

/-- The largest power of two below `n` (for `n ≥ 2`). -/
def splitPoint (n : Nat) : Nat := splitFrom n 1 n

/-- RFC 6962, section 2.1, without the two prefix bytes: the hash of a non-empty list of leaves.  The first
argument bounds the depth. -/
def rfcHash (H : HashFn) : Nat → List Bytes → Bytes
  | _, [] => []
  | _, [a] => a
  | 0, _ => []
  | f + 1, l =>
    let k := splitPoint l.length
    H.hash (rfcHash H f (l.take k) ++ rfcHash H f (l.drop k))

/-- The RFC 6962 tree hash of a list of leaves. -/
def rfcRoot (H : HashFn) (leaves : List Bytes) : Bytes := rfcHash H leaves.length leaves

/-- No two different byte strings of the list have the same digest. -/
def HashFn.CollFree (H : HashFn) (l : List Bytes) : Prop :=
  ∀ a ∈ l, ∀ b ∈ l, H.hash a = H.hash b → a = b

/-- The byte strings hashed to make the RFC 6962 tree of a list of leaves; the first argument bounds
the depth. -/
def rfcHashed (H : HashFn) : Nat → List Bytes → List Bytes
  | _, [] => []
  | _, [_] => []
  | 0, _ => []
  | f + 1, l =>
    let k := splitPoint l.length
    (rfcHash H f (l.take k) ++ rfcHash H f (l.drop k)) ::
      (rfcHashed H f (l.take k) ++ rfcHashed H f (l.drop k))

/-- The byte strings hashed to make the RFC 6962 tree of a list of leaves. -/
def MTree.treeStrings (H : HashFn) (l : List Bytes) : List Bytes := rfcHashed H l.length l

/-- The values of the nodes at a depth of the RFC 6962 tree of a list of leaves (depth 0 is the root). -/
def rfcNodesAt (H : HashFn) : Nat → List Bytes → List Bytes
  | 0, l => if l.length = 0 then [] else [rfcRoot H l]
  | d + 1, l =>
    if l.length < 2 then []
    else rfcNodesAt H d (l.take (splitPoint l.length)) ++ rfcNodesAt H d (l.drop (splitPoint l.length))

/-- The byte strings hashed to check a proof, when all its entries are well formed. -/
def proofHashed (H : HashFn) : List (Bytes × Bytes) → Bytes → List Bytes
  | [], _ => []
  | (side, hex) :: ps, h =>
    match fromHex hex with
    | .error _ => []
    | .ok s =>
      let m := if side = MTree.left then s ++ h else h ++ s
      m :: proofHashed H ps (H.hash m)

end Pymt
