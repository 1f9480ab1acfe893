import Verif.Spec.Merkle

/-!
# Audit paths of Merkle trees: specification
-/

namespace Pymt

/-- RFC 6962, section 2.1.1: the audit path of leaf `m`, from the leaf up, each entry with the side on which it
is to be put (as in `/repo/src/pymt/merkletools.py:206-219`) and its value in hexadecimal.  The first argument
bounds the depth. -/
def rfcPathAux (H : HashFn) : Nat → List Bytes → Nat → List (Bytes × Bytes)
  | 0, _, _ => []
  | f + 1, l, m =>
    if l.length < 2 then []
    else
      let k := splitPoint l.length
      if m < k then rfcPathAux H f (l.take k) m ++ [(MTree.right, hexOf (rfcRoot H (l.drop k)))]
      else rfcPathAux H f (l.drop k) (m - k) ++ [(MTree.left, hexOf (rfcRoot H (l.take k)))]

/-- The RFC 6962 audit path of leaf `m` of a list of leaves. -/
def rfcPath (H : HashFn) (l : List Bytes) (m : Nat) : List (Bytes × Bytes) := rfcPathAux H l.length l m

end Pymt
