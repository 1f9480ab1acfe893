import Verif.Model.Node
import Verif.Spec.Nibbles

/-!
# Specification: how an Ethereum light client checks a proof

Written after `trie.VerifyProof` of go-ethereum and the Yellow Paper (appendices C, D), independently of `mpt.py`: the
nodes of a proof are put in a database under their hashes; the client starts at the root hash it knows and follows the
path through this database.  Nodes shorter than 32 bytes are part of the node above them.
-/

namespace Pymt
namespace Std

/-- Hex-prefix decoding (Yellow Paper, appendix C): whether it is a leaf, and the path. -/
def unhp (b : Bytes) : Option (Bool × List Nib) :=
  match toNibs b with
  | f :: q =>
    if f = 0 ∧ q.head? = some 0 then some (false, q.tail)
    else if f = 1 then some (false, q)
    else if f = 2 ∧ q.head? = some 0 then some (true, q.tail)
    else if f = 3 then some (true, q)
    else none
  | [] => none

/-- The node with the given hash among the nodes of the proof. -/
def fetch (E : Env) (l : List Bytes) (h : Bytes) : Option Item :=
  match l.find? fun b => E.keccak b == h with
  | none => none
  | some b =>
    match rlpDecode b with
    | .ok x => some x
    | .error _ => none

/-- The node an item refers to: itself, or the one with this hash. -/
def deref (E : Env) (l : List Bytes) : Item → Option Item
  | .list xs => some (.list xs)
  | .str h => fetch E l h

/-- Follow a path from a node.  `none`: a node is missing or malformed; `some none`: the key is absent;
`some (some v)`: the key has value `v`. -/
def walk (E : Env) (l : List Bytes) : Nat → Item → List Nib → Option (Option Bytes)
  | f + 1, .list xs, p =>
    if xs.length = 17 then
      match p with
      | [] =>
        match (xs[16]? : Option Item) with
        | some (.str v) => some (if v = [] then none else some v)
        | _ => none
      | i :: p =>
        match (xs[i.val]? : Option Item) with
        | none => none
        | some (.str []) => some none
        | some x => (deref E l x).bind fun y => walk E l f y p
    else
      match xs with
      | [.str b, x] =>
        match unhp b with
        | some (true, q) =>
          match x with
          | .str v => some (if q = p then some v else none)
          | .list _ => none
        | some (false, q) =>
          if q <+: p then (deref E l x).bind fun y => walk E l f y (p.drop q.length) else some none
        | none => none
      | _ => none
  | _, _, _ => none

/-- Check a proof: `root` is the root hash the client knows, `path` the key (its hash in secure mode), `l` the nodes of
the proof. -/
def verify (E : Env) (root : Bytes) (path : Bytes) (l : List Bytes) : Option (Option Bytes) :=
  (fetch E l root).bind fun x => walk E l (2 * path.length + 1) x (toNibs path)

end Std
end Pymt
