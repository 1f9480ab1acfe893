import Verif.Model.Merkle

/-!
# `MerkleTree.put` and `put_list` with arguments of any type (`/repo/src/pymt/mt.py`)
-/

namespace Pymt

/-- What may be passed to `put`, `/repo/src/pymt/mt.py:27-49`: `bytes`; a `bytearray`, which is no `bytes`; something
else. -/
inductive LeafArg where
  | bytes (b : Bytes)
  | bytearray (b : Bytes)
  | other
  deriving DecidableEq, Repr

/-- What may be passed to `put_list`, `/repo/src/pymt/mt.py:51-58`: a list or tuple; the list `tree.leaves` of the same
tree, which `put` appends to; something else, for instance a generator or a set. -/
inductive ListArg where
  | items (l : List LeafArg)
  | own
  | other
  deriving DecidableEq, Repr

namespace MTree

/-- `MerkleTree.put` with the check of its argument, `/repo/src/pymt/mt.py:47-49`. -/
def putArg (H : HashFn) : LeafArg → M MTree Unit
  | .bytes b => put H b
  | .bytearray _ => M.raise .typeError
  | .other => M.raise .typeError

/-- The loop of `put_list` over a list that nobody changes, `/repo/src/pymt/mt.py:57-58`. -/
def putArgs (H : HashFn) : List LeafArg → M MTree Unit
  | [] => pure ()
  | v :: vs => do
    putArg H v
    putArgs H vs

/-- The loop of `put_list` over `self.leaves`, `/repo/src/pymt/mt.py:57-58`: item `i` of the list as it is in round `i`.
The items are bytearrays (`/repo/src/pymt/merkletools.py:110-115`).  The first argument bounds the number of rounds;
`none` when they are not enough. -/
def putOwn (H : HashFn) : Nat → Nat → MTree → Option (Py Unit × MTree)
  | 0, _, _ => none
  | n + 1, i, t =>
    match t.leaves[i]? with
    | none => some (.ok (), t)
    | some b =>
      match putArg H (.bytearray b) t with
      | (.error e, t) => some (.error e, t)
      | (.ok _, t) => putOwn H n (i + 1) t

/-- `MerkleTree.put_list`, `/repo/src/pymt/mt.py:51-58`; the first argument as in `putOwn`. -/
def putListArg (H : HashFn) (n : Nat) (a : ListArg) (t : MTree) : Option (Py Unit × MTree) :=
  match a with
  | .items l => some (putArgs H l t)
  | .own => putOwn H n 0 t
  | .other => some (.error .typeError, t)

end MTree

end Pymt
