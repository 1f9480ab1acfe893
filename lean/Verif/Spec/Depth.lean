import Verif.Model.Node

/-!
# How deep RLP items nest

pyrlp decodes by recursion: `consume_item` calls `consume_payload`, which calls `consume_item` for the elements of a
list.  `rlpDecode` (Model/Rlp) leaves the interpreter's stack out; here it is put back in.
-/

namespace Pymt

mutual
/-- How many lists are inside each other: what `rlp.decode` returns in `/repo/src/pymt/utils/node.py:49,89`. -/
def Item.depth : Item → Nat
  | .str _ => 0
  | .list l => Item.depthList l + 1
/-- The largest depth of the elements of a list. -/
def Item.depthList : List Item → Nat
  | [] => 0
  | x :: xs => max (Item.depth x) (Item.depthList xs)
end

/-- `rlp.decode(b)` as called in `/repo/src/pymt/utils/node.py:49,89`, when the stack has room for lists nested `d`
deep (two frames of pyrlp for each level): RecursionError for deeper ones. -/
def rlpDecodeWithin (d : Nat) (b : Bytes) : Py Item := do
  let x ← rlpDecode b
  if x.depth ≤ d then .ok x else .error .recursion

end Pymt
