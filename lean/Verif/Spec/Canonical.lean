import Verif.Spec.Nibbles
import Verif.Model.Rlp

/-!
# Which RLP items are nodes

Written without the decoder: the shape of a node in the Yellow Paper (appendix D), for the items which
`Node.decode` (`/repo/src/pymt/utils/node.py:61-118`) gets from `rlp.decode`.
-/

namespace Pymt

/-- A reference as `Node.encode` writes it: nothing, a hash (or anything of 32 bytes and more), a single
byte below `0x80`, or a nested item shorter than 32 bytes. -/
def GoodRef : Item → Prop
  | .str b => b = [] ∨ 32 ≤ b.length ∨ ∃ c : UInt8, b = [c] ∧ c.toNat < 128
  | .list l => (Item.encode (.list l)).length < 32

/-- The items of a node in the form the encoder produces: a hex-prefix path and a value, a hex-prefix
path and a reference, or sixteen references and a value. -/
def CanonNode (l : List Item) : Prop :=
  (∃ q d, l = [.str (hp true q), .str d]) ∨
  (∃ q x, l = [.str (hp false q), x] ∧ GoodRef x) ∨
  (∃ rs d, rs.length = 16 ∧ l = rs ++ [.str d] ∧ ∀ x ∈ rs, GoodRef x)

/-- The items which have the outer shape of a node: a non-empty path string and, if bit `0x20` of its
first byte is set, a value, otherwise anything; or sixteen items and a value. -/
def NodeLike (l : List Item) : Prop :=
  (∃ (c : UInt8) (p d : Bytes), c.toNat / 32 % 2 = 1 ∧ l = [.str (c :: p), .str d]) ∨
  (∃ (c : UInt8) (p : Bytes) (x : Item), c.toNat / 32 % 2 = 0 ∧ l = [.str (c :: p), x]) ∨
  (∃ (rs : List Item) (d : Bytes), rs.length = 16 ∧ l = rs ++ [.str d])

end Pymt
