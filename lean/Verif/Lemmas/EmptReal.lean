import Verif.Spec.ToyEmpt

/-!
# Counterexamples for `EMPT`, computed with keccak-256

Apart from the theorems that use them because the kernel needs a while for these computations.
-/

namespace Pymt
namespace Props

/-- Two keys that share their first four bits only. -/
def splitOps : List EOp := [.update [0x12, 0x34] (.bytes [1]), .update [0x13, 0x45] (.bytes [2])]

theorem split_valid : EValid realEnv false splitOps [[0x12]] := evalid_of (by decide +kernel)

theorem split_absent : econtents splitOps [0x12] = none := by decide +kernel

theorem split_coll : CollFree realEnv (([0x12] ++ (Value.bytes [0x34, 1]).payload) :: refHashed splitOps) :=
  collFree_of (by decide +kernel)

theorem split_get : EMPT.get realEnv
    { trie := (EMPT.after realEnv false splitOps).trie, data := [([0x12], .bytes [0x34, 1])] } [0x12] =
    .ok (.bytes [0x34, 1]) := by decide +kernel

theorem split_reference : EMPT.getReference realEnv (EMPT.after realEnv false splitOps).trie [0x12] =
    .ok ⟨[0x12, 0x34], [1]⟩ := by decide +kernel

/-- A key and a longer one. -/
def nestedOps : List EOp := [.update [0x12] (.bytes [1]), .update [0x12, 0x34] (.bytes [2])]

theorem nested_valid : EValid realEnv false nestedOps [[0x12, 0x56]] := evalid_of (by decide +kernel)

theorem nested_absent : econtents nestedOps [0x12, 0x56] = none := by decide +kernel

theorem nested_contains : (EMPT.after realEnv false nestedOps).contains realEnv [0x12, 0x56] = .ok true := by
  decide +kernel

end Props
end Pymt
