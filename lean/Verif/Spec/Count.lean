import Verif.Spec.Collect

/-!
# Specification: the nodes of a trie
-/

namespace Pymt

/-- `L` lists the nodes of a trie, each once: the references that can be reached from the root (for an embedded node the
reference is the node). -/
structure Counted (E : Env) (t : MPT) (L : List Bytes) : Prop where
  nodup : L.Nodup
  all : ∀ r, r ∈ L ↔ r ≠ [] ∧ r ≠ emptyHash E ∧ ∃ root, t.root = some root ∧ Reaches t.store.kv root r

end Pymt
