import Verif.Spec.Collect

/-!
# Specification: a dict without unused nodes
-/

namespace Pymt

/-- `t'` is `t` after everything that cannot be reached from the root was removed from the dict. -/
structure Trimmed (t t' : MPT) : Prop where
  less : Collected t t'
  dict : (t'.store.kv.map (·.1)).Nodup
  used : ∀ k v, dget t'.store.kv k = some v → ∃ root, t.root = some root ∧ Reaches t.store.kv root k

end Pymt
