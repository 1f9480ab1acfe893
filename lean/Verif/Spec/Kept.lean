import Verif.Spec.Map

/-!
# Specification: what is kept of a history with empty values

A variant of the map of `Spec/Map.lean` in which empty values are not kept at keys that another key
properly extends.  Written on lists of pairs, independently of the trie.
-/

namespace Pymt

/-- `k'` properly extends `k`. -/
def Beyond (k k' : Bytes) : Prop := k' ≠ k ∧ k <+: k'

instance (k k' : Bytes) : Decidable (Beyond k k') := by unfold Beyond; infer_instance

/-- What a call does to the pairs kept.  `update` drops pairs with an empty value whose key the new key
properly extends, and drops an empty new value if some key kept properly extends the new key. -/
def Op.keep (l : List (Bytes × Bytes)) : Op → List (Bytes × Bytes)
  | update k v =>
    l.filter (fun e => e.1 ≠ k ∧ ¬ (e.2 = [] ∧ Beyond e.1 k)) ++
      (if v = [] ∧ ∃ e ∈ l, Beyond k e.1 then [] else [(k, v)])
  | delete k => l.filter (fun e => e.1 ≠ k)

/-- The pairs kept after a history. -/
def kept (ops : List Op) : List (Bytes × Bytes) := ops.foldl Op.keep []

end Pymt
