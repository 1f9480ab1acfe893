import Verif.Model.Py

/-!
# Specification: a finite map and its histories

Independent of the trie: what a history of `update`/`delete` calls means.
-/

namespace Pymt

/-- A call that changes a map. -/
inductive Op where
  | update (key value : Bytes)
  | delete (key : Bytes)
  deriving DecidableEq, Repr

/-- The key a call names. -/
def Op.key : Op → Bytes
  | update k _ => k
  | delete k => k

/-- The call does not store the empty byte string. -/
def Op.NonEmpty : Op → Prop
  | update _ v => v ≠ []
  | delete _ => True

/-- Contents of a map: the value of every key. -/
abbrev Contents := Bytes → Option Bytes

/-- What a call does to the contents.  Deleting an absent key changes nothing. -/
def Op.apply (m : Contents) : Op → Contents
  | update k v => fun k' => if k' = k then some v else m k'
  | delete k => fun k' => if k' = k then none else m k'

/-- Contents after a history, from given contents. -/
def contentsFrom (m : Contents) (ops : List Op) : Contents := ops.foldl Op.apply m

/-- Contents after a history that starts with an empty map. -/
def contents (ops : List Op) : Contents := contentsFrom (fun _ => none) ops

/-- No key with an empty value is a proper prefix of another key. -/
def Clean (m : Contents) : Prop := ∀ k k', m k = some [] → m k' ≠ none → k <+: k' → k' = k

/-- What a call does to the contents as a list of pairs. -/
def Op.applyPairs (l : List (Bytes × Bytes)) : Op → List (Bytes × Bytes)
  | update k v => l.filter (fun e => e.1 ≠ k) ++ [(k, v)]
  | delete k => l.filter (fun e => e.1 ≠ k)

/-- Contents after a history as a list of pairs. -/
def pairs (ops : List Op) : List (Bytes × Bytes) := ops.foldl Op.applyPairs []

/-- The same history with other keys. -/
def Op.mapKey (f : Bytes → Bytes) : Op → Op
  | update k v => update (f k) v
  | delete k => delete (f k)

instance (op : Op) : Decidable op.NonEmpty := by
  cases op <;> simp only [Op.NonEmpty] <;> infer_instance

end Pymt
