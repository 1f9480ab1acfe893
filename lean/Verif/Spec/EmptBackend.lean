import Verif.Spec.Backend
import Verif.Spec.EmptTurns
import Verif.Model.EmptBackend

/-!
# Specification: what a data storage has to do
-/

namespace Pymt

/-- A data storage that does what a dict does. -/
structure DataBackend.Faithful (D : DataBackend) (view : D.σ → Bytes → Option Value) : Prop where
  get : ∀ k s, (D.getItem k s).1 = view s k
  get_view : ∀ k s, view (D.getItem k s).2 = view s
  set_view : ∀ k v s k', view (D.setItem k v s) k' = if k' = k then some v else view s k'
  del : ∀ k s, (D.delItem k s).1 = (view s k).isSome
  del_view : ∀ k s k', view (D.delItem k s).2 k' = if k' = k then none else view s k'

/-- The same calls on an `EMPT` over dicts: outcomes and object. -/
def ECall.seqAll (E : Env) : List ECall → EMPT → List (Py EAns) × EMPT
  | [], s => ([], s)
  | c :: l, s => ((c.seq E s).1 :: (seqAll E l (c.seq E s).2).1, (seqAll E l (c.seq E s).2).2)

/-- A journal: changes are appended, deletions as well. -/
def journal : DataBackend where
  σ := List (Bytes × Option Value)
  getItem k s := ((dget s k).join, s)
  setItem k v s := (k, some v) :: s
  delItem k s := ((dget s k).join.isSome, (k, none) :: s)

end Pymt
