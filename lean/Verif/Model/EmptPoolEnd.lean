import Verif.Model.EmptPool
import Verif.Model.Ended

/-!
# Threads, each with an `EMPT` of its own over the same two dicts, whose calls may be ended (`/repo/src/pymt/empt.py`)

As in `Model/EmptPool.lean`; and, as in `Model/Ended.lean`, a call may be ended between two of its accesses of shared state, by
an exception that does not come from the code.
-/

namespace Pymt

/-- `_storage` of all the tries, their roots and modes (`/repo/src/pymt/mpt.py:54-75`), and `_data_storage` of all the `EMPT`
objects (`/repo/src/pymt/empt.py:118-178`). -/
structure EDicts where
  store : Store
  roots : Nat → Option Bytes
  secure : Nat → Bool
  data : Dict Value

namespace EDicts

/-- Object `i`.  `/repo/src/pymt/empt.py:118-178`. -/
def obj (s : EDicts) (i : Nat) : EMPT :=
  { trie := { store := s.store, root := s.roots i, secure := s.secure i }, data := s.data }

/-- Object `i` has changed: its root, and the dicts, which are shared.  `/repo/src/pymt/empt.py:118-178`. -/
def put (s : EDicts) (i : Nat) (o : EMPT) : EDicts :=
  { s with store := o.trie.store, roots := fun i' => if i' = i then o.trie.root else s.roots i', data := o.data }

/-- Objects `EMPT(a, b, secure=secure i)` with the same empty dicts.  `/repo/src/pymt/empt.py:118-178`. -/
def new (E : Env) (secure : Nat → Bool) : EDicts :=
  { store := Store.empty, roots := fun _ => some (emptyHash E), secure := secure, data := [] }

end EDicts

/-- Calls on `EMPT` objects, `/repo/src/pymt/empt.py:240-328`, as in `EPool.step`. -/
def poolMachine (E : Env) : Machine EDicts (Nat × ECall) (Nat × EProg EAns) (Py EAns) where
  enter s c := (c.1, c.2.prog E (s.secure c.1))
  move s p :=
    match p with
    | (_, .done r) => (s, .inr r)
    | (i, p) => (s.put i (EWorld.access p (s.obj i)).1, .inl (i, (EWorld.access p (s.obj i)).2))

/-- Thread `j` makes its calls on object `j` (`/repo/src/pymt/empt.py:240-328`). -/
def poolShop (E : Env) (secure : Nat → Bool) (calls : Nat → List ECall) :
    Shop EDicts (Nat × ECall) (Nat × EProg EAns) (Option (Py EAns)) :=
  Shop.new (EDicts.new E secure) fun j => (calls j).map fun c => (j, c)

end Pymt
