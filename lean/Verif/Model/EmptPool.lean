import Verif.Model.EmptThreads

/-!
# Threads, each with an `EMPT` of its own, over the same two dicts (`/repo/src/pymt/empt.py`)

Objects made as `EMPT(a, b)` with the same dicts `a` and `b`: each has a root of its own, and all share the trie storage and the
data storage.
-/

namespace Pymt

/-- Threads; `_storage` of all the tries (`/repo/src/pymt/mpt.py:54-75`); the roots and modes of the tries, that of thread `j`
at `j`; and `_data_storage` of all the `EMPT` objects (`/repo/src/pymt/empt.py:118-178`). -/
structure EPool where
  threads : Nat → EThread
  store : Store
  roots : Nat → Option Bytes
  secure : Nat → Bool
  data : Dict Value

namespace EPool

/-- The object of thread `j`.  `/repo/src/pymt/empt.py:118-178`. -/
def obj (w : EPool) (j : Nat) : EMPT :=
  { trie := { store := w.store, root := w.roots j, secure := w.secure j }, data := w.data }

/-- The object of thread `j` has changed: its root, and the dicts, which are shared.  `/repo/src/pymt/empt.py:118-178`. -/
def put (w : EPool) (j : Nat) (s : EMPT) : EPool :=
  { w with store := s.trie.store, roots := fun i => if i = j then s.trie.root else w.roots i, data := s.data }

/-- Replace thread `j`.  `/repo/src/pymt/empt.py:240-329`. -/
def setThread (w : EPool) (j : Nat) (th : EThread) : EPool :=
  { w with threads := fun i => if i = j then th else w.threads i }

/-- Thread `j` runs until it has touched shared state once, begun a call or ended one.  `/repo/src/pymt/empt.py:240-329`. -/
def step (E : Env) (j : Nat) (w : EPool) : EPool :=
  let th := w.threads j
  match th.cur with
  | none =>
    match th.rest with
    | [] => w
    | c :: rest => w.setThread j { th with cur := some (c.prog E (w.secure j)), rest := rest }
  | some (.done r) => w.setThread j { th with cur := none, outs := th.outs ++ [r] }
  | some p => (w.setThread j { th with cur := some (EWorld.access p (w.obj j)).2 }).put j (EWorld.access p (w.obj j)).1

/-- A schedule: which thread moves next.  `/repo/src/pymt/empt.py:240-329`. -/
def run (E : Env) (sched : List Nat) (w : EPool) : EPool := sched.foldl (fun w j => w.step E j) w

/-- For every thread an `EMPT(a, b, secure=secure j)` with the same empty dicts (`/repo/src/pymt/empt.py:118-178`), and threads
about to make their calls. -/
def new (E : Env) (secure : Nat → Bool) (calls : Nat → List ECall) : EPool where
  threads j := { cur := none, rest := calls j, outs := [] }
  store := Store.empty
  roots _ := some (emptyHash E)
  secure := secure
  data := []

end EPool
end Pymt
