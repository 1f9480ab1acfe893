import Verif.Model.Empt
import Verif.Model.Threads

/-!
# Calls on an `EMPT` from several threads (`/repo/src/pymt/empt.py`)

As in `Model/Threads.lean` a call is a program that touches shared state one access at a time.  An `EMPT` has one dict
more, the data storage.
-/

namespace Pymt

/-- A call on an `EMPT` in progress.  The first five as in `Prog`, for the trie inside;
`data k`: `self._data_storage[k]`, `/repo/src/pymt/empt.py:250` (KeyError ends the call);
`setData`: `self._data_storage[key] = value`, line 304; `delData`: `del self._data_storage[key]`, line 317 (KeyError
when there is no such entry). -/
inductive EProg (α : Type) where
  | done (r : Py α)
  | load (k : Bytes) (next : Bytes → EProg α)
  | save (k v : Bytes) (next : EProg α)
  | root (next : Option Bytes → EProg α)
  | setRoot (r : Option Bytes) (next : EProg α)
  | data (k : Bytes) (next : Value → EProg α)
  | setData (k : Bytes) (v : Value) (next : EProg α)
  | delData (k : Bytes) (next : EProg α)

namespace EProg

/-- Sequencing; an exception ends the program.  `/repo/src/pymt/empt.py:240-329`. -/
def bind {α β : Type} : EProg α → (α → EProg β) → EProg β
  | .done (.ok a), f => f a
  | .done (.error e), _ => .done (.error e)
  | .load k n, f => .load k fun v => (n v).bind f
  | .save k v n, f => .save k v (n.bind f)
  | .root n, f => .root fun r => (n r).bind f
  | .setRoot r n, f => .setRoot r (n.bind f)
  | .data k n, f => .data k fun v => (n v).bind f
  | .setData k v n, f => .setData k v (n.bind f)
  | .delData k n, f => .delData k (n.bind f)

instance : Monad EProg where
  pure a := .done (.ok a)
  bind := bind

/-- A computation on data of the thread.  `/repo/src/pymt/empt.py:240-329`. -/
def lift {α : Type} (m : Py α) : EProg α := .done m

/-- `raise e`.  `/repo/src/pymt/empt.py:240-329`. -/
def raise {α : Type} (e : Err) : EProg α := .done (.error e)

/-- A call on `self._trie`.  `/repo/src/pymt/empt.py:178, 251, 318`. -/
def trie {α : Type} : Prog α → EProg α
  | .done r => .done r
  | .load k n => .load k fun v => trie (n v)
  | .save k v n => .save k v (trie n)
  | .root n => .root fun r => trie (n r)
  | .setRoot r n => .setRoot r (trie n)

/-- `self._data_storage[k]`.  `/repo/src/pymt/empt.py:250`. -/
def dataItem (k : Bytes) : EProg Value := .data k fun v => .done (.ok v)

end EProg

namespace EMPT

/-- The comparison at the end of `EMPT.get`, `/repo/src/pymt/empt.py:252-262`. -/
def compareRef (E : Env) (key enc : Bytes) (data : Value) : Py Value := do
  let ref ← DataRef.decode E enc
  let expected ← DataRef.ofValue key data
  if !ref.eq E expected then .error .invalidReference
  else return data

/-- `EMPT.get`, `/repo/src/pymt/empt.py:240-262`: the data storage is read before the trie.  `secure` is
`self._trie.secure`, which never changes. -/
def getCallP (E : Env) (secure : Bool) (key : Bytes) : EProg Value := do
  let data ← EProg.dataItem key
  let enc ← EProg.trie (MPT.getCallP E (if secure then E.keccak key else key))
  .lift (compareRef E key enc data)

/-- `EMPT.contains`, `/repo/src/pymt/empt.py:320-328`. -/
def containsCallP (E : Env) (secure : Bool) (key : Bytes) : EProg Bool :=
  .trie (MPT.containsCallP E (if secure then E.keccak key else key))

/-- The end of `EMPT.update`, `/repo/src/pymt/empt.py:299-304`: first the trie, then the data storage. -/
def putP (E : Env) (secure : Bool) (key : Bytes) (value : Value) : EProg Unit := do
  let ref ← EProg.lift (DataRef.ofValue key value)
  EProg.trie (MPT.updateCallP E (if secure then E.keccak key else key) (ref.encode E))
  .setData key value (.done (.ok ()))

/-- `EMPT.update`, `/repo/src/pymt/empt.py:270-304`. -/
def updateCallP (E : Env) (secure : Bool) (key : Bytes) : Value → EProg Unit
  | .obj _ false _ _ => .raise .notImplemented
  | .obj _ true false _ => .raise .notImplemented
  | value => putP E secure key value

/-- The end of `EMPT.delete`, `/repo/src/pymt/empt.py:317-318`: first the data storage, then the trie. -/
def dropP (E : Env) (secure : Bool) (key : Bytes) : EProg Unit :=
  .delData key (.trie (MPT.deleteCallP E (if secure then E.keccak key else key)))

/-- `EMPT.delete`, `/repo/src/pymt/empt.py:306-318`. -/
def deleteCallP (E : Env) (secure : Bool) (key : Bytes) : EProg Unit := do
  let present ← containsCallP E secure key
  if !present then .raise .keyNotFound
  else dropP E secure key

end EMPT

/-- A call a thread makes on an `EMPT`.  `/repo/src/pymt/empt.py:240-329`. -/
inductive ECall where
  | update (key : Bytes) (value : Value)
  | delete (key : Bytes)
  | get (key : Bytes)
  | contains (key : Bytes)
  deriving DecidableEq

/-- What a call returns.  `/repo/src/pymt/empt.py:240-329`. -/
inductive EAns where
  | none
  | value (v : Value)
  | bool (b : Bool)
  deriving DecidableEq

/-- The program of a call: `/repo/src/pymt/empt.py:270-304, 306-318, 240-262, 320-328`. -/
def ECall.prog (E : Env) (secure : Bool) : ECall → EProg EAns
  | .update k v => do EMPT.updateCallP E secure k v; return .none
  | .delete k => do EMPT.deleteCallP E secure k; return .none
  | .get k => do
    let v ← EMPT.getCallP E secure k
    return .value v
  | .contains k => do
    let b ← EMPT.containsCallP E secure k
    return .bool b

/-- A thread: the call in progress, the calls still to make, and the outcomes of the calls made (exceptions are
caught).  `/repo/src/pymt/empt.py:240-329`. -/
structure EThread where
  cur : Option (EProg EAns)
  rest : List ECall
  outs : List (Py EAns)

/-- Threads, and the `EMPT` object they all use (`/repo/src/pymt/empt.py:118-178`). -/
structure EWorld where
  threads : Nat → EThread
  obj : EMPT

namespace EWorld

/-- Replace thread `j`.  `/repo/src/pymt/empt.py:240-329`. -/
def setThread (w : EWorld) (j : Nat) (th : EThread) : EWorld :=
  { w with threads := fun i => if i = j then th else w.threads i }

/-- One access of a program: the object afterwards, and what is left of the program.
`/repo/src/pymt/empt.py:177-178, 240-329`. -/
def access : EProg EAns → EMPT → EMPT × EProg EAns
  | .done r, s => (s, .done r)
  | .load k n, s =>
    match dget s.trie.store.kv k with
    | some v => (s, n v)
    | none => (s, .done (.error .keyError))
  | .save k v n, s => ({ s with trie := { s.trie with store := s.trie.store.set k v } }, n)
  | .root n, s => (s, n s.trie.root)
  | .setRoot r n, s => ({ s with trie := { s.trie with root := r } }, n)
  | .data k n, s =>
    match dget s.data k with
    | some v => (s, n v)
    | none => (s, .done (.error .keyError))
  | .setData k v n, s => ({ s with data := dset s.data k v }, n)
  | .delData k n, s =>
    match dget s.data k with
    | some _ => ({ s with data := ddel s.data k }, n)
    | none => (s, .done (.error .keyError))

/-- Thread `j` runs until it has touched shared state once, begun a call or ended one.  `/repo/src/pymt/empt.py:240-329`. -/
def step (E : Env) (j : Nat) (w : EWorld) : EWorld :=
  let th := w.threads j
  match th.cur with
  | none =>
    match th.rest with
    | [] => w
    | c :: rest => w.setThread j { th with cur := some (c.prog E w.obj.trie.secure), rest := rest }
  | some (.done r) => w.setThread j { th with cur := none, outs := th.outs ++ [r] }
  | some p => { w.setThread j { th with cur := some (access p w.obj).2 } with obj := (access p w.obj).1 }

/-- A schedule: which thread moves next.  `/repo/src/pymt/empt.py:240-329`. -/
def run (E : Env) (sched : List Nat) (w : EWorld) : EWorld := sched.foldl (fun w j => w.step E j) w

/-- A new `EMPT({}, {}, secure=secure)`, and threads about to make their calls.  `/repo/src/pymt/empt.py:118-178`. -/
def new (E : Env) (secure : Bool) (calls : Nat → List ECall) : EWorld where
  threads j := { cur := none, rest := calls j, outs := [] }
  obj := { trie := { store := Store.empty, root := some (emptyHash E), secure := secure }, data := [] }

end EWorld
end Pymt
