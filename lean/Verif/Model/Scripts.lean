import Verif.Model.EmptThreads

/-!
# Programs that use a trie: `EMPT` and `SparseEMPT` objects of threads (`/repo/src/pymt/empt.py`)

An `EMPT` or `SparseEMPT` that only one thread uses touches shared state only through its trie.  Its calls are therefore
programs that make calls on the trie and compute in between.
-/

namespace Pymt

/-- A program that uses a trie: it is over, or notes something, or makes a call on the trie and goes on with the outcome
(`/repo/src/pymt/mpt.py:138-270`). -/
inductive Script (β : Type) where
  | over
  | note (x : β) (rest : Script β)
  | call (c : Call) (next : Py Ans → Script β)

namespace Script

variable {β : Type}

/-- The next call of the program, after calls with these outcomes.  `/repo/src/pymt/empt.py:240-329, 485-554`. -/
def next : Script β → List (Py Ans) → Option Call
  | .over, _ => none
  | .note _ p, l => p.next l
  | .call c _, [] => some c
  | .call _ k, a :: l => (k a).next l

/-- What the program has noted, after calls with these outcomes.  `/repo/src/pymt/empt.py:240-329, 485-554`. -/
def noted : Script β → List (Py Ans) → List β
  | .over, _ => []
  | .note x p, l => x :: p.noted l
  | .call _ _, [] => []
  | .call _ k, a :: l => (k a).noted l

end Script

/-- Threads that run programs, each with a trie of its own, all over one dict (`/repo/src/pymt/mpt.py:54-75`). -/
def Script.choice {β : Type} (program : Nat → Script β) (w : World) (j : Nat) : Option (Nat × Call) :=
  ((program j).next (w.threads j).outs).map (j, ·)

/-- A call on a `SparseEMPT`.  `/repo/src/pymt/empt.py:485-554`. -/
inductive SCall where
  | update (key : Bytes) (value : Value)
  | delete (key : Bytes)
  | reference (key : Bytes)
  | contains (key : Bytes)
  deriving DecidableEq

/-- What a call on a `SparseEMPT` returns.  `/repo/src/pymt/empt.py:485-554`. -/
inductive SAns where
  | none
  | ref (r : DataRef)
  | bool (b : Bool)
  deriving DecidableEq

/-- The calls of a `SparseEMPT`, `/repo/src/pymt/empt.py:485-553` (`get_reference`, `update`, `delete`, `contains`), with what
comes after them.  A call of the trie never returns something of another type; the model would raise TypeError. -/
def SCall.script {β : Type} (E : Env) (c : SCall) (k : Py SAns → Script β) : Script β :=
  match c with
  | .update _ (.obj _ false _ _) => k (.error .attributeError)
  | .update _ (.obj _ true _ _) => k (.error .typeError)
  | .update key v =>
    match DataRef.ofValue key v with
    | .error e => k (.error e)
    | .ok ref => .call (.update key (ref.encode E)) fun a => k (a.map fun _ => .none)
  | .delete key => .call (.contains key) fun
    | .ok (.bool true) => .call (.delete key) fun a => k (a.map fun _ => .none)
    | .ok (.bool false) => k (.error .keyNotFound)
    | .ok _ => k (.error .typeError)
    | .error e => k (.error e)
  | .reference key => .call (.get key) fun
    | .ok (.value enc) => k ((DataRef.decode E enc).map .ref)
    | .ok _ => k (.error .typeError)
    | .error e => k (.error e)
  | .contains key => .call (.contains key) fun
    | .ok (.bool b) => k (.ok (.bool b))
    | .ok _ => k (.error .typeError)
    | .error e => k (.error e)

/-- A program that makes calls on a `SparseEMPT` (`/repo/src/pymt/empt.py:485-553`) and notes their outcomes. -/
def sparseScript (E : Env) : List SCall → Script (Py SAns)
  | [] => .over
  | c :: cs => c.script E fun a => .note a (sparseScript E cs)

/-- The calls of an `EMPT`, `/repo/src/pymt/empt.py:240-328`, with what comes after them.  `d` is its data storage, a dict that
only this thread uses. -/
def ECall.script {β : Type} (E : Env) (d : Dict Value) (c : ECall) (k : Py EAns → Dict Value → Script β) : Script β :=
  match c with
  | .update _ (.obj _ false _ _) => k (.error .notImplemented) d
  | .update _ (.obj _ true false _) => k (.error .notImplemented) d
  | .update key v =>
    match DataRef.ofValue key v with
    | .error e => k (.error e) d
    | .ok ref => .call (.update key (ref.encode E)) fun
      | .ok _ => k (.ok .none) (dset d key v)
      | .error e => k (.error e) d
  | .delete key => .call (.contains key) fun
    | .ok (.bool true) =>
      match dgetItem d key with
      | .error e => k (.error e) d
      | .ok _ => .call (.delete key) fun a => k (a.map fun _ => .none) (ddel d key)
    | .ok (.bool false) => k (.error .keyNotFound) d
    | .ok _ => k (.error .typeError) d
    | .error e => k (.error e) d
  | .get key =>
    match dgetItem d key with
    | .error e => k (.error e) d
    | .ok data => .call (.get key) fun
      | .ok (.value enc) => k ((EMPT.compareRef E key enc data).map .value) d
      | .ok _ => k (.error .typeError) d
      | .error e => k (.error e) d
  | .contains key => .call (.contains key) fun
    | .ok (.bool b) => k (.ok (.bool b)) d
    | .ok _ => k (.error .typeError) d
    | .error e => k (.error e) d

/-- A program that makes calls on an `EMPT` (`/repo/src/pymt/empt.py:240-328`) and notes their outcomes. -/
def emptScript (E : Env) : Dict Value → List ECall → Script (Py EAns)
  | _, [] => .over
  | d, c :: cs => c.script E d fun a d => .note a (emptScript E d cs)

end Pymt
