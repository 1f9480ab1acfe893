import Verif.Model.Scripts
import Verif.Spec.Threads
import Verif.Spec.EmptBackend

/-!
# Specification: programs that use a trie
-/

namespace Pymt

namespace Script

variable {β : Type}

/-- What the program notes, and the trie in the end, when nobody else uses the dict. -/
def alone (E : Env) : Script β → MPT → List β × MPT
  | .over, t => ([], t)
  | .note x p, t => (x :: (p.alone E t).1, (p.alone E t).2)
  | .call c k, t => (k (c.seq E t).1).alone E (c.seq E t).2

/-- The calls it makes then. -/
def calls (E : Env) : Script β → MPT → List Call
  | .over, _ => []
  | .note _ p, t => p.calls E t
  | .call c k, t => c :: (k (c.seq E t).1).calls E (c.seq E t).2

end Script

/-- What theorems about programs with a trie each assume: the keys of the calls that a program would make alone are short
enough, and no two nodes that the programs would write on their own collide. -/
structure Private {β : Type} (E : Env) (secure : Nat → Bool) (program : Nat → Script β) (log : List Bytes) : Prop where
  fits : ∀ j, ∀ c ∈ (program j).calls E (MPT.new E (secure j)), Fits E (secure j) c.key
  all : ∀ j, ∀ x ∈ ((program j).alone E (MPT.new E (secure j))).2.store.written, x ∈ log
  log : LogOk E log

/-- A call on a `SparseEMPT` made by a client that is alone. -/
def SCall.seq (E : Env) (c : SCall) (t : MPT) : Py SAns × MPT :=
  match c with
  | .update k v => ((Sparse.update E k v t).1.map (fun _ => .none), (Sparse.update E k v t).2)
  | .delete k => ((Sparse.delete E k t).1.map (fun _ => .none), (Sparse.delete E k t).2)
  | .reference k => ((EMPT.getReference E t k).map .ref, t)
  | .contains k => ((t.contains E k).map .bool, t)

/-- Calls on a `SparseEMPT` one after the other. -/
def SCall.seqAll (E : Env) : List SCall → MPT → List (Py SAns) × MPT
  | [], t => ([], t)
  | c :: l, t => ((c.seq E t).1 :: (seqAll E l (c.seq E t).2).1, (seqAll E l (c.seq E t).2).2)

/-- The key a call names. -/
def SCall.key : SCall → Bytes
  | .update k _ => k
  | .delete k => k
  | .reference k => k
  | .contains k => k

end Pymt
