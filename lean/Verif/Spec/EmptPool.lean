import Verif.Model.EmptPool
import Verif.Spec.EmptTurns
import Verif.Spec.EmptBackend
import Verif.Spec.EmptShared
import Verif.Spec.EmptCrowd

/-!
# Specification: threads, each with an `EMPT` of its own, over the same two dicts
-/

namespace Pymt

/-- The changes that a thread made, given its calls and their outcomes: those of the calls that returned. -/
def changesMade (h : List (ECall × Py EAns)) : List EOp :=
  h.filterMap fun e => match e.2 with
    | .ok _ => e.1.op?
    | .error _ => none

/-- What the outcome of a call must be, where `m` is what the thread itself has stored: others, who use the same data storage,
can make `get` raise KeyError or InvalidReferenceError and `delete` raise KeyError, but nothing more.  In particular `get` never
returns a value of other bytes than those stored by the thread, unless hashes collide. -/
def ECall.Fair (E : Env) (m : EContents) (c : ECall) (r : Py EAns) : Prop :=
  match c with
  | .update _ v => if v.storable then r = .ok .none else ∃ e, r = .error e
  | .delete k => if (m k).isSome then r = .ok .none ∨ r = .error .keyError else r = .error .keyNotFound
  | .contains k => r = .ok (.bool (m k).isSome)
  | .get k =>
    match m k with
    | none => ∃ e, r = .error e
    | some y => (∃ x, r = .ok (.value x) ∧ E.keccak (k ++ x.payload) = E.keccak (k ++ y.payload)) ∨
      r = .error .keyError ∨ r = .error .invalidReference

/-- What the theorem assumes: keys are short enough and none of a thread begins with another one of that thread (unless hashed),
values are not gigantic, and no two nodes collide among those that the threads write, whichever of their changes succeed. -/
structure PoolPeace (E : Env) (secure : Nat → Bool) (calls : Nat → List ECall) (log : List Bytes) : Prop where
  fits : ∀ j, ∀ c ∈ calls j, Fits E (secure j) c.key
  apart : ∀ j, KeysApart E (secure j) ((calls j).map ECall.key)
  size : ∀ j k v, ECall.update k v ∈ calls j → k.length + v.payload.length < 2 ^ 60
  all : ∀ j done, done.Sublist ((calls j).filterMap ECall.op?) →
    ∀ x ∈ (EMPT.after E (secure j) done).trie.store.written, x ∈ log
  log : LogOk E log

end Pymt
