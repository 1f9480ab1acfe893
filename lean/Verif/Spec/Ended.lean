import Verif.Model.Ended
import Verif.Spec.Threads

/-!
# Specification: threads whose calls may be ended by an exception from elsewhere
-/

namespace Pymt

/-- New tries over one dict, and threads whose calls may be ended, after what happened. -/
def triesAfter (E : Env) (secure : Nat → Bool) (calls : Nat → List (Nat × Call)) (l : List Happening) :
    Shop Tries (Nat × Call) (Nat × Prog Ans) (Option (Py Ans)) :=
  (mptMachine E).course l (Shop.new (Tries.new E secure) calls)

/-- A new `EMPT`, and threads whose calls may be ended, after what happened. -/
def emptAfter (E : Env) (secure : Bool) (calls : Nat → List ECall) (l : List Happening) :
    Shop EMPT ECall (EProg EAns) (Option (Py EAns)) :=
  (emptMachine E).course l (Shop.new { trie := MPT.new E secure, data := [] } calls)

/-- Thread `j` is in the middle of its call number `m`. -/
def Shop.Running {S C P O : Type} (w : Shop S C P O) (j m : Nat) : Prop :=
  (w.jobs j).outs.length = m ∧ (w.jobs j).cur.isSome = true

/-- What theorems about calls that may be ended assume: keys are short enough, and no two nodes collide among those that may
be written. -/
structure EndedCrowd (E : Env) (secure : Nat → Bool) (calls : Nat → List (Nat × Call)) (log : List Bytes) : Prop where
  fits : ∀ j, ∀ c ∈ calls j, Fits E (secure c.1) c.2.key
  all : ∀ l, ∀ x ∈ (triesAfter E secure calls l).shared.store.written, x ∈ log
  log : LogOk E log

/-- Writers of trie `i` take turns, as they do when they hold a lock while they call `update` or `delete` (and give it back
when an exception comes): no two threads are in the middle of such calls. -/
def EndedTurns (E : Env) (secure : Nat → Bool) (calls : Nat → List (Nat × Call)) (l : List Happening) (i : Nat) : Prop :=
  ∀ l1, l1 <+: l → ∀ j j' c c', let w := triesAfter E secure calls l1
    (w.jobs j).cur.isSome = true → (calls j)[(w.jobs j).outs.length]? = some (i, c) → c.op? ≠ none →
    (w.jobs j').cur.isSome = true → (calls j')[(w.jobs j').outs.length]? = some (i, c') → c'.op? ≠ none → j = j'

end Pymt
