import Verif.Spec.Threads
import Verif.Spec.Collect

/-!
# Specification: removing nodes from a dict that threads use
-/

namespace Pymt

/-- No thread is in the middle of a call that may change a trie or that reads the trie of another thread. -/
def World.Calm (calls : Nat → List (Nat × Call)) (w : World) : Prop :=
  ∀ j n i c, w.Running j n → (calls j)[n]? = some (i, c) → c.op? = none ∧ i = j

/-- A dict, threads that make calls on tries over it, and a collector that now and then removes entries that cannot be
reached from the current root of any of the tries.  `may` says when it does so; the list says which thread moved
when. -/
inductive Tended (E : Env) (secure : Nat → Bool) (calls : Nat → List (Nat × Call)) (may : World → Prop) :
    List Nat → World → Prop
  | new : Tended E secure calls may [] (World.new E secure calls)
  | step {sched : List Nat} {w : World} (h : Tended E secure calls may sched w) (j : Nat) :
      Tended E secure calls may (sched ++ [j]) (w.step E j)
  | sweep {sched : List Nat} {w : World} {st : Store} (h : Tended E secure calls may sched w) (hm : may w)
      (hc : ∀ i, Collected (w.obj i) { w.obj i with store := st }) :
      Tended E secure calls may sched { w with store := st }

end Pymt
