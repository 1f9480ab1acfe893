import Verif.Model.EmptThreads
import Verif.Spec.Empt

/-!
# Specification: several threads that write to one `EMPT`
-/

namespace Pymt

/-- The key a call names. -/
def ECall.key : ECall → Bytes
  | .update k _ => k
  | .delete k => k
  | .get k => k
  | .contains k => k

/-- What the full statement of C96 assumes: keys are short enough, values are not gigantic, no two nodes collide among
those that some interleaving writes, and in secure mode no two keys have the same hash. -/
structure ECrowd (E : Env) (secure : Bool) (calls : Nat → List ECall) (log : List Bytes) : Prop where
  fits : ∀ j, ∀ c ∈ calls j, Fits E secure c.key
  sizes : ∀ j k v, .update k v ∈ calls j → k.length + v.payload.length < 2 ^ 60
  all : ∀ sched, ∀ x ∈ ((EWorld.new E secure calls).run E sched).obj.trie.store.written, x ∈ log
  log : LogOk E log
  keys : secure = true → ∀ j j', ∀ c ∈ calls j, ∀ c' ∈ calls j', E.keccak c.key = E.keccak c'.key → c.key = c'.key

/-- The thread has nothing left to do. -/
def EWorld.idle (w : EWorld) (j : Nat) : Bool := (w.threads j).cur.isNone && (w.threads j).rest.isEmpty

end Pymt
