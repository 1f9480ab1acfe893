import Verif.Model.CopyThreads
import Verif.Spec.Watching
import Verif.Spec.EmptWatching

/-!
# Specification: copies of a trie
-/

namespace Pymt

/-- Two trie objects give the same answers and the same proofs for a key. -/
def SameAnswers (E : Env) (t t' : MPT) (k : Bytes) : Prop :=
  t.get E k = t'.get E k ∧ t.contains E k = t'.contains E k ∧
  (∀ now, t.getPoi E now k = t'.getPoi E now k) ∧ ∀ now, t.getPoe E now k = t'.getPoe E now k

/-- A trie object gives the answers and proofs of another one for a key, or raises KeyError. -/
def SameOrKeyError (E : Env) (t t' : MPT) (k : Bytes) : Prop :=
  (t.get E k = .error .keyError ∨ t.get E k = t'.get E k) ∧
  (t.contains E k = .error .keyError ∨ t.contains E k = t'.contains E k) ∧
  (∀ now, t.getPoi E now k = .error .keyError ∨ t.getPoi E now k = t'.getPoi E now k) ∧
  ∀ now, t.getPoe E now k = .error .keyError ∨ t.getPoe E now k = t'.getPoe E now k

end Pymt
