import Verif.Spec.History

/-!
# Specification: the calls of a trie and what they give back
-/

namespace Pymt

/-- A call on an `MPT`, `/repo/src/pymt/mpt.py:77-489`.  `now` is what `time.time()` gives (line 300 and 410).
Left out are `len`, `encode` and the storage, which show the past (C131, C132). -/
inductive Request where
  | get (k : Bytes)
  | contains (k : Bytes)
  | update (k v : Bytes)
  | delete (k : Bytes)
  | poi (now k : Bytes)
  | poe (now k : Bytes)
  | verifyPoi (p : Proof Bytes)
  | verifyPoe (p : Proof Bytes)
  | root
  | rootHash

/-- What a call gives back when it does not raise. -/
inductive Told where
  | none
  | value (v : Bytes)
  | bool (b : Bool)
  | proof (p : Proof Bytes)
  | root (r : Option Bytes)

namespace Request

/-- The key a call is made with. -/
def keys : Request → List Bytes
  | get k | contains k | update k _ | delete k | poi _ k | poe _ k => [k]
  | verifyPoi _ | verifyPoe _ | root | rootHash => []

/-- Make the call: the outcome, and the object afterwards. -/
def run (E : Env) (t : MPT) : Request → Py Told × MPT
  | get k => ((t.get E k).map .value, t)
  | contains k => ((t.contains E k).map .bool, t)
  | update k v => (((MPT.update E k v t).1).map fun _ => .none, (MPT.update E k v t).2)
  | delete k => (((MPT.delete E k t).1).map fun _ => .none, (MPT.delete E k t).2)
  | poi now k => ((t.getPoi E now k).map .proof, t)
  | poe now k => ((t.getPoe E now k).map .proof, t)
  | verifyPoi p => ((t.verifyPoi E p).map .bool, t)
  | verifyPoe p => ((t.verifyPoe E p).map .bool, t)
  | root => (.ok (.root t.root), t)
  | rootHash => (.ok (.value (t.rootHash E)), t)

/-- Make calls one after the other; exceptions are caught and the object is used on. -/
def outcomes (E : Env) : List Request → MPT → List (Py Told)
  | [], _ => []
  | c :: cs, t => (c.run E t).1 :: outcomes E cs (c.run E t).2

/-- The object after the calls. -/
def final (E : Env) : List Request → MPT → MPT
  | [], t => t
  | c :: cs, t => final E cs (c.run E t).2

/-- The only differences the past can make, and only while the trie is empty: `root()` is None or the hash of the
empty node, and `get` raises ValueError or KeyError. -/
def Near (E : Env) (c : Request) (x y : Py Told) : Prop :=
  x = y ∨
  (∃ k, c = get k ∧ ∀ z ∈ [x, y], z = .error .valueError ∨ z = .error .keyError) ∨
  (c = root ∧ ∀ z ∈ [x, y], z = .ok (.root .none) ∨ z = .ok (.root (some (emptyHash E))))

end Request

end Pymt
