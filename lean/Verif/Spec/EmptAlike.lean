import Verif.Spec.Empt
import Verif.Model.EmptProofs

/-!
# Specification: the calls of an `EMPT` and what they give back
-/

namespace Pymt

/-- A call on an `EMPT`, `/repo/src/pymt/empt.py:180-405`, and the methods it inherits from `MutableMapping`.  `now` is
what `time.time()` gives when a proof is made.  Left out are `build_trie`, `get_sparse_trie` and the storages, which
show the nodes of the past (C131). -/
inductive ERequest where
  | get (k : Bytes)
  | getReference (k : Bytes)
  | contains (k : Bytes)
  | update (k : Bytes) (v : Value)
  | delete (k : Bytes)
  | pop (k : Bytes)
  | popitem
  | setdefault (k : Bytes) (v : Value)
  | clear
  | len
  | iter
  | items
  | poi (now k : Bytes)
  | poe (now k : Bytes)
  | verifyPoi (p : Proof Bytes)
  | verifyPoe (p : Proof Bytes)
  | root
  | rootHash

/-- What a call gives back when it does not raise. -/
inductive ETold where
  | none
  | value (v : Value)
  | ref (r : DataRef)
  | bool (b : Bool)
  | nat (n : Nat)
  | pair (p : Bytes × Value)
  | keys (l : List Bytes)
  | pairs (l : List (Bytes × Value))
  | proof (p : Proof Bytes)
  | root (r : Option Bytes)
  | hash (b : Bytes)

namespace ERequest

/-- The key a call is made with. -/
def keys : ERequest → List Bytes
  | get k | getReference k | contains k | update k _ | delete k | pop k | setdefault k _ | poi _ k | poe _ k => [k]
  | popitem | clear | len | iter | items | verifyPoi _ | verifyPoe _ | root | rootHash => []

/-- The calls that go through the keys. -/
def ordered : ERequest → Bool
  | popitem | clear | iter | items => true
  | _ => false

/-- The outcome of a call that changes the object, and the object afterwards. -/
def changing {α : Type} (m : M EMPT α) (f : α → ETold) (s : EMPT) : Py ETold × EMPT := ((m s).1.map f, (m s).2)

/-- Make the call: the outcome, and the object afterwards. -/
def run (E : Env) (s : EMPT) : ERequest → Py ETold × EMPT
  | get k => ((s.get E k).map .value, s)
  | getReference k => ((EMPT.getReference E s.trie k).map .ref, s)
  | contains k => ((s.contains E k).map .bool, s)
  | update k v => changing (EMPT.update E k v) (fun _ => .none) s
  | delete k => changing (EMPT.delete E k) (fun _ => .none) s
  | pop k => changing (EMPT.pop E k) .value s
  | popitem => changing (EMPT.popitem E) .pair s
  | setdefault k v => changing (EMPT.setdefault E k v) .value s
  | clear => changing (EMPT.clear E) (fun _ => .none) s
  | len => (.ok (.nat s.len), s)
  | iter => (.ok (.keys s.iter), s)
  | items => ((s.items E).map .pairs, s)
  | poi now k => ((s.getPoi E now k).map .proof, s)
  | poe now k => ((s.getPoe E now k).map .proof, s)
  | verifyPoi p => ((s.verifyPoi E p).map .bool, s)
  | verifyPoe p => ((s.verifyPoe E p).map .bool, s)
  | root => (.ok (.root s.trie.root), s)
  | rootHash => (.ok (.hash (s.trie.rootHash E)), s)

/-- Make calls one after the other; exceptions are caught and the object is used on. -/
def outcomes (E : Env) : List ERequest → EMPT → List (Py ETold)
  | [], _ => []
  | c :: cs, s => (c.run E s).1 :: outcomes E cs (c.run E s).2

/-- The object after the calls. -/
def final (E : Env) : List ERequest → EMPT → EMPT
  | [], s => s
  | c :: cs, s => final E cs (c.run E s).2

end ERequest

end Pymt
