import Verif.Spec.EmptTurns
import Verif.Model.Interrupt

/-!
# Specification: histories of an `EMPT` in which calls are ended by exceptions from elsewhere
-/

namespace Pymt

/-- A call, and, if it is ended by an exception from elsewhere, after how many accesses, and the exception. -/
structure EAttempt where
  call : ECall
  stop : Option (Nat × Err)
  deriving DecidableEq

namespace EAttempt

/-- Outcome of a call, and the object afterwards. -/
def run (E : Env) (a : EAttempt) (s : EMPT) : Py EAns × EMPT :=
  match a.stop with
  | none => a.call.seq E s
  | some (n, e) => (.error e, (a.call.prog E s.trie.secure).cut n s)

/-- The call was not ended before it had made all of its accesses. -/
def whole (E : Env) (a : EAttempt) (s : EMPT) : Bool :=
  match a.stop with
  | none => true
  | some (n, _) => (a.call.prog E s.trie.secure).accesses s ≤ n

/-- The call was ended before it had made all of its accesses, but not before the root or the data had changed. -/
def half (E : Env) (a : EAttempt) (s : EMPT) : Bool :=
  !a.whole E s && !((a.run E s).2.trie.root == s.trie.root && (a.run E s).2.data == s.data)

/-- The object after a history. -/
def all (E : Env) (l : List EAttempt) (s : EMPT) : EMPT := l.foldl (fun s a => (a.run E s).2) s

/-- The calls of a history that may have changed the `EMPT` and that made all of their accesses. -/
def counted (E : Env) : List EAttempt → EMPT → List EOp
  | [], _ => []
  | a :: l, s => (if a.whole E s then a.call.op?.toList else []) ++ counted E l (a.run E s).2

/-- No call that names the key has been ended half way since the last one that succeeded in writing or deleting it. -/
def intact (E : Env) (k : Bytes) : Bool → List EAttempt → EMPT → Bool
  | b, [], _ => b
  | b, a :: l, s =>
    intact E k
      (if a.call.op?.map EOp.key = some k then
        (if a.half E s then false else if a.whole E s ∧ (a.call.seq E s).1 = .ok .none then true else b)
       else b)
      l (a.run E s).2

end EAttempt

/-- What theorems about such a history assume: keys are short enough, sizes are below 2^60, no two nodes that were
written collide, and in secure mode no two keys.  `ks` are further keys used in queries. -/
structure EAttempt.Fine (E : Env) (secure : Bool) (l : List EAttempt) (ks : List Bytes) : Prop where
  fits : ∀ k ∈ ks ++ l.map (fun a => a.call.key), Fits E secure k
  sizes : ∀ a ∈ l, ∀ k v, a.call = .update k v → k.length + v.payload.length < 2 ^ 60
  log : LogOk E (EAttempt.all E l (EMPT.new E secure)).trie.store.written
  keys : secure = true → CollFree E (ks ++ l.map (fun a => a.call.key))

end Pymt
