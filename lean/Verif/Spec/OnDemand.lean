import Verif.Lemmas.Threads
import Verif.Spec.Backend
import Verif.Model.ThreadProofs

/-!
# Specification: a client that loads missing nodes on demand

    while True:
        try:
            return trie.get(key)            # or any other call
        except KeyError as e:
            node = ask(e.args[0])           # from somebody else, who may lie
            if node is None or keccak_hash(node) != e.args[0] or len(node) < 32: raise
            storage[e.args[0]] = node
-/

namespace Pymt

/-- The key in the KeyError that ends a call because a node is missing (`self._storage[reference]`,
`/repo/src/pymt/mpt.py:550`); `none` when no node is missing. -/
def Prog.wants {α : Type} : Prog α → MPT → Option Bytes
  | .done _, _ => none
  | .load k n, t =>
    match dget t.store.kv k with
    | some v => (n v).wants t
    | none => some k
  | .save k v n, t => n.wants { t with store := t.store.set k v }
  | .root n, t => (n t.root).wants t
  | .setRoot r n, t => n.wants { t with root := r }

/-- The nodes a call reads from the storage, `/repo/src/pymt/mpt.py:550`, in this order. -/
def Prog.loads {α : Type} : Prog α → MPT → List Bytes
  | .done _, _ => []
  | .load k n, t =>
    match dget t.store.kv k with
    | some v => k :: (n v).loads t
    | none => [k]
  | .save k v n, t => n.loads { t with store := t.store.set k v }
  | .root n, t => (n t.root).loads t
  | .setRoot r n, t => n.loads { t with root := r }

/-- The loop above, with at most `n` nodes loaded. -/
def Prog.fetch {α : Type} (E : Env) (ask : Bytes → Option Bytes) (p : Prog α) : Nat → MPT → Py α × MPT
  | 0, t => p.alone t
  | n + 1, t =>
    match p.wants t with
    | none => p.alone t
    | some h =>
      match ask h with
      | none => p.alone t
      | some v =>
        if E.keccak v = h ∧ 32 ≤ v.length then
          p.fetch E ask n { (p.alone t).2 with store := (p.alone t).2.store.set h v }
        else p.alone t

/-- A series of calls, each with this loop. -/
def Call.fetchAll (E : Env) (ask : Bytes → Option Bytes) (n : Nat) : List Call → MPT → List (Py Ans) × MPT
  | [], t => ([], t)
  | c :: l, t =>
    let r := (c.prog E t.secure).fetch E ask n t
    (r.1 :: (fetchAll E ask n l r.2).1, (fetchAll E ask n l r.2).2)

/-- The largest number of nodes that one of the calls reads, on a complete object. -/
def Call.mostLoads (E : Env) : List Call → MPT → Nat
  | [], _ => 0
  | c :: l, t => max ((c.prog E t.secure).loads t).length (mostLoads E l (c.seq E t).2)

/-- The calls that did not end with KeyError. -/
def madeCalls (calls : List Call) (rs : List (Py Ans)) : List Call :=
  (calls.zip rs).filterMap fun x => if x.2 = .error .keyError then none else some x.1

end Pymt
