import Verif.Spec.Storage
import Verif.Spec.Partial

/-!
# Specification: removing nodes that are no longer in use

The package never removes a node from its storage.  A client may, and these are the rules.
-/

namespace Pymt

/-- What can be reached from a root through the storage `d` by following references (a reference shorter than 32 bytes
is the node itself). -/
inductive Reaches (d : Dict Bytes) (root : Bytes) : Bytes → Prop
  | root : Reaches d root root
  | inline {r r' : Bytes} (h : Reaches d root r) (hl : r.length < 32) (hm : Mentions r r') : Reaches d root r'
  | hash {r w r' : Bytes} (h : Reaches d root r) (hl : r.length = 32) (hw : dget d r = some w) (hm : Mentions w r') :
      Reaches d root r'

/-- `t'` is `t` after entries of the dict were removed, none of them reachable from the current root. -/
structure Collected (t t' : MPT) : Prop where
  root : t'.root = t.root
  secure : t'.secure = t.secure
  log : t'.store.written = t.store.written
  less : ∀ k v, dget t'.store.kv k = some v → dget t.store.kv k = some v
  keep : ∀ root, t.root = some root → ∀ k, k.length = 32 → Reaches t.store.kv root k →
    dget t'.store.kv k = dget t.store.kv k

/-- A history of calls on a new trie, with such removals at any time between calls: the calls, their outcomes, and the
trie. -/
inductive Tidy (E : Env) (secure : Bool) : List Op → List (Py Unit) → MPT → Prop
  | new : Tidy E secure [] [] (MPT.new E secure)
  | call {ops : List Op} {outs : List (Py Unit)} {t : MPT} (h : Tidy E secure ops outs t) (op : Op) :
      Tidy E secure (ops ++ [op]) (outs ++ [(MPT.exec E op t).1]) (MPT.exec E op t).2
  | collect {ops : List Op} {outs : List (Py Unit)} {t t' : MPT} (h : Tidy E secure ops outs t) (hc : Collected t t') :
      Tidy E secure ops outs t'

namespace Shared

/-- `objs[j] = MPT(storage, root=objs[i].root(), secure=...)`: object `j` becomes a second object at the root of `i`
(a snapshot, if it is left alone while `i` goes on). -/
def fork (E : Env) (i j : Nat) (w : Shared) : Shared :=
  let t := MPT.init E w.store (w.obj i).root (w.obj i).secure
  { store := w.store, objs := fun l => if l = j then (t.root, t.secure) else w.objs l }

end Shared

/-- Any number of trie objects over one dict: calls on any of them (with keys that are short enough), new
objects at the root of others, and removals of entries that cannot be reached from the root of any object, in any
order.  `hist i` are the calls that object `i` goes back to: its own, after those of the object it was made from. -/
inductive Depot (E : Env) : (Nat → List Op) → Shared → Prop
  | new (secure : Nat → Bool) : Depot E (fun _ => []) (Shared.new E secure)
  | call {hist : Nat → List Op} {w : Shared} (h : Depot E hist w) (i : Nat) (op : Op)
      (hf : Fits E (w.obj i).secure op.key) :
      Depot E (fun j => if j = i then hist i ++ [op] else hist j) (Shared.exec E i op w)
  | fork {hist : Nat → List Op} {w : Shared} (h : Depot E hist w) (i j : Nat) :
      Depot E (fun l => if l = j then hist i else hist l) (w.fork E i j)
  | collect {hist : Nat → List Op} {w : Shared} {st : Store} (h : Depot E hist w)
      (hc : ∀ i, Collected (w.obj i) { w.obj i with store := st }) : Depot E hist { w with store := st }

end Pymt
