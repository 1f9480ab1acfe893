import Verif.Spec.History

/-!
# Specification: storages at every moment, shared storages
-/

namespace Pymt

/-- The bytes an encoded node refers to: directly, or through a node shorter than 32 bytes that is
embedded in place of a reference. -/
inductive Mentions : Bytes → Bytes → Prop
  | ext {w r : Bytes} {p : NibblePath} (h : Node.decode w = .ok (.ext p r)) : Mentions w r
  | branch {w r : Bytes} {bs : List Bytes} {d : Bytes} (h : Node.decode w = .ok (.branch bs d))
      (hr : r ∈ bs) : Mentions w r
  | inline {w r r' : Bytes} (h : Mentions w r) (hl : r.length < 32) (h' : Mentions r r') : Mentions w r'

/-- The storage after the first `n` writes ever made (`written` is the log of writes, and a write is
`storage[keccak(w)] = w`, `/repo/src/pymt/mpt.py:1237-1240`). -/
def storeAfter (E : Env) (log : List Bytes) (n : Nat) : Store :=
  (log.take n).foldl (fun s w => s.set (E.keccak w) w) Store.empty

/-- The storage when the process stops after `n` of the writes of a call. -/
def crashed (E : Env) (op : Op) (t : MPT) (n : Nat) : Store :=
  (((MPT.exec E op t).2.store.written.drop t.store.written.length).take n).foldl
    (fun s w => s.set (E.keccak w) w) t.store

/-- Several trie objects over one storage: roots and secure flags by number. -/
structure Shared where
  store : Store
  objs : Nat → Option Bytes × Bool

namespace Shared

/-- Object `i`. -/
def obj (w : Shared) (i : Nat) : MPT := { store := w.store, root := (w.objs i).1, secure := (w.objs i).2 }

/-- All objects made with `MPT(storage, secure=...)` over one empty dict. -/
def new (E : Env) (secure : Nat → Bool) : Shared :=
  { store := Store.empty, objs := fun i => ((MPT.new E (secure i)).root, secure i) }

/-- A call on object `i`. -/
def exec (E : Env) (i : Nat) (op : Op) (w : Shared) : Shared :=
  let t := (MPT.exec E op (w.obj i)).2
  { store := t.store, objs := fun j => if j = i then (t.root, t.secure) else w.objs j }

/-- An interleaving of calls on all the objects. -/
def run (E : Env) (calls : List (Nat × Op)) (w : Shared) : Shared :=
  calls.foldl (fun w c => exec E c.1 c.2 w) w

end Shared

/-- The calls on object `i`. -/
def callsOf (i : Nat) (calls : List (Nat × Op)) : List Op :=
  (calls.filter (fun c => c.1 == i)).map (·.2)

end Pymt
