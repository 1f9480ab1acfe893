import Verif.Spec.Empt

/-!
# Crashes inside calls on an `EMPT`
-/

namespace Pymt

/-- One write to one of the two storages of an `EMPT`. -/
inductive EWrite where
  | node (w : Bytes)
  | put (key : Bytes) (value : Value)
  | drop (key : Bytes)

/-- What a write does to the trie storage. -/
def EWrite.onTrie (E : Env) (s : Store) : EWrite → Store
  | .node w => s.set (E.keccak w) w
  | _ => s

/-- What a write does to the data storage. -/
def EWrite.onData (d : Dict Value) : EWrite → Dict Value
  | .node _ => d
  | .put k v => dset d k v
  | .drop k => ddel d k

namespace EMPT

/-- The nodes that a call writes, in order. -/
def nodesOf (E : Env) (op : EOp) (s : EMPT) : List EWrite :=
  ((exec E op s).2.trie.store.written.drop s.trie.store.written.length).map .node

/-- The writes of a call in the order in which they happen: `update` writes the nodes and then the value
(`/repo/src/pymt/empt.py:303-304`), `delete` removes the value and then writes nodes
(`/repo/src/pymt/empt.py:315-318`). -/
def writesOf (E : Env) (op : EOp) (s : EMPT) : List EWrite :=
  match op with
  | .update k v => nodesOf E op s ++ (if (exec E op s).1 = .ok () then [.put k v] else [])
  | .delete k =>
    (if s.trie.contains E k = .ok true ∧ dget s.data k ≠ none then [.drop k] else []) ++ nodesOf E op s

/-- The trie storage when the process stops after `n` of the writes of a call. -/
def crashedTrie (E : Env) (op : EOp) (s : EMPT) (n : Nat) : Store :=
  ((writesOf E op s).take n).foldl (EWrite.onTrie E) s.trie.store

/-- The data storage when the process stops after `n` of the writes of a call. -/
def crashedData (E : Env) (op : EOp) (s : EMPT) (n : Nat) : Dict Value :=
  ((writesOf E op s).take n).foldl EWrite.onData s.data

end EMPT
end Pymt
