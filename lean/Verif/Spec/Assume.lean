import Verif.Model.Mpt

/-!
# Assumption on the hash

Keccak-256 is not collision free as a function, so theorems assume that no collision *occurred*: the
byte strings actually written to the storage in the execution at hand (the ghost log `written`),
together with the encoding of the empty node, hash to different digests.
-/

namespace Pymt

/-- No two different byte strings of the list have the same hash. -/
def CollFree (E : Env) (l : List Bytes) : Prop :=
  ∀ a ∈ l, ∀ b ∈ l, E.keccak a = E.keccak b → a = b

/-- Assumption on a log of written nodes: no collision among them and the encoding of the empty node,
and no node is 2^64 bytes or longer (RLP cannot represent more). -/
structure LogOk (E : Env) (log : List Bytes) : Prop where
  coll : CollFree E (Item.encode (.str []) :: log)
  size : ∀ a ∈ log, a.length < 2 ^ 64

/-- The byte strings hashed in order to name the nodes of a trie: all nodes written, and the root node
when it is so short that `root_hash()` has to hash it (`/repo/src/pymt/mpt.py:131-136`). -/
def hashed (t : MPT) : List Bytes :=
  let r := t.root.getD []
  t.store.written ++ (if r ≠ [] ∧ r.length < 32 then [r] else [])

/-- What an entry of a proof is re-encoded to when it is checked
(`Node.into_reference(Node.decode(n))`, `/repo/src/pymt/mpt.py:348-353, 463-466`). -/
def reenc (v : Bytes) : Option Bytes :=
  match Node.decode v with
  | .ok n => match n.encode with
    | .ok e => some e
    | .error _ => none
  | .error _ => none

/-- The byte strings hashed when a proof is checked. -/
def checked (p : Proof Bytes) : List Bytes := p.proof ++ p.proof.filterMap reenc

end Pymt
