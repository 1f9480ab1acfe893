import Verif.Model.ProofCodec

/-!
# Iterating over a `Proof` (`/repo/src/pymt/proof.py:99-111`)
-/

namespace Pymt

/-- A value of the dictionary of a proof.  `/repo/src/pymt/proof.py:72-80`. -/
inductive Field where
  | bytes (b : Bytes)
  | entries (l : List Entry)
  deriving DecidableEq, Repr

/-- The keys of the dictionary in order, `/repo/src/pymt/proof.py:72-80`. -/
inductive FieldName where
  | proofType | timestamp | targetKey | rootHash | proof
  deriving DecidableEq, Repr

/-- `Proof.items()`, `/repo/src/pymt/proof.py:72-80, 152-153`. -/
def Proof.items (p : Proof Entry) : List (FieldName × Field) :=
  [(.proofType, .bytes p.type), (.timestamp, .bytes p.timestamp), (.targetKey, .bytes p.targetKey),
   (.rootHash, .bytes p.trieRoot), (.proof, .entries p.proof)]

/-- The object with the attributes `_data` and `_offset` that iteration sets; `none` before the first
`iter()`, `/repo/src/pymt/proof.py:99-103`. -/
structure ProofObj where
  fields : Proof Entry
  cursor : Option (List (FieldName × Field) × Nat) := none

namespace ProofObj

/-- `Proof.__iter__`, `/repo/src/pymt/proof.py:99-103`; the iterator is the object itself. -/
def iter (o : ProofObj) : ProofObj := { o with cursor := some (o.fields.items, 0) }

/-- `Proof.__next__`, `/repo/src/pymt/proof.py:105-111`: `none` is StopIteration; AttributeError when there
was no `iter()` before. -/
def next (o : ProofObj) : Py (Option (FieldName × Field) × ProofObj) :=
  match o.cursor with
  | none => .error .attributeError
  | some (data, offset) =>
    match data[offset]? with
    | none => .ok (none, o)
    | some x => .ok (some x, { o with cursor := some (data, offset + 1) })

/-- The `for x in o: body(x)` loop after `iter(o)`: the first argument bounds the number of rounds; `body`
may change the object.  The results of the body are collected.
A loop of a client; the iterator is `/repo/src/pymt/proof.py:99-111`. -/
def loop {β : Type} (body : FieldName × Field → ProofObj → Py (β × ProofObj)) :
    Nat → ProofObj → Py (List β × ProofObj)
  | 0, o => .ok ([], o)
  | f + 1, o => do
    let (x, o) ← o.next
    match x with
    | none => return ([], o)
    | some x => do
      let (y, o) ← body x o
      let (ys, o) ← loop body f o
      return (y :: ys, o)

/-- `for x in o: body(x)`.  A loop of a client; the iterator is `/repo/src/pymt/proof.py:99-111`. -/
def forEach {β : Type} (body : FieldName × Field → ProofObj → Py (β × ProofObj)) (rounds : Nat)
    (o : ProofObj) : Py (List β × ProofObj) := loop body rounds o.iter

/-- `[x for x in o]`.  A loop of a client; the iterator is `/repo/src/pymt/proof.py:99-111`. -/
def toList (rounds : Nat) (o : ProofObj) : Py (List (FieldName × Field) × ProofObj) :=
  forEach (fun x o => .ok (x, o)) rounds o

/-- `[(x, y) for x in o for y in o]`.  A loop of a client; the iterator is `/repo/src/pymt/proof.py:99-111`. -/
def pairs (rounds : Nat) (o : ProofObj) :
    Py (List (List ((FieldName × Field) × (FieldName × Field))) × ProofObj) :=
  forEach (fun x o => forEach (fun y o => .ok ((x, y), o)) rounds o) rounds o

end ProofObj
end Pymt
