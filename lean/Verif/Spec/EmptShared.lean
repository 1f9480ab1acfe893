import Verif.Spec.Empt

/-!
# Specification: several `EMPT` objects over the same two storages
-/

namespace Pymt

/-- The two storages, and root and secure flag of every object by number. -/
structure EShared where
  store : Store
  data : Dict Value
  objs : Nat → Option Bytes × Bool

/-- What can happen: a call on object `i`, or the variable of object `i` is assigned
`EMPT(trie_storage, data_storage, root=j.root(), secure=j.secure)`. -/
inductive EStep where
  | call (i : Nat) (op : EOp)
  | «open» (i j : Nat)
  deriving DecidableEq, Repr

/-- The key a call names. -/
def EStep.keys : EStep → List Bytes
  | call _ op => [op.key]
  | «open» _ _ => []

namespace EShared

/-- Object `i`. -/
def obj (w : EShared) (i : Nat) : EMPT :=
  { trie := { store := w.store, root := (w.objs i).1, secure := (w.objs i).2 }, data := w.data }

/-- Object `i` and its storages become `s`. -/
def put (w : EShared) (i : Nat) (s : EMPT) : EShared :=
  { store := s.trie.store, data := s.data,
    objs := fun j => if j = i then (s.trie.root, s.trie.secure) else w.objs j }

/-- All objects made over the same two empty dicts. -/
def new (E : Env) (secure : Nat → Bool) : EShared :=
  { store := Store.empty, data := [], objs := fun i => ((MPT.new E (secure i)).root, secure i) }

/-- One step.  If the constructor raises, nothing is assigned. -/
def step (E : Env) (w : EShared) : EStep → EShared
  | .call i op => w.put i (EMPT.exec E op (w.obj i)).2
  | .open i j =>
    match EMPT.init E w.store w.data (w.objs j).1 (w.objs j).2 with
    | .ok s => w.put i s
    | .error _ => w

/-- Any sequence of steps; exceptions are caught and the objects used on. -/
def run (E : Env) (calls : List EStep) (w : EShared) : EShared := calls.foldl (step E) w

/-- The objects after a sequence of steps. -/
def after (E : Env) (secure : Nat → Bool) (calls : List EStep) : EShared := run E calls (new E secure)

end EShared

/-- What is expected of such objects: the values in the data storage, and for every object the values whose references
are in its trie. -/
structure EView where
  data : EContents
  maps : Nat → EContents
  secure : Nat → Bool

namespace EView

/-- At first there is nothing. -/
def new (secure : Nat → Bool) : EView := { data := fun _ => none, maps := fun _ _ => none, secure := secure }

/-- One step: an update of a value that can be kept changes the data and the object; a delete does if the key is both
in the object and in the data. -/
def step (v : EView) : EStep → EView
  | .call i (.update k x) =>
    if x.storable then
      { v with data := fun k' => if k' = k then some x else v.data k',
               maps := fun j k' => if j = i ∧ k' = k then some x else v.maps j k' }
    else v
  | .call i (.delete k) =>
    if v.maps i k ≠ none ∧ v.data k ≠ none then
      { v with data := fun k' => if k' = k then none else v.data k',
               maps := fun j k' => if j = i ∧ k' = k then none else v.maps j k' }
    else v
  | .open i j =>
    { v with maps := fun l => if l = i then v.maps j else v.maps l,
             secure := fun l => if l = i then v.secure j else v.secure l }

/-- What is expected after a sequence of steps. -/
def after (secure : Nat → Bool) (calls : List EStep) : EView := calls.foldl step (new secure)

end EView

/-- The calls that made object `i` what it is: those on it since it was opened, and before that those of the object
it was opened from. -/
def lineages (calls : List EStep) : Nat → List EOp :=
  calls.foldl (fun L c => match c with
    | .call i op => fun l => if l = i then L i ++ [op] else L l
    | .open i j => fun l => if l = i then L j else L l) (fun _ => [])

/-- All calls, on whatever object. -/
def allCalls : List EStep → List EOp
  | [] => []
  | .call _ op :: calls => op :: allCalls calls
  | .open _ _ :: calls => allCalls calls

/-- The calls that name a key. -/
def naming (k : Bytes) (ops : List EOp) : List EOp := ops.filter fun op => op.key = k

/-- The value last given for a key, whether deleted since or not. -/
def lastGiven (k : Bytes) (ops : List EOp) : Option Value :=
  ops.foldl (fun r op => match op with
    | .update k' x => if x.storable ∧ k' = k then some x else r
    | .delete _ => r) none

/-- The keys stay apart in the trie: their hashes differ, or no key begins with another one. -/
def KeysApart (E : Env) (secure : Bool) (keys : List Bytes) : Prop :=
  ∀ k ∈ keys, ∀ k' ∈ keys, effective E secure k <+: effective E secure k' → k = k'

/-- What the theorems assume of a sequence of steps over given keys. -/
structure ESharedOk (E : Env) (secure : Nat → Bool) (calls : List EStep) (keys : List Bytes) : Prop where
  named : ∀ c ∈ calls, ∀ k ∈ c.keys, k ∈ keys
  fits : ∀ i, ∀ k ∈ keys, Fits E (secure i) k
  apart : ∀ i, KeysApart E (secure i) keys
  sizes : ∀ i k x, .call i (.update k x) ∈ calls → k.length + x.payload.length < 2 ^ 60
  log : LogOk E (EShared.after E secure calls).store.written
  /-- Objects are opened from objects that have a key.  (The root of an emptied trie is None, and the constructor
  refuses it.) -/
  opens : ∀ pre i j post, calls = pre ++ .open i j :: post → ∃ k, (EView.after secure pre).maps j k ≠ none

end Pymt
