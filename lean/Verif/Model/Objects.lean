import Verif.Model.Empt
import Verif.Spec.Empt

/-!
# Objects whose `encode_rlp()` raises, returns something else, or uses the `EMPT` (`/repo/src/pymt/empt.py`)

`EMPT.update` and `EMPT.get` call the method `encode_rlp()` of a value (lines 255 and 300), which is code of the user.
Here it may do anything: return bytes or something else, raise, change the state of the user's program, and call methods
of the same `EMPT`.
-/

namespace Pymt

/-- How a call of `encode_rlp()` ends (`/repo/src/pymt/empt.py:255, 300`): it returns bytes, returns something that is
not `bytes`, or raises. -/
inductive Reply where
  | returns (b : Bytes)
  | noBytes
  | raises (e : Err)
  deriving DecidableEq, Repr

/-- What a data storage holds or `update` is given (`/repo/src/pymt/empt.py:285-304`); compare `Value`.  Nothing is said
about what the method `encode_rlp` of an object does. -/
inductive Thing where
  | bytes (b : Bytes)
  | bytearray (b : Bytes)
  | obj (id : Nat) (hasEnc hasDec : Bool)
  deriving DecidableEq, Repr

/-- The thing that is kept of a value (`/repo/src/pymt/empt.py:304`). -/
def Value.thing : Value → Thing
  | .bytes b => .bytes b
  | .bytearray b => .bytearray b
  | .obj id e d _ => .obj id e d

/-- An `EMPT` (`/repo/src/pymt/empt.py:177-178`) together with the state of the user's program. -/
structure Site (σ : Type) where
  trie : MPT
  data : Dict Thing
  user : σ

/-- What one call of `encode_rlp()` does: the calls of `update` and `delete` of the `EMPT` it makes
(`/repo/src/pymt/empt.py:270-318`), how it ends, and the state of the user's program afterwards.  Simplification: values
in these calls carry what their own `encode_rlp()` returned; what that did in turn is listed before. -/
structure UserAct (σ : Type) where
  calls : List EOp
  reply : Reply
  user : σ

/-- The methods `encode_rlp` of all objects; what they do may depend on everything
(`/repo/src/pymt/empt.py:255, 300` call them). -/
abbrev UserCode (σ : Type) := Nat → Site σ → UserAct σ

namespace Site

variable {σ : Type}

/-- Run a computation on the trie inside (`self._trie`, `/repo/src/pymt/empt.py:177`). -/
def onTrie {α : Type} (m : M MPT α) : M (Site σ) α := fun s =>
  let (r, t) := m s.trie
  (r, { s with trie := t })

/-- The end of `EMPT.update`, `/repo/src/pymt/empt.py:303-304`. -/
def store (E : Env) (key : Bytes) (value : Thing) (ref : DataRef) : M (Site σ) Unit := do
  onTrie (MPT.update E key (ref.encode E))
  M.modify (fun s => { s with data := dset s.data key value })

/-- `EMPT.delete`, `/repo/src/pymt/empt.py:306-318`. -/
def delete (E : Env) (key : Bytes) : M (Site σ) Unit := do
  let s ← M.get
  let present ← M.lift (s.trie.contains E key)
  if !present then M.raise .keyNotFound
  else do
    let _ ← M.lift (dgetItem s.data key)
    M.modify (fun s => { s with data := ddel s.data key })
    onTrie (MPT.delete E key)

/-- A call of `update` or `delete` (`/repo/src/pymt/empt.py:270-318`) made by `encode_rlp()`; exceptions are caught.  A
value that cannot be kept is refused before anything happens (lines 285-293, 32-33). -/
def inner (E : Env) (s : Site σ) : EOp → Site σ
  | .update key value => if value.storable then (store E key value.thing ⟨key, value.payload⟩ s).2 else s
  | .delete key => (delete E key s).2

/-- `value.encode_rlp()` of an object (`/repo/src/pymt/empt.py:255, 300`), and the check of `DataReference` that it
returned `bytes` (lines 32-33). -/
def encodeRlp (E : Env) (B : UserCode σ) (id : Nat) : M (Site σ) Bytes := fun s =>
  let act := B id s
  let s' := act.calls.foldl (inner E) s
  (match act.reply with
    | .returns b => .ok b
    | .noBytes => .error .typeError
    | .raises e => .error e,
   { s' with user := act.user })

/-- `EMPT.update`, `/repo/src/pymt/empt.py:270-304`. -/
def update (E : Env) (B : UserCode σ) (key : Bytes) (value : Thing) : M (Site σ) Unit :=
  match value with
  | .obj _ false _ => M.raise .notImplemented
  | .obj _ true false => M.raise .notImplemented
  | .obj id true true => do
    let enc ← encodeRlp E B id
    store E key value ⟨key, enc⟩
  | .bytes b => store E key value ⟨key, b⟩
  | .bytearray _ => M.raise .typeError

/-- `EMPT.get`, `/repo/src/pymt/empt.py:240-262`: the value and the reference are read before `encode_rlp()` is
called. -/
def get (E : Env) (B : UserCode σ) (key : Bytes) : M (Site σ) Thing := do
  let s ← M.get
  let data ← M.lift (dgetItem s.data key)
  let enc ← M.lift (s.trie.get E key)
  let ref ← M.lift (DataRef.decode E enc)
  let payload ← match data with
    | .bytes b => pure b
    | .bytearray _ => M.raise .typeError
    | .obj _ false _ => M.raise .attributeError
    | .obj id true _ => encodeRlp E B id
  if !ref.eq E ⟨key, payload⟩ then M.raise .invalidReference
  else return data

/-- `EMPT.contains`, `/repo/src/pymt/empt.py:320-328`. -/
def contains (E : Env) (s : Site σ) (key : Bytes) : Py Bool := s.trie.contains E key

/-- `EMPT.__iter__`, `/repo/src/pymt/empt.py:191-193`: the keys in the order the iterator yields them. -/
def iter (s : Site σ) : List Bytes := s.data.map (·.1)

/-- `MutableMapping.pop(key)` without default (`self[key]` and `del self[key]`, `/repo/src/pymt/empt.py:195-205`). -/
def pop (E : Env) (B : UserCode σ) (key : Bytes) : M (Site σ) Thing := do
  let v ← get E B key
  delete E key
  return v

/-- `MutableMapping.pop(key, default)` (`/repo/src/pymt/empt.py:195-205`): the default when `self[key]` raises
KeyError. -/
def popDefault (E : Env) (B : UserCode σ) (key : Bytes) (default : Thing) : M (Site σ) Thing := fun s =>
  match get E B key s with
  | (.error .keyError, s') => (.ok default, s')
  | (.error e, s') => (.error e, s')
  | (.ok v, s') =>
    match delete E key s' with
    | (.ok (), s'') => (.ok v, s'')
    | (.error e, s'') => (.error e, s'')

/-- `MutableMapping.setdefault` (`/repo/src/pymt/empt.py:195-201`). -/
def setdefault (E : Env) (B : UserCode σ) (key : Bytes) (default : Thing) : M (Site σ) Thing := fun s =>
  match get E B key s with
  | (.ok v, s') => (.ok v, s')
  | (.error .keyError, s') =>
    match update E B key default s' with
    | (.ok (), s'') => (.ok default, s'')
    | (.error e, s'') => (.error e, s'')
  | (.error e, s') => (.error e, s')

/-- `MutableMapping.popitem` (`/repo/src/pymt/empt.py:191-205`): `next(iter(self))`, KeyError when there is none. -/
def popitem (E : Env) (B : UserCode σ) : M (Site σ) (Bytes × Thing) := do
  let s ← M.get
  match s.iter with
  | [] => M.raise .keyError
  | key :: _ => do
    let v ← get E B key
    delete E key
    return (key, v)

/-- `MutableMapping.clear` (`/repo/src/pymt/empt.py:191-205`): `popitem` until it raises KeyError.  The first argument
bounds the number of rounds (an `encode_rlp()` that adds keys can keep it going). -/
def clear (E : Env) (B : UserCode σ) : Nat → M (Site σ) Unit
  | 0 => M.raise .recursion
  | n + 1 => fun s =>
    match popitem E B s with
    | (.ok _, s') => clear E B n s'
    | (.error .keyError, s') => (.ok (), s')
    | (.error e, s') => (.error e, s')

end Site
end Pymt
