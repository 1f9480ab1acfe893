/-!
# The fragment of Python the model uses

Byte strings, exceptions as values, dictionaries, and a monad for code that mutates state.
-/

namespace Pymt

/-- Python `bytes`/`bytearray` (`/repo/src/pymt` uses both interchangeably as immutable values;
`bytearray` identity and mutation are not modelled because no code in `/repo` mutates one). -/
abbrev Bytes := List UInt8

/-- The exceptions that code in `/repo/src/pymt` raises, or lets escape from the libraries it calls.
Messages are dropped.  Custom ones: `/repo/src/pymt/utils/exceptions.py`. -/
inductive Err where
  | keyError            -- builtin KeyError (missing dict entry)
  | keyNotFound         -- KeyNotFoundError
  | extensionPath       -- ExtensionPathError
  | leafPath            -- LeafPathError
  | branchPath          -- BranchPathError
  | invalidNode         -- InvalidNodeError
  | poe                 -- PoeError
  | poi                 -- PoiError
  | invalidReference    -- InvalidReferenceError
  | valueError
  | typeError
  | indexError
  | attributeError
  | assertion
  | notImplemented
  | runtime             -- RuntimeError
  | recursion           -- RecursionError
  | rlpDecoding         -- rlp.DecodingError
  | rlpDeserialization  -- rlp.DeserializationError
  | unicode             -- UnicodeDecodeError (a ValueError)
  | fileNotFound
  deriving DecidableEq, Repr

deriving instance DecidableEq for Except

/-- Result of a Python computation without side effects.  Python; used for `/repo/src/pymt/mpt.py` and the other files. -/
abbrev Py (α : Type) := Except Err α

/-- A Python computation that may change a state `σ` and may raise.  The state reached when the
exception was raised is kept, as in Python.  Python; used for `/repo/src/pymt/mpt.py` and the other files. -/
def M (σ α : Type) := σ → Except Err α × σ

namespace M

/-- `return a`.  Python; used for `/repo/src/pymt/mpt.py` and the other files. -/
def ret {σ α : Type} (a : α) : M σ α := fun s => (.ok a, s)

/-- Sequencing: the second computation runs only when the first did not raise.
Python; used for `/repo/src/pymt/mpt.py` and the other files. -/
def seq {σ α β : Type} (m : M σ α) (f : α → M σ β) : M σ β := fun s =>
  match m s with
  | (.ok a, s') => f a s'
  | (.error e, s') => (.error e, s')

instance {σ : Type} : Monad (M σ) where
  pure := ret
  bind := seq

/-- A side-effect free computation as part of one with side effects.
Python; used for `/repo/src/pymt/mpt.py` and the other files. -/
def lift {σ α : Type} (m : Py α) : M σ α := fun s => (m, s)

/-- `raise e`.  Python; used for `/repo/src/pymt/mpt.py` and the other files. -/
def raise {σ α : Type} (e : Err) : M σ α := fun s => (.error e, s)

/-- Read the state.  Python; used for `/repo/src/pymt/mpt.py` and the other files. -/
def get {σ : Type} : M σ σ := fun s => (.ok s, s)

/-- Change the state.  Python; used for `/repo/src/pymt/mpt.py` and the other files. -/
def modify {σ : Type} (f : σ → σ) : M σ Unit := fun s => (.ok (), f s)

end M

/-! ### dict -/

/-- Python `dict` with byte-string keys: entries in insertion order.
All dictionaries of the model are built by `dset`/`ddel` from `[]`, which keeps keys unique.
Python; used for `/repo/src/pymt/mpt.py:550, 1240`, `/repo/src/pymt/empt.py:250, 304, 317`. -/
abbrev Dict (β : Type) := List (Bytes × β)

/-- `d.get(k)`; `none` when the key is missing.
Python; used for `/repo/src/pymt/mpt.py:550, 1240`, `/repo/src/pymt/empt.py:250, 304, 317`. -/
def dget {β : Type} : Dict β → Bytes → Option β
  | [], _ => none
  | (k', v) :: d, k => if k' = k then some v else dget d k

/-- `d[k] = v`: replaces in place, or appends (Python keeps insertion order).
Python; used for `/repo/src/pymt/mpt.py:550, 1240`, `/repo/src/pymt/empt.py:250, 304, 317`. -/
def dset {β : Type} : Dict β → Bytes → β → Dict β
  | [], k, v => [(k, v)]
  | (k', v') :: d, k, v => if k' = k then (k', v) :: d else (k', v') :: dset d k v

/-- `del d[k]` for a present key (removes nothing when missing; callers check).
Python; used for `/repo/src/pymt/mpt.py:550, 1240`, `/repo/src/pymt/empt.py:250, 304, 317`. -/
def ddel {β : Type} : Dict β → Bytes → Dict β
  | [], _ => []
  | (k', v') :: d, k => if k' = k then ddel d k else (k', v') :: ddel d k

/-- `d[k]`: KeyError when missing.
Python; used for `/repo/src/pymt/mpt.py:550, 1240`, `/repo/src/pymt/empt.py:250, 304, 317`. -/
def dgetItem {β : Type} (d : Dict β) (k : Bytes) : Py β :=
  match dget d k with
  | some v => .ok v
  | none => .error .keyError

/-- List indexing `l[i]` for `i ≥ 0`: IndexError when out of range.  Python; used for `/repo/src/pymt/mpt.py:341, 564-630`. -/
def pyIndex {α : Type} (l : List α) (i : Nat) : Py α :=
  match l[i]? with
  | some a => .ok a
  | none => .error .indexError

end Pymt
