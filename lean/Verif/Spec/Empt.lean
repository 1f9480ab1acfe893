import Verif.Model.Empt
import Verif.Spec.History

/-!
# Histories of an `EMPT`, and what they mean
-/

namespace Pymt

/-- A call that changes an `EMPT`. -/
inductive EOp where
  | update (key : Bytes) (value : Value)
  | delete (key : Bytes)
  deriving DecidableEq, Repr

/-- The key a call names. -/
def EOp.key : EOp → Bytes
  | update k _ => k
  | delete k => k

/-- The values an `EMPT` can keep: `bytes`, and objects with both codec methods.  (`bytearray` is announced
in the documentation but rejected.) -/
def Value.storable : Value → Bool
  | .bytes _ => true
  | .bytearray _ => false
  | .obj _ hasEnc hasDec _ => hasEnc && hasDec

/-- The bytes that stand for a value. -/
def Value.payload : Value → Bytes
  | .bytes b => b
  | .bytearray b => b
  | .obj _ _ _ enc => enc

/-- Contents of a mapping: the value of every key. -/
abbrev EContents := Bytes → Option Value

/-- What a call does to the contents: a value that cannot be kept changes nothing. -/
def EOp.apply (m : EContents) : EOp → EContents
  | update k v => fun k' => if v.storable ∧ k' = k then some v else m k'
  | delete k => fun k' => if k' = k then none else m k'

/-- Contents after a history that starts with an empty mapping. -/
def econtents (ops : List EOp) : EContents := ops.foldl EOp.apply (fun _ => none)

namespace EMPT

/-- `EMPT({}, {}, secure=secure)`. -/
def new (E : Env) (secure : Bool) : EMPT := { trie := MPT.new E secure, data := [] }

/-- One call. -/
def exec (E : Env) : EOp → M EMPT Unit
  | .update k v => update E k v
  | .delete k => delete E k

/-- A history of calls; exceptions are caught and the object is used on. -/
def run (E : Env) (ops : List EOp) (s : EMPT) : EMPT := ops.foldl (fun s op => (exec E op s).2) s

/-- The object after a history. -/
def after (E : Env) (secure : Bool) (ops : List EOp) : EMPT := run E ops (new E secure)

end EMPT

namespace Sparse

/-- One call on a `SparseEMPT`. -/
def exec (E : Env) : EOp → M MPT Unit
  | .update k v => update E k v
  | .delete k => delete E k

/-- A history of calls; exceptions are caught and the object is used on. -/
def run (E : Env) (ops : List EOp) (t : MPT) : MPT := ops.foldl (fun t op => (exec E op t).2) t

/-- `SparseEMPT({}, secure=secure)` after a history. -/
def after (E : Env) (secure : Bool) (ops : List EOp) : MPT := run E ops (MPT.new E secure)

end Sparse

/-- What theorems about a history of an `EMPT` assume.  `ks` are further keys used in queries.  Compare
`Valid`; the references kept in the trie are never empty, so there is no condition on empty values. -/
structure EValid (E : Env) (secure : Bool) (ops : List EOp) (ks : List Bytes) : Prop where
  fits : ∀ op ∈ ops, Fits E secure op.key
  fitsq : ∀ k ∈ ks, Fits E secure k
  sizes : ∀ k v, .update k v ∈ ops → k.length + v.payload.length < 2 ^ 60
  log : LogOk E (EMPT.after E secure ops).trie.store.written
  keys : secure = true → CollFree E (ks ++ ops.map EOp.key)

/-- The byte strings hashed for the references made in a history. -/
def refHashed : List EOp → List Bytes
  | [] => []
  | .update k v :: ops => (k ++ v.payload) :: refHashed ops
  | .delete _ :: ops => refHashed ops

end Pymt
