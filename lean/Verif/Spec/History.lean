import Verif.Spec.Map
import Verif.Spec.Assume

/-!
# Histories of a trie object

A client makes a new trie and calls `update`/`delete`, catching exceptions.
-/

namespace Pymt
namespace MPT

/-- `MPT({}, secure=secure)`. -/
def new (E : Env) (secure : Bool) : MPT := init E Store.empty none secure

/-- One call. -/
def exec (E : Env) : Op → M MPT Unit
  | .update k v => update E k v
  | .delete k => delete E k

/-- A history of calls; exceptions are caught and the object is used on. -/
def run (E : Env) (ops : List Op) (t : MPT) : MPT := ops.foldl (fun t op => (exec E op t).2) t

/-- The trie object after a history. -/
def after (E : Env) (secure : Bool) (ops : List Op) : MPT := run E ops (new E secure)

end MPT

/-- The recursion limit suffices for a key: it exceeds the number of nibbles on its path (64 in secure
mode, where the path is a hash). -/
def Fits (E : Env) (secure : Bool) (k : Bytes) : Prop := (if secure then 64 else 2 * k.length) < E.limit

instance (E : Env) (secure : Bool) (k : Bytes) : Decidable (Fits E secure k) := by
  unfold Fits; infer_instance

/-- The path of a key in the trie: the key, or its hash in secure mode. -/
def effective (E : Env) (secure : Bool) (k : Bytes) : Bytes := if secure then E.keccak k else k

/-- After the history, `e` is the path of a present key. -/
def Present (E : Env) (secure : Bool) (ops : List Op) (e : Bytes) : Prop :=
  ∃ k, contents ops k ≠ none ∧ e = effective E secure k

/-- What theorems about a history assume.  `ks` are further keys used in queries.

* unless in secure mode, a key with an empty value is never a proper prefix of another key (not supported
  by the code, see `C25_false`; histories without empty values always meet this);
* keys short enough for the recursion limit;
* no hash collision among the nodes written in this history;
* in secure mode, no hash collision among the keys used. -/
structure Valid (E : Env) (secure : Bool) (ops : List Op) (ks : List Bytes) : Prop where
  empties : secure = false → ∀ pre, pre <+: ops → Clean (contents pre)
  fits : ∀ op ∈ ops, Fits E secure op.key
  fitsq : ∀ k ∈ ks, Fits E secure k
  log : LogOk E (MPT.after E secure ops).store.written
  keys : secure = true → CollFree E (ks ++ ops.map Op.key)

end Pymt
