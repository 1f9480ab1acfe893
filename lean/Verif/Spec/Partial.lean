import Verif.Spec.History

/-!
# Specification: trie objects over other storages
-/

namespace Pymt

/-- `t'` is a trie object with the root and mode of `t`, over a storage of any origin in which every entry
sits under its own hash, without hash collisions between its entries and the nodes written by `t`.  The
storage may lack nodes of `t` and may have entries `t` never had. -/
structure Claims (E : Env) (t' t : MPT) : Prop where
  root : t'.root = t.root
  secure : t'.secure = t.secure
  addressed : ∀ k v, dget t'.store.kv k = some v → k = E.keccak v
  coll : CollFree E (t.store.written ++ t'.store.kv.map (·.2))

/-- The outcomes of the calls of a history. -/
def outcomes (E : Env) : List Op → MPT → List (Py Unit)
  | [], _ => []
  | op :: ops, t => (MPT.exec E op t).1 :: outcomes E ops (MPT.exec E op t).2

/-- A storage has the node `e`, in case nodes like it are kept in storages at all (shorter ones are part of
the node above, `/repo/src/pymt/utils/node.py:120-145`). -/
def Has (E : Env) (t : MPT) (e : Bytes) : Prop := e.length < 32 ∨ dget t.store.kv (E.keccak e) ≠ none

instance (E : Env) (t : MPT) (e : Bytes) : Decidable (Has E t e) := by unfold Has; infer_instance

/-- Checks `Claims` on concrete objects. -/
theorem claims_of {E : Env} {t' t : MPT} (h1 : t'.root = t.root) (h2 : t'.secure = t.secure)
    (h3 : t'.store.kv.all (fun e => e.1 == E.keccak e.2) = true)
    (h4 : CollFree E (t.store.written ++ t'.store.kv.map (·.2))) : Claims E t' t where
  root := h1
  secure := h2
  coll := h4
  addressed := by
    intro k v hk
    have : (k, v) ∈ t'.store.kv := by
      revert hk
      generalize t'.store.kv = d
      intro hk
      induction d with
      | nil => simp [dget] at hk
      | cons e d ih =>
        obtain ⟨k0, v0⟩ := e
        simp only [dget] at hk
        split at hk
        · rename_i e; cases hk; subst e; simp
        · exact List.mem_cons_of_mem _ (ih hk)
    have := List.all_eq_true.1 h3 _ this
    simpa using this

end Pymt
