import Verif.Spec.Assume
import Verif.Lemmas.Trie

/-!
# The monad, dictionaries, and storages

Everything the trie code does to a storage is a sequence of writes `storage[keccak(w)] = w`.
-/

namespace Pymt

/-! ### Monad -/

namespace M
variable {σ α β : Type}

@[simp] theorem bind_apply (m : M σ α) (f : α → M σ β) (s : σ) :
    (m >>= f) s = match m s with
      | (.ok a, s') => f a s'
      | (.error e, s') => (.error e, s') := rfl
@[simp] theorem pure_apply (a : α) (s : σ) : (pure a : M σ α) s = (.ok a, s) := rfl
@[simp] theorem lift_apply (m : Py α) (s : σ) : (M.lift m : M σ α) s = (m, s) := rfl
@[simp] theorem raise_apply (e : Err) (s : σ) : (M.raise e : M σ α) s = (.error e, s) := rfl
@[simp] theorem get_apply (s : σ) : (M.get : M σ σ) s = (.ok s, s) := rfl
@[simp] theorem modify_apply (f : σ → σ) (s : σ) : M.modify f s = (.ok (), f s) := rfl

end M

/-! ### Dictionaries -/

theorem dget_dset {β : Type} (d : Dict β) (k k' : Bytes) (v : β) :
    dget (dset d k v) k' = if k = k' then some v else dget d k' := by
  induction d with
  | nil => simp [dset, dget]
  | cons e d ih =>
    obtain ⟨k0, v0⟩ := e
    simp only [dset]
    by_cases h : k0 = k
    · subst h
      by_cases h' : k0 = k' <;> simp [dget, h']
    · simp only [h, if_false, dget, ih]
      by_cases h' : k0 = k'
      · subst h'; simp [Ne.symm h]
      · simp [h']

theorem dget_ddel {β : Type} (d : Dict β) (k k' : Bytes) :
    dget (ddel d k) k' = if k = k' then none else dget d k' := by
  induction d with
  | nil => simp [ddel, dget]
  | cons e d ih =>
    obtain ⟨k0, v0⟩ := e
    simp only [ddel]
    by_cases h : k0 = k
    · subst h
      rw [if_pos rfl, ih]
      by_cases h' : k0 = k' <;> simp [dget, h']
    · simp only [h, if_false, dget, ih]
      by_cases h' : k0 = k'
      · subst h'; simp [Ne.symm h]
      · simp [h']

/-! ### Collision-freeness -/

theorem CollFree.mono {E : Env} {l l' : List Bytes} (h : CollFree E l') (hs : ∀ a ∈ l, a ∈ l') :
    CollFree E l := fun a ha b hb e => h a (hs a ha) b (hs b hb) e

theorem LogOk.mono {E : Env} {l l' : List Bytes} (h : LogOk E l') (hs : ∀ a ∈ l, a ∈ l') : LogOk E l where
  coll := h.coll.mono (by
    intro a ha
    rcases List.mem_cons.1 ha with rfl | ha
    · simp
    · exact List.mem_cons_of_mem _ (hs a ha))
  size := fun a ha => h.size a (hs a ha)

/-! ### Storages -/

/-- Every entry sits under its hash and was written. -/
def Good (E : Env) (st : Store) : Prop :=
  ∀ k v, dget st.kv k = some v → k = E.keccak v ∧ v ∈ st.written

theorem Good.empty (E : Env) : Good E Store.empty := by
  intro k v h; simp [Store.empty, dget] at h

/-- Write byte strings under their hashes, in order. -/
def replay (E : Env) (ws : List Bytes) (st : Store) : Store :=
  ws.foldl (fun s w => s.set (E.keccak w) w) st

theorem replay_append (E : Env) (a b : List Bytes) (st : Store) :
    replay E (a ++ b) st = replay E b (replay E a st) := by simp [replay]

theorem replay_written (E : Env) (ws : List Bytes) (st : Store) :
    (replay E ws st).written = st.written ++ ws := by
  induction ws generalizing st with
  | nil => simp [replay]
  | cons w ws ih =>
    have := ih (st.set (E.keccak w) w)
    simp only [replay, List.foldl_cons] at *
    rw [this]; simp [Store.set]

theorem Good.set {E : Env} {st : Store} (h : Good E st) (w : Bytes) : Good E (st.set (E.keccak w) w) := by
  intro k v hk
  simp only [Store.set, dget_dset] at hk ⊢
  split at hk
  · simp only [Option.some.injEq] at hk
    subst hk; subst_vars; simp
  · have := h k v hk
    exact ⟨this.1, by simp [this.2]⟩

theorem Good.replay {E : Env} {st : Store} (h : Good E st) (ws : List Bytes) : Good E (replay E ws st) := by
  induction ws generalizing st with
  | nil => exact h
  | cons w ws ih => exact ih (h.set w)

/-- Entries survive writes as long as there is no collision. -/
theorem dget_replay {E : Env} {st : Store} (hg : Good E st) {ws : List Bytes}
    (hc : CollFree E (st.written ++ ws)) {k v : Bytes} (h : dget st.kv k = some v) :
    dget (replay E ws st).kv k = some v := by
  induction ws generalizing st with
  | nil => exact h
  | cons w ws ih =>
    have hset : dget (st.set (E.keccak w) w).kv k = some v := by
      simp only [Store.set, dget_dset]
      split
      · rename_i e
        obtain ⟨e2, hv⟩ := hg k v h
        rw [e2] at e
        rw [hc w (by simp) v (by simp [hv]) e]
      · exact h
    refine ih (hg.set w) ?_ hset
    simpa [Store.set] using hc

/-- A computation only writes byte strings under their hashes. -/
def Writes (E : Env) {α : Type} (m : M Store α) : Prop := ∀ st, ∃ ws, (m st).2 = replay E ws st

namespace Writes
variable {E : Env} {α β : Type}

theorem const {m : M Store α} (h : ∀ st, (m st).2 = st) : Writes E m := fun st => ⟨[], h st⟩

theorem pure (a : α) : Writes E (Pure.pure a : M Store α) := const fun _ => rfl
theorem lift (m : Py α) : Writes E (M.lift m : M Store α) := const fun _ => rfl
theorem raise (e : Err) : Writes E (M.raise e : M Store α) := const fun _ => rfl
theorem get : Writes E (M.get : M Store Store) := const fun _ => rfl

theorem bind {m : M Store α} {f : α → M Store β} (hm : Writes E m) (hf : ∀ a, Writes E (f a)) :
    Writes E (m >>= f) := by
  intro st
  obtain ⟨ws, hw⟩ := hm st
  cases h : m st with
  | mk r st1 =>
    rw [h] at hw
    cases r with
    | error e => exact ⟨ws, by simp [h, hw]⟩
    | ok a =>
      obtain ⟨ws', hw'⟩ := hf a st1
      refine ⟨ws ++ ws', ?_⟩
      rw [replay_append, ← hw, ← hw']
      simp [h]

theorem getNodeM (ref : Bytes) : Writes E (MPT.getNodeM ref) := get.bind fun _ => lift _

theorem storeNode (n : Node) : Writes E (MPT.storeNode E n) := by
  intro st
  unfold MPT.storeNode Node.intoReference
  cases h : n.encode with
  | error e => exact ⟨[], by simp [replay]⟩
  | ok enc =>
    by_cases hl : enc.length < 32
    · have : enc.length ≠ 32 := by omega
      exact ⟨[], by simp [hl, this, replay]⟩
    · exact ⟨[enc], by simp [hl, E.keccak_len, replay]⟩

theorem createBranchLeaf (path : NibblePath) (v : Bytes) (bs : List Bytes) :
    Writes E (MPT.createBranchLeaf E path v bs) := by
  unfold MPT.createBranchLeaf
  refine (lift _).bind fun n => ?_
  split
  · exact (lift _).bind fun _ => (storeNode _).bind fun _ => lift _
  · exact pure _

theorem createBranchExtension (path : NibblePath) (r : Bytes) (bs : List Bytes) :
    Writes E (MPT.createBranchExtension E path r bs) := by
  unfold MPT.createBranchExtension
  refine (lift _).bind fun n => ?_
  split
  · exact raise _
  · split
    · exact (lift _).bind fun _ => lift _
    · exact (lift _).bind fun _ => (storeNode _).bind fun _ => lift _

theorem createBranchNode (pa : NibblePath) (va : Bytes) (pb : NibblePath) (vb : Bytes) :
    Writes E (MPT.createBranchNode E pa va pb vb) := by
  unfold MPT.createBranchNode
  refine (lift _).bind fun a => (lift _).bind fun b => ?_
  split
  · exact raise _
  · exact (createBranchLeaf _ _ _).bind fun _ => (createBranchLeaf _ _ _).bind fun _ => storeNode _

theorem updateAux (f : Nat) (ref : Bytes) (path : NibblePath) (v : Bytes) :
    Writes E (MPT.updateAux E f ref path v) := by
  induction f generalizing ref path with
  | zero => exact raise _
  | succ f ih =>
    unfold MPT.updateAux
    split
    · exact storeNode _
    refine (getNodeM _).bind fun node => ?_
    split
    · refine (lift _).bind fun same => ?_
      split
      · exact storeNode _
      · refine (lift _).bind fun c => (lift _).bind fun n => (createBranchNode _ _ _ _).bind fun r => ?_
        split
        · exact storeNode _
        · exact pure _
    · refine (lift _).bind fun pre => ?_
      split
      · exact (lift _).bind fun _ => (ih _ _).bind fun _ => storeNode _
      · refine (lift _).bind fun c => (lift _).bind fun n => (lift _).bind fun m =>
          (createBranchLeaf _ _ _).bind fun _ => (createBranchExtension _ _ _).bind fun _ =>
          (storeNode _).bind fun r => ?_
        split
        · exact storeNode _
        · exact pure _
    · refine (lift _).bind fun n => ?_
      split
      · exact storeNode _
      · exact (lift _).bind fun _ => (lift _).bind fun _ => (ih _ _).bind fun _ =>
          (lift _).bind fun _ => storeNode _

theorem buildFromLastBranch (bs : List Bytes) : Writes E (MPT.buildFromLastBranch E bs) := by
  unfold MPT.buildFromLastBranch
  refine (lift _).bind fun r => (getNodeM _).bind fun n => ?_
  split
  · exact (lift _).bind fun _ => (storeNode _).bind fun _ => pure _
  · exact (lift _).bind fun _ => (storeNode _).bind fun _ => pure _
  · exact (storeNode _).bind fun _ => pure _

theorem afterDeleted (bs : List Bytes) (d : Bytes) : Writes E (MPT.afterDeleted E bs d) := by
  unfold MPT.afterDeleted
  simp only
  split
  · exact pure _
  · split
    · exact (storeNode _).bind fun _ => pure _
    · split
      · exact buildFromLastBranch _
      · exact (storeNode _).bind fun _ => pure _

theorem deleteAux (f : Nat) (ref : Bytes) (path : NibblePath) :
    Writes E (MPT.deleteAux E f ref path) := by
  induction f generalizing ref path with
  | zero => exact raise _
  | succ f ih =>
    unfold MPT.deleteAux
    refine (getNodeM _).bind fun node => ?_
    split
    · refine (lift _).bind fun same => ?_
      split
      · exact pure _
      · exact raise _
    · refine (lift _).bind fun pre => ?_
      split
      · exact raise _
      · refine (lift _).bind fun m => (ih _ _).bind fun act => ?_
        split
        · exact pure _
        · exact (storeNode _).bind fun _ => pure _
        · refine (getNodeM _).bind fun n => ?_
          split <;> exact (lift _).bind fun _ => (storeNode _).bind fun _ => pure _
    · refine (lift _).bind fun n => ?_
      split
      · exact raise _
      · split
        · exact raise _
        · split
          · exact afterDeleted _ _
          · refine (lift _).bind fun i => (lift _).bind fun c => ?_
            split
            · exact raise _
            · refine (ih _ _).bind fun act => ?_
              split
              · exact (lift _).bind fun _ => afterDeleted _ _
              · exact (lift _).bind fun _ => (storeNode _).bind fun _ => pure _
              · exact (lift _).bind fun _ => (storeNode _).bind fun _ => pure _

end Writes
end Pymt
