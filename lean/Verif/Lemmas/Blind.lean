import Verif.Lemmas.History

/-!
# The ghost log is not read

Results and storage entries do not depend on `Store.written`.
-/

namespace Pymt

/-- The computation gives the same result and entries whatever the log is. -/
def Blind {α : Type} (m : M Store α) : Prop :=
  ∀ st st', st.kv = st'.kv → (m st).1 = (m st').1 ∧ (m st).2.kv = (m st').2.kv

namespace Blind
variable {E : Env} {α β : Type}

theorem pure (a : α) : Blind (Pure.pure a : M Store α) := fun _ _ h => ⟨rfl, h⟩
theorem lift (m : Py α) : Blind (M.lift m : M Store α) := fun _ _ h => ⟨rfl, h⟩
theorem raise (e : Err) : Blind (M.raise e : M Store α) := fun _ _ h => ⟨rfl, h⟩

theorem bind {m : M Store α} {f : α → M Store β} (hm : Blind m) (hf : ∀ a, Blind (f a)) :
    Blind (m >>= f) := by
  intro st st' h
  obtain ⟨h1, h2⟩ := hm st st' h
  simp only [M.bind_apply]
  cases e : m st with
  | mk r s1 =>
    cases e' : m st' with
    | mk r' s1' =>
      rw [e, e'] at h1 h2
      simp only at h1 h2
      subst h1
      cases r with
      | error x => exact ⟨rfl, h2⟩
      | ok a => exact hf a s1 s1' h2

theorem getNodeM (ref : Bytes) : Blind (MPT.getNodeM ref) := by
  intro st st' h
  simp [MPT.getNodeM, h]

theorem storeNode (n : Node) : Blind (MPT.storeNode E n) := by
  unfold MPT.storeNode
  refine (lift _).bind fun r => ?_
  split
  · refine (lift _).bind fun enc => bind (fun st st' h => ?_) fun _ => pure _
    simp [Store.set, h]
  · exact pure _

theorem createBranchLeaf (path : NibblePath) (v : Bytes) (bs : List Bytes) :
    Blind (MPT.createBranchLeaf E path v bs) := by
  unfold MPT.createBranchLeaf
  refine (lift _).bind fun n => ?_
  split
  · exact (lift _).bind fun _ => (storeNode _).bind fun _ => lift _
  · exact pure _

theorem createBranchExtension (path : NibblePath) (r : Bytes) (bs : List Bytes) :
    Blind (MPT.createBranchExtension E path r bs) := by
  unfold MPT.createBranchExtension
  refine (lift _).bind fun n => ?_
  split
  · exact raise _
  · split
    · exact (lift _).bind fun _ => lift _
    · exact (lift _).bind fun _ => (storeNode _).bind fun _ => lift _

theorem createBranchNode (pa : NibblePath) (va : Bytes) (pb : NibblePath) (vb : Bytes) :
    Blind (MPT.createBranchNode E pa va pb vb) := by
  unfold MPT.createBranchNode
  refine (lift _).bind fun a => (lift _).bind fun b => ?_
  split
  · exact raise _
  · exact (createBranchLeaf _ _ _).bind fun _ => (createBranchLeaf _ _ _).bind fun _ => storeNode _

theorem updateAux (f : Nat) (ref : Bytes) (path : NibblePath) (v : Bytes) :
    Blind (MPT.updateAux E f ref path v) := by
  induction f generalizing ref path with
  | zero => exact raise _
  | succ f ih =>
    unfold MPT.updateAux
    split
    · exact storeNode _
    refine (getNodeM _).bind fun node => ?_
    split
    · refine (lift _).bind fun same => ?_
      split
      · exact storeNode _
      · refine (lift _).bind fun c => (lift _).bind fun n => (createBranchNode _ _ _ _).bind fun r => ?_
        split
        · exact storeNode _
        · exact pure _
    · refine (lift _).bind fun pre => ?_
      split
      · exact (lift _).bind fun _ => (ih _ _).bind fun _ => storeNode _
      · refine (lift _).bind fun c => (lift _).bind fun n => (lift _).bind fun m =>
          (createBranchLeaf _ _ _).bind fun _ => (createBranchExtension _ _ _).bind fun _ =>
          (storeNode _).bind fun r => ?_
        split
        · exact storeNode _
        · exact pure _
    · refine (lift _).bind fun n => ?_
      split
      · exact storeNode _
      · exact (lift _).bind fun _ => (lift _).bind fun _ => (ih _ _).bind fun _ =>
          (lift _).bind fun _ => storeNode _

theorem buildFromLastBranch (bs : List Bytes) : Blind (MPT.buildFromLastBranch E bs) := by
  unfold MPT.buildFromLastBranch
  refine (lift _).bind fun r => (getNodeM _).bind fun n => ?_
  split
  · exact (lift _).bind fun _ => (storeNode _).bind fun _ => pure _
  · exact (lift _).bind fun _ => (storeNode _).bind fun _ => pure _
  · exact (storeNode _).bind fun _ => pure _

theorem afterDeleted (bs : List Bytes) (d : Bytes) : Blind (MPT.afterDeleted E bs d) := by
  unfold MPT.afterDeleted
  simp only
  split
  · exact pure _
  · split
    · exact (storeNode _).bind fun _ => pure _
    · split
      · exact buildFromLastBranch _
      · exact (storeNode _).bind fun _ => pure _

theorem deleteAux (f : Nat) (ref : Bytes) (path : NibblePath) :
    Blind (MPT.deleteAux E f ref path) := by
  induction f generalizing ref path with
  | zero => exact raise _
  | succ f ih =>
    unfold MPT.deleteAux
    refine (getNodeM _).bind fun node => ?_
    split
    · refine (lift _).bind fun same => ?_
      split
      · exact pure _
      · exact raise _
    · refine (lift _).bind fun pre => ?_
      split
      · exact raise _
      · refine (lift _).bind fun m => (ih _ _).bind fun act => ?_
        split
        · exact pure _
        · exact (storeNode _).bind fun _ => pure _
        · refine (getNodeM _).bind fun n => ?_
          split <;> exact (lift _).bind fun _ => (storeNode _).bind fun _ => pure _
    · refine (lift _).bind fun n => ?_
      split
      · exact raise _
      · split
        · exact raise _
        · split
          · exact afterDeleted _ _
          · refine (lift _).bind fun i => (lift _).bind fun c => ?_
            split
            · exact raise _
            · refine (ih _ _).bind fun act => ?_
              split
              · exact (lift _).bind fun _ => afterDeleted _ _
              · exact (lift _).bind fun _ => (storeNode _).bind fun _ => pure _
              · exact (lift _).bind fun _ => (storeNode _).bind fun _ => pure _

end Blind

/-- Two objects that differ in the log only. -/
def SameButLog (t t' : MPT) : Prop := t.store.kv = t'.store.kv ∧ t.root = t'.root ∧ t.secure = t'.secure

/-- Queries do not read the log. -/
theorem SameButLog.queries {E : Env} {t t' : MPT} (h : SameButLog t t') :
    (∀ k, t.contains E k = t'.contains E k ∧ t.get E k = t'.get E k) ∧
    (∀ now k, t.getPoi E now k = t'.getPoi E now k ∧ t.getPoe E now k = t'.getPoe E now k) ∧
    (∀ p, t.verifyPoi E p = t'.verifyPoi E p ∧ t.verifyPoe E p = t'.verifyPoe E p) ∧
    t.rootHash E = t'.rootHash E ∧ t.encode = t'.encode ∧ t.len = t'.len := by
  obtain ⟨⟨kv, w⟩, r, s⟩ := t
  obtain ⟨⟨kv', w'⟩, r', s'⟩ := t'
  obtain ⟨h1, h2, h3⟩ := h
  simp only at h1 h2 h3
  subst h1 h2 h3
  exact ⟨fun _ => ⟨rfl, rfl⟩, fun _ _ => ⟨rfl, rfl⟩, fun _ => ⟨rfl, rfl⟩, rfl, rfl, rfl⟩

theorem SameButLog.exec {E : Env} {t t' : MPT} (h : SameButLog t t') (op : Op) :
    (MPT.exec E op t).1 = (MPT.exec E op t').1 ∧ SameButLog (MPT.exec E op t).2 (MPT.exec E op t').2 := by
  obtain ⟨h1, h2, h3⟩ := h
  have hk : ∀ k, t.keyOf E k = t'.keyOf E k := fun k => by simp [keyOf_eq, h3]
  cases op with
  | update k v =>
    simp only [MPT.exec]
    rw [T.update_eq, T.update_eq, ← h2, ← hk]
    have := Blind.updateAux (E := E) E.limit (t.root.getD []) ⟨t.keyOf E k, 0⟩ v _ _ h1
    revert this
    cases MPT.updateAux E E.limit (t.root.getD []) ⟨t.keyOf E k, 0⟩ v t.store with
    | mk r s =>
      cases MPT.updateAux E E.limit (t.root.getD []) ⟨t.keyOf E k, 0⟩ v t'.store with
      | mk r' s' =>
        rintro ⟨e1, e2⟩
        simp only at e1 e2
        subst e1
        cases r with
        | error e => exact ⟨rfl, e2, rfl, h3⟩
        | ok r => exact ⟨rfl, e2, rfl, h3⟩
  | delete k =>
    simp only [MPT.exec]
    rw [T.delete_eq, T.delete_eq]
    have hn : t.noRoot E = t'.noRoot E := by simp [MPT.noRoot, h2]
    rw [← hn, ← h2, ← hk]
    split
    · exact ⟨rfl, h1, h2, h3⟩
    · have := Blind.deleteAux (E := E) E.limit (t.root.getD []) ⟨t.keyOf E k, 0⟩ _ _ h1
      revert this
      cases MPT.deleteAux E E.limit (t.root.getD []) ⟨t.keyOf E k, 0⟩ t.store with
      | mk r s =>
        cases MPT.deleteAux E E.limit (t.root.getD []) ⟨t.keyOf E k, 0⟩ t'.store with
        | mk r' s' =>
          rintro ⟨e1, e2⟩
          simp only at e1 e2
          subst e1
          cases r with
          | error e => exact ⟨rfl, e2, rfl, h3⟩
          | ok r => exact ⟨rfl, e2, rfl, h3⟩

theorem SameButLog.run {E : Env} {t t' : MPT} (h : SameButLog t t') (ops : List Op) :
    SameButLog (MPT.run E ops t) (MPT.run E ops t') := by
  induction ops generalizing t t' with
  | nil => exact h
  | cons op ops ih => exact ih (h.exec op).2

end Pymt
