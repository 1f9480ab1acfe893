import Verif.Lemmas.History

/-!
# Two storages that do not contradict each other

Whatever the trie code does, it does the same on two storages that agree where both have an entry, until
one of them lacks an entry it needs.
-/

namespace Pymt

/-- Where both storages have an entry, it is the same. -/
def Agree (a b : Dict Bytes) : Prop := ∀ k v w, dget a k = some v → dget b k = some w → v = w

theorem Agree.symm {a b : Dict Bytes} (h : Agree a b) : Agree b a := fun k v w hv hw => (h k w v hw hv).symm

theorem Agree.set {a b : Store} (h : Agree a.kv b.kv) (k v : Bytes) : Agree (a.set k v).kv (b.set k v).kv := by
  intro k' x y hx hy
  simp only [Store.set, dget_dset] at hx hy
  split at hx
  · rename_i e
    rw [if_pos e] at hy
    cases hx; cases hy; rfl
  · rename_i e
    rw [if_neg e] at hy
    exact h _ _ _ hx hy

/-- Two outcomes are the same, or one of them is a KeyError. -/
def SameR {α : Type} (r r' : Py α) : Prop := r = .error .keyError ∨ r' = .error .keyError ∨ r = r'

namespace SameR
variable {α β : Type}

theorem refl (r : Py α) : SameR r r := .inr (.inr rfl)

theorem bind {r r' : Py α} {f f' : α → Py β} (h : SameR r r') (hf : ∀ a, SameR (f a) (f' a)) :
    SameR (r >>= f) (r' >>= f') := by
  rcases h with rfl | rfl | rfl
  · exact .inl rfl
  · exact .inr (.inl rfl)
  · cases r with
    | error e => exact refl _
    | ok a => exact hf a

theorem getNode {kv kv' : Dict Bytes} (h : Agree kv kv') (r : Bytes) :
    SameR (MPT.getNode kv r) (MPT.getNode kv' r) := by
  unfold MPT.getNode
  by_cases hl : r.length = 32
  · simp only [hl, if_true]
    refine bind ?_ fun _ => refl _
    unfold dgetItem
    cases h1 : dget kv r with
    | none => exact .inl rfl
    | some v =>
      cases h2 : dget kv' r with
      | none => exact .inr (.inl rfl)
      | some w => rw [h _ _ _ h1 h2]; exact refl _
  · simp only [hl, if_false]
    exact refl _

theorem getAux {kv kv' : Dict Bytes} (h : Agree kv kv') (f : Nat) (r : Bytes) (p : NibblePath) :
    SameR (MPT.getAux kv f r p) (MPT.getAux kv' f r p) := by
  induction f generalizing r p with
  | zero => exact refl _
  | succ f ih =>
    unfold MPT.getAux
    refine bind (getNode h r) fun node => bind (refl _) fun n => ?_
    split
    · exact refl _
    · split
      · exact refl _
      · refine bind (refl _) fun pre => ?_
        split
        · exact bind (refl _) fun m => ih _ _
        · exact refl _
      · refine bind (refl _) fun i => bind (refl _) fun b => ?_
        split
        · exact ih _ _
        · exact refl _

theorem containsAux {kv kv' : Dict Bytes} (h : Agree kv kv') (n : Bool) (f : Nat) (r : Bytes) (p : NibblePath) :
    SameR (MPT.containsAux n kv f r p) (MPT.containsAux n kv' f r p) := by
  induction f generalizing r p with
  | zero => exact refl _
  | succ f ih =>
    unfold MPT.containsAux
    split
    · exact refl _
    refine bind (getNode h r) fun node => bind (refl _) fun n => ?_
    split
    · exact refl _
    · split
      · exact refl _
      · refine bind (refl _) fun pre => ?_
        split
        · exact bind (refl _) fun m => ih _ _
        · exact refl _
      · refine bind (refl _) fun i => bind (refl _) fun b => ?_
        split
        · exact ih _ _
        · exact refl _

theorem getPoiAux {kv kv' : Dict Bytes} (h : Agree kv kv') (f : Nat) (r : Bytes) (p : NibblePath)
    (l : List Bytes) : SameR (MPT.getPoiAux kv f r p l) (MPT.getPoiAux kv' f r p l) := by
  induction f generalizing r p l with
  | zero => exact refl _
  | succ f ih =>
    unfold MPT.getPoiAux
    refine bind (getNode h r) fun node => bind (refl _) fun n => ?_
    split
    · exact refl _
    · split
      · exact refl _
      · refine bind (refl _) fun pre => ?_
        split
        · exact bind (refl _) fun m => bind (refl _) fun e => ih _ _ _
        · exact refl _
      · refine bind (refl _) fun i => bind (refl _) fun b => ?_
        split
        · exact bind (refl _) fun e => ih _ _ _
        · exact refl _

theorem getPoeAux {kv kv' : Dict Bytes} (h : Agree kv kv') (f : Nat) (r : Bytes) (p : NibblePath)
    (l : List Bytes) : SameR (MPT.getPoeAux kv f r p l) (MPT.getPoeAux kv' f r p l) := by
  induction f generalizing r p l with
  | zero => exact refl _
  | succ f ih =>
    unfold MPT.getPoeAux
    refine bind (getNode h r) fun node => bind (refl _) fun n => ?_
    split
    · exact refl _
    · split
      · exact refl _
      · refine bind (refl _) fun pre => ?_
        split
        · exact bind (refl _) fun m => bind (refl _) fun e => ih _ _ _
        · exact refl _
      · refine bind (refl _) fun i => bind (refl _) fun b => bind (refl _) fun e => ?_
        split
        · exact ih _ _ _
        · exact refl _

end SameR

/-- Two trie objects with the same root and mode, over storages that agree. -/
structure Alike (t t' : MPT) : Prop where
  root : t.root = t'.root
  secure : t.secure = t'.secure
  agree : Agree t.store.kv t'.store.kv

namespace Alike
variable {E : Env} {t t' : MPT}

theorem keyOf (h : Alike t t') (k : Bytes) : t.keyOf E k = t'.keyOf E k := by simp [MPT.keyOf, h.secure]

theorem get (h : Alike t t') (k : Bytes) : SameR (t.get E k) (t'.get E k) := by
  unfold MPT.get MPT.rootFalsy
  rw [h.root, h.keyOf]
  split
  · exact SameR.refl _
  · refine SameR.bind (SameR.getAux h.agree _ _ _) fun node => ?_
    exact SameR.refl _

theorem contains (h : Alike t t') (k : Bytes) : SameR (t.contains E k) (t'.contains E k) := by
  unfold MPT.contains MPT.rootFalsy MPT.noRoot
  rw [h.root, h.keyOf]
  split
  · exact SameR.refl _
  · refine SameR.bind (SameR.containsAux h.agree _ _ _ _) fun node => ?_
    exact SameR.refl _

theorem getPoi (h : Alike t t') (now k : Bytes) : SameR (t.getPoi E now k) (t'.getPoi E now k) := by
  unfold MPT.getPoi MPT.noRoot
  rw [h.root, h.keyOf]
  split
  · exact SameR.refl _
  · exact SameR.bind (SameR.getPoiAux h.agree _ _ _ _) fun node => SameR.refl _

theorem getPoe (h : Alike t t') (now k : Bytes) : SameR (t.getPoe E now k) (t'.getPoe E now k) := by
  unfold MPT.getPoe MPT.noRoot MPT.rootHash
  rw [h.root, h.keyOf]
  split
  · exact SameR.refl _
  · refine SameR.bind (h.contains k) fun b => ?_
    split
    · exact SameR.refl _
    · exact SameR.bind (SameR.getPoeAux h.agree _ _ _ _) fun x => SameR.refl _

theorem verifyPoi (h : Alike t t') (p : Proof Bytes) : t.verifyPoi E p = t'.verifyPoi E p := by
  unfold MPT.verifyPoi MPT.noRoot MPT.rootHash
  rw [h.root]

theorem verifyPoe (h : Alike t t') (p : Proof Bytes) : t.verifyPoe E p = t'.verifyPoe E p := by
  unfold MPT.verifyPoe MPT.noRoot MPT.rootHash
  rw [h.root]

end Alike

/-- A computation does the same on storages that agree, unless one of them lacks an entry. -/
def SameM {α : Type} (m : M Store α) : Prop := ∀ st st', Agree st.kv st'.kv →
  (m st).1 = .error .keyError ∨ (m st').1 = .error .keyError ∨
    ((m st).1 = (m st').1 ∧ Agree (m st).2.kv (m st').2.kv)

namespace SameM
variable {E : Env} {α β : Type}

theorem const {m : M Store α} (r : Py α) (h : ∀ st, m st = (r, st)) : SameM m := fun st st' ha => by
  rw [h, h]; exact .inr (.inr ⟨rfl, ha⟩)

theorem pure (a : α) : SameM (Pure.pure a : M Store α) := const _ fun _ => rfl
theorem lift (m : Py α) : SameM (M.lift m : M Store α) := const _ fun _ => rfl
theorem raise (e : Err) : SameM (M.raise e : M Store α) := const _ fun _ => rfl

theorem bind {m : M Store α} {f : α → M Store β} (hm : SameM m) (hf : ∀ a, SameM (f a)) :
    SameM (m >>= f) := by
  intro st st' ha
  have := hm st st' ha
  simp only [M.bind_apply]
  revert this
  cases m st with
  | mk r s =>
    cases m st' with
    | mk r' s' =>
      rintro (e | e | ⟨e, h⟩)
      · simp only at e; subst e; exact .inl rfl
      · simp only at e; subst e; exact .inr (.inl rfl)
      · simp only at e h
        subst e
        cases r with
        | error e => exact .inr (.inr ⟨rfl, h⟩)
        | ok a => exact hf a s s' h

theorem getNodeM (ref : Bytes) : SameM (MPT.getNodeM ref) := by
  intro st st' ha
  rcases SameR.getNode ha ref with h | h | h
  · exact .inl h
  · exact .inr (.inl h)
  · exact .inr (.inr ⟨h, ha⟩)

theorem storeNode (n : Node) : SameM (MPT.storeNode E n) := by
  unfold MPT.storeNode
  refine (lift _).bind fun r => ?_
  split
  · refine (lift _).bind fun enc => ?_
    intro st st' ha
    exact .inr (.inr ⟨rfl, ha.set _ _⟩)
  · exact pure _

theorem createBranchLeaf (path : NibblePath) (v : Bytes) (bs : List Bytes) :
    SameM (MPT.createBranchLeaf E path v bs) := by
  unfold MPT.createBranchLeaf
  refine (lift _).bind fun n => ?_
  split
  · exact (lift _).bind fun _ => (storeNode _).bind fun _ => lift _
  · exact pure _

theorem createBranchExtension (path : NibblePath) (r : Bytes) (bs : List Bytes) :
    SameM (MPT.createBranchExtension E path r bs) := by
  unfold MPT.createBranchExtension
  refine (lift _).bind fun n => ?_
  split
  · exact raise _
  · split
    · exact (lift _).bind fun _ => lift _
    · exact (lift _).bind fun _ => (storeNode _).bind fun _ => lift _

theorem createBranchNode (pa : NibblePath) (va : Bytes) (pb : NibblePath) (vb : Bytes) :
    SameM (MPT.createBranchNode E pa va pb vb) := by
  unfold MPT.createBranchNode
  refine (lift _).bind fun a => (lift _).bind fun b => ?_
  split
  · exact raise _
  · exact (createBranchLeaf _ _ _).bind fun _ => (createBranchLeaf _ _ _).bind fun _ => storeNode _

theorem updateAux (f : Nat) (ref : Bytes) (path : NibblePath) (v : Bytes) :
    SameM (MPT.updateAux E f ref path v) := by
  induction f generalizing ref path with
  | zero => exact raise _
  | succ f ih =>
    unfold MPT.updateAux
    split
    · exact storeNode _
    refine (getNodeM _).bind fun node => ?_
    split
    · refine (lift _).bind fun same => ?_
      split
      · exact storeNode _
      · refine (lift _).bind fun c => (lift _).bind fun n => (createBranchNode _ _ _ _).bind fun r => ?_
        split
        · exact storeNode _
        · exact pure _
    · refine (lift _).bind fun pre => ?_
      split
      · exact (lift _).bind fun _ => (ih _ _).bind fun _ => storeNode _
      · refine (lift _).bind fun c => (lift _).bind fun n => (lift _).bind fun m =>
          (createBranchLeaf _ _ _).bind fun _ => (createBranchExtension _ _ _).bind fun _ =>
          (storeNode _).bind fun r => ?_
        split
        · exact storeNode _
        · exact pure _
    · refine (lift _).bind fun n => ?_
      split
      · exact storeNode _
      · exact (lift _).bind fun _ => (lift _).bind fun _ => (ih _ _).bind fun _ =>
          (lift _).bind fun _ => storeNode _

theorem buildFromLastBranch (bs : List Bytes) : SameM (MPT.buildFromLastBranch E bs) := by
  unfold MPT.buildFromLastBranch
  refine (lift _).bind fun r => (getNodeM _).bind fun n => ?_
  split
  · exact (lift _).bind fun _ => (storeNode _).bind fun _ => pure _
  · exact (lift _).bind fun _ => (storeNode _).bind fun _ => pure _
  · exact (storeNode _).bind fun _ => pure _

theorem afterDeleted (bs : List Bytes) (d : Bytes) : SameM (MPT.afterDeleted E bs d) := by
  unfold MPT.afterDeleted
  simp only
  split
  · exact pure _
  · split
    · exact (storeNode _).bind fun _ => pure _
    · split
      · exact buildFromLastBranch _
      · exact (storeNode _).bind fun _ => pure _

theorem deleteAux (f : Nat) (ref : Bytes) (path : NibblePath) :
    SameM (MPT.deleteAux E f ref path) := by
  induction f generalizing ref path with
  | zero => exact raise _
  | succ f ih =>
    unfold MPT.deleteAux
    refine (getNodeM _).bind fun node => ?_
    split
    · refine (lift _).bind fun same => ?_
      split
      · exact pure _
      · exact raise _
    · refine (lift _).bind fun pre => ?_
      split
      · exact raise _
      · refine (lift _).bind fun m => (ih _ _).bind fun act => ?_
        split
        · exact pure _
        · exact (storeNode _).bind fun _ => pure _
        · refine (getNodeM _).bind fun n => ?_
          split <;> exact (lift _).bind fun _ => (storeNode _).bind fun _ => pure _
    · refine (lift _).bind fun n => ?_
      split
      · exact raise _
      · split
        · exact raise _
        · split
          · exact afterDeleted _ _
          · refine (lift _).bind fun i => (lift _).bind fun c => ?_
            split
            · exact raise _
            · refine (ih _ _).bind fun act => ?_
              split
              · exact (lift _).bind fun _ => afterDeleted _ _
              · exact (lift _).bind fun _ => (storeNode _).bind fun _ => pure _
              · exact (lift _).bind fun _ => (storeNode _).bind fun _ => pure _

end SameM

namespace Alike
variable {E : Env} {t t' : MPT}

theorem exec (h : Alike t t') (op : Op) :
    (MPT.exec E op t).1 = .error .keyError ∨ (MPT.exec E op t').1 = .error .keyError ∨
    ((MPT.exec E op t).1 = (MPT.exec E op t').1 ∧ Alike (MPT.exec E op t).2 (MPT.exec E op t').2) := by
  cases op with
  | update k v =>
    simp only [MPT.exec]
    rw [T.update_eq, T.update_eq, h.root, h.keyOf]
    have := SameM.updateAux (E := E) E.limit (t'.root.getD []) ⟨t'.keyOf E k, 0⟩ v _ _ h.agree
    revert this
    cases MPT.updateAux E E.limit (t'.root.getD []) ⟨t'.keyOf E k, 0⟩ v t.store with
    | mk r s =>
      cases MPT.updateAux E E.limit (t'.root.getD []) ⟨t'.keyOf E k, 0⟩ v t'.store with
      | mk r' s' =>
        rintro (e | e | ⟨e, ha⟩)
        · simp only at e; subst e; exact .inl rfl
        · simp only at e; subst e; exact .inr (.inl rfl)
        · simp only at e ha
          subst e
          cases r with
          | error e => exact .inr (.inr ⟨rfl, rfl, h.secure, ha⟩)
          | ok a => exact .inr (.inr ⟨rfl, rfl, h.secure, ha⟩)
  | delete k =>
    simp only [MPT.exec]
    rw [T.delete_eq, T.delete_eq, h.root, h.keyOf]
    rw [show t.noRoot E = t'.noRoot E by unfold MPT.noRoot; rw [h.root]]
    split
    · exact .inr (.inr ⟨rfl, h⟩)
    have := SameM.deleteAux (E := E) E.limit (t'.root.getD []) ⟨t'.keyOf E k, 0⟩ _ _ h.agree
    revert this
    cases MPT.deleteAux E E.limit (t'.root.getD []) ⟨t'.keyOf E k, 0⟩ t.store with
    | mk r s =>
      cases MPT.deleteAux E E.limit (t'.root.getD []) ⟨t'.keyOf E k, 0⟩ t'.store with
      | mk r' s' =>
        rintro (e | e | ⟨e, ha⟩)
        · simp only at e; subst e; exact .inl rfl
        · simp only at e; subst e; exact .inr (.inl rfl)
        · simp only at e ha
          subst e
          cases r with
          | error e => exact .inr (.inr ⟨rfl, rfl, h.secure, ha⟩)
          | ok a => exact .inr (.inr ⟨rfl, rfl, h.secure, ha⟩)

end Alike

/-- A failing call leaves the root alone. -/
theorem exec_error_root {E : Env} {op : Op} {t : MPT} {e : Err} (h : (MPT.exec E op t).1 = .error e) :
    (MPT.exec E op t).2.root = t.root := by
  cases op with
  | update k v =>
    simp only [MPT.exec] at h ⊢
    rw [T.update_eq] at h ⊢
    revert h
    cases MPT.updateAux E E.limit (t.root.getD []) ⟨t.keyOf E k, 0⟩ v t.store with
    | mk r s => cases r <;> simp
  | delete k =>
    simp only [MPT.exec] at h ⊢
    rw [T.delete_eq] at h ⊢
    split at h
    · rename_i hn; rw [if_pos hn]
    · rename_i hn
      rw [if_neg hn]
      revert h
      cases MPT.deleteAux E E.limit (t.root.getD []) ⟨t.keyOf E k, 0⟩ t.store with
      | mk r s => cases r <;> simp

end Pymt
