import Verif.Spec.Heap
import Verif.Lemmas.Empt

/-!
# Lemmas on storages as objects
-/

namespace Pymt

theorem getD_set_same {α : Type} {l : List α} {i : Nat} {x d : α} (h : i < l.length) :
    (l.set i x).getD i d = x := by
  simp [List.getD, h]

theorem getD_set_other {α : Type} {l : List α} {i j : Nat} {x d : α} (h : i ≠ j) :
    (l.set i x).getD j d = l.getD j d := by
  simp [List.getD, List.getElem?_set_ne h]

/-- The dicts of an object exist. -/
def EObj.Alive (o : EObj) (h : Heap) : Prop := o.trieAddr < h.tries.length ∧ o.dataAddr < h.datas.length

/-- The dict of an object exists. -/
def SObj.Alive (o : SObj) (h : Heap) : Prop := o.trieAddr < h.tries.length

theorem EObj.call_eq {α : Type} (m : M EMPT α) {o : EObj} {h : Heap} (ha : o.Alive h) :
    (EObj.call m o h).1 = (m (o.load h)).1 ∧
    (EObj.call m o h).2.1.load (EObj.call m o h).2.2 = (m (o.load h)).2 ∧
    (EObj.call m o h).2.1.trieAddr = o.trieAddr ∧ (EObj.call m o h).2.1.dataAddr = o.dataAddr ∧
    (EObj.call m o h).2.2.tries.length = h.tries.length ∧ (EObj.call m o h).2.2.datas.length = h.datas.length := by
  refine ⟨rfl, ?_, rfl, rfl, ?_, ?_⟩
  · simp only [call, save, load, Heap.trieAt, Heap.dataAt]
    rw [getD_set_same ha.1, getD_set_same ha.2]
  · simp [call, save]
  · simp [call, save]

theorem EObj.call_other {α : Type} (m : M EMPT α) {o p : EObj} {h : Heap}
    (h1 : o.trieAddr ≠ p.trieAddr) (h2 : o.dataAddr ≠ p.dataAddr) :
    p.load (EObj.call m o h).2.2 = p.load h := by
  simp only [call, save, load, Heap.trieAt, Heap.dataAt]
  rw [getD_set_other h1, getD_set_other h2]

theorem EObj.call_sparse {α : Type} (m : M EMPT α) {o : EObj} {p : SObj} {h : Heap}
    (h1 : o.trieAddr ≠ p.trieAddr) : p.load (EObj.call m o h).2.2 = p.load h := by
  simp only [call, save, SObj.load, Heap.trieAt]
  rw [getD_set_other h1]

theorem SObj.call_eq {α : Type} (m : M MPT α) {o : SObj} {h : Heap} (ha : o.Alive h) :
    (SObj.call m o h).1 = (m (o.load h)).1 ∧
    (SObj.call m o h).2.1.load (SObj.call m o h).2.2 = (m (o.load h)).2 ∧
    (SObj.call m o h).2.1.trieAddr = o.trieAddr ∧
    (SObj.call m o h).2.2.tries.length = h.tries.length ∧ (SObj.call m o h).2.2.datas.length = h.datas.length := by
  refine ⟨rfl, ?_, rfl, ?_, ?_⟩
  · simp only [call, load, Heap.trieAt]
    rw [getD_set_same ha]
  · simp [call]
  · simp [call]

theorem SObj.call_other {α : Type} (m : M MPT α) {o : SObj} {p : EObj} {h : Heap}
    (h1 : p.trieAddr ≠ o.trieAddr) : p.load (SObj.call m o h).2.2 = p.load h := by
  simp only [call, EObj.load, Heap.trieAt, Heap.dataAt]
  rw [getD_set_other (Ne.symm h1)]

/-- Two `EMPT` objects without a common dict do not influence each other. -/
theorem runEE_frame {α : Type} (cs : List (M EMPT α ⊕ M EMPT α)) {o p : EObj} {h : Heap}
    (ho : o.Alive h) (hp : p.Alive h) (h1 : o.trieAddr ≠ p.trieAddr) (h2 : o.dataAddr ≠ p.dataAddr) :
    (leftResults (runEE cs o p h).1, (runEE cs o p h).2.1.load (runEE cs o p h).2.2.2) =
      runAlone (leftCalls cs) (o.load h) ∧
    (rightResults (runEE cs o p h).1, (runEE cs o p h).2.2.1.load (runEE cs o p h).2.2.2) =
      runAlone (rightCalls cs) (p.load h) := by
  induction cs generalizing o p h with
  | nil => exact ⟨rfl, rfl⟩
  | cons c cs ih =>
    cases c with
    | inl m =>
      obtain ⟨e1, e2, e3, e4, e5, e6⟩ := EObj.call_eq m ho
      have eo := EObj.call_other (h := h) m h1 h2
      have := ih (o := (EObj.call m o h).2.1) (p := p) (h := (EObj.call m o h).2.2)
        ⟨by rw [e3, e5]; exact ho.1, by rw [e4, e6]; exact ho.2⟩
        ⟨by rw [e5]; exact hp.1, by rw [e6]; exact hp.2⟩ (by rw [e3]; exact h1) (by rw [e4]; exact h2)
      simp only [runEE, leftCalls, rightCalls, leftResults, rightResults, runAlone]
      rw [e2, eo] at this
      refine ⟨?_, this.2⟩
      rw [← this.1, e1]
    | inr m =>
      obtain ⟨e1, e2, e3, e4, e5, e6⟩ := EObj.call_eq m hp
      have eo := EObj.call_other (h := h) m (Ne.symm h1) (Ne.symm h2)
      have := ih (o := o) (p := (EObj.call m p h).2.1) (h := (EObj.call m p h).2.2)
        ⟨by rw [e5]; exact ho.1, by rw [e6]; exact ho.2⟩
        ⟨by rw [e3, e5]; exact hp.1, by rw [e4, e6]; exact hp.2⟩ (by rw [e3]; exact h1) (by rw [e4]; exact h2)
      simp only [runEE, leftCalls, rightCalls, leftResults, rightResults, runAlone]
      rw [e2, eo] at this
      refine ⟨this.1, ?_⟩
      rw [← this.2, e1]

/-- An `EMPT` and a `SparseEMPT` without a common dict do not influence each other. -/
theorem runES_frame {α : Type} (cs : List (M EMPT α ⊕ M MPT α)) {o : EObj} {p : SObj} {h : Heap}
    (ho : o.Alive h) (hp : p.Alive h) (h1 : o.trieAddr ≠ p.trieAddr) :
    (leftResults (runES cs o p h).1, (runES cs o p h).2.1.load (runES cs o p h).2.2.2) =
      runAlone (leftCalls cs) (o.load h) ∧
    (rightResults (runES cs o p h).1, (runES cs o p h).2.2.1.load (runES cs o p h).2.2.2) =
      runAlone (rightCalls cs) (p.load h) := by
  induction cs generalizing o p h with
  | nil => exact ⟨rfl, rfl⟩
  | cons c cs ih =>
    cases c with
    | inl m =>
      obtain ⟨e1, e2, e3, e4, e5, e6⟩ := EObj.call_eq m ho
      have eo := EObj.call_sparse (h := h) m h1
      have := ih (o := (EObj.call m o h).2.1) (p := p) (h := (EObj.call m o h).2.2)
        ⟨by rw [e3, e5]; exact ho.1, by rw [e4, e6]; exact ho.2⟩
        (by unfold SObj.Alive; rw [e5]; exact hp) (by rw [e3]; exact h1)
      simp only [runES, leftCalls, rightCalls, leftResults, rightResults, runAlone]
      rw [e2, eo] at this
      refine ⟨?_, this.2⟩
      rw [← this.1, e1]
    | inr m =>
      obtain ⟨e1, e2, e3, e5, e6⟩ := SObj.call_eq m hp
      have eo := SObj.call_other (h := h) m h1
      have := ih (o := o) (p := (SObj.call m p h).2.1) (h := (SObj.call m p h).2.2)
        ⟨by rw [e5]; exact ho.1, by rw [e6]; exact ho.2⟩
        (by unfold SObj.Alive; rw [e3, e5]; exact hp) (by rw [e3]; exact h1)
      simp only [runES, leftCalls, rightCalls, leftResults, rightResults, runAlone]
      rw [e2, eo] at this
      refine ⟨this.1, ?_⟩
      rw [← this.2, e1]

/-! ### `SparseEMPT` -/

namespace Sparse

/-- A value that `SparseEMPT.update` treats like `EMPT.update`. -/
def flat : Value → Bool
  | .obj _ _ _ _ => false
  | _ => true

theorem delete_eq (E : Env) (k : Bytes) (t : MPT) : delete E k t =
    match t.contains E k with
    | .error e => (.error e, t)
    | .ok false => (.error .keyNotFound, t)
    | .ok true => MPT.delete E k t := by
  unfold delete
  simp only [M.bind_apply, M.get_apply, M.lift_apply]
  cases t.contains E k with
  | error e => rfl
  | ok b => cases b <;> rfl

theorem after_append (E : Env) (secure : Bool) (ops ops' : List EOp) :
    after E secure (ops ++ ops') = run E ops' (after E secure ops) := by
  simp [after, run]

end Sparse

/-- The `SparseEMPT` given the same calls holds the same trie, when the values are byte strings. -/
theorem EValid.sparse {E : Env} {secure : Bool} {ops : List EOp} {ks : List Bytes}
    (h : EValid E secure ops ks) (hf : ∀ k v, .update k v ∈ ops → Sparse.flat v = true) :
    Sparse.after E secure ops = MPT.after E secure (refOps E ops) := by
  rw [← List.reverse_reverse ops] at h hf ⊢
  generalize ops.reverse = l at h hf ⊢
  induction l generalizing ks with
  | nil => rfl
  | cons op ops ih =>
    rw [List.reverse_cons] at h hf ⊢
    have he := ih h.cut (fun k v hm => hf k v (List.mem_append_left _ hm))
    generalize ops.reverse = ops at *
    rw [Sparse.after_append, he, refOps_append, Pymt.after_append]
    have hv := h.cut.valid h.cut.mirror
    cases op with
    | update k v =>
      have hfl := hf k v (by simp)
      match v, hfl with
      | .bytes b, _ => rfl
      | .bytearray b, _ => rfl
    | delete k =>
      have hmem : k ∈ ks ++ [EOp.delete k].map EOp.key := by simp [EOp.key]
      have h2 : refOps E [.delete k] = [.delete k] := rfl
      rw [h2]
      simp only [Sparse.run, List.foldl_cons, List.foldl_nil, Sparse.exec, MPT.run, MPT.exec]
      rw [Sparse.delete_eq]
      cases hk : econtents ops k with
      | none =>
        have hcon := contents_refOps E ops k
        rw [hk] at hcon
        obtain ⟨e', he', _⟩ := hv.inv.delete_none ((hv.eff_key hmem).trans hcon) (hv.fit hmem) hv.log
        rw [he']
        split <;> first | rfl | rw [he']
      | some v =>
        have hcon := contents_refOps E ops k
        rw [hk] at hcon
        have hq : Valid E secure (refOps E ops) [k] := hv.subset fun x hx => by
          simp only [List.mem_singleton] at hx
          subst hx; exact List.mem_append_left _ hmem
        have hc := Props.C01_contains_partial hq (.inr (.inl (by rw [hcon]; rfl)))
        rw [hcon] at hc
        rw [hc]
        rfl

end Pymt
