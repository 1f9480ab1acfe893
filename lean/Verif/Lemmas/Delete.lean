import Verif.Lemmas.Update

/-!
# `_delete` refines removal
-/

namespace Pymt
namespace T

/-- The action returned by the model stands for the result on trees. -/
def ActRep (E : Env) : DelRes → MPT.DeleteAction → Prop
  | .deleted, .deleted => True
  | .updated t, .updated r => r = ref E t
  | .useless p t, .useless np r => np.WF ∧ np.nibs = p ∧ r = ref E t
  | _, _ => False

theorem nonEmptyCount_refs (E : Env) (cs : Nib → T) : MPT.nonEmptyCount (refs E cs) = occ cs := by
  unfold MPT.nonEmptyCount refs occ
  rw [List.countP_map]
  apply List.countP_congr
  intro i _
  simp only [Function.comp_apply, decide_eq_true_eq, ref_length_pos]
  cases (cs i).isEmpty <;> simp

theorem firstNonEmpty_refs (E : Env) {cs : Nib → T} {i : Nib} (h : firstChild cs = some i) :
    MPT.firstNonEmpty (refs E cs) = i.val := by
  unfold firstChild at h
  have hp := List.find?_some h
  have hf : (refs E cs).findIdx? (fun b => decide (b.length > 0)) = some i.val := by
    rw [List.findIdx?_eq_some_iff_getElem]
    have hl : (refs E cs).length = 16 := by simp [refs]
    refine ⟨by rw [hl]; exact i.isLt, ?_, ?_⟩
    · have hb : (cs i).isEmpty = false := by simpa using hp
      simpa [refs] using ref_length_pos.2 hb
    · intro j hj
      have hj16 : j < 16 := by have := i.isLt; omega
      rw [List.find?_eq_some_iff_getElem] at h
      obtain ⟨_, k, hk, hki, hkj⟩ := h
      have hk' : k = i.val := by rw [← hki]; simp
      have := hkj j (by omega)
      simp only [List.getElem_finRange, Bool.not_not] at this
      have hb : (cs ⟨j, hj16⟩).isEmpty = true := by simpa using this
      simp only [refs, List.getElem_map, List.getElem_finRange, decide_eq_true_eq]
      intro hc
      have := ref_length_pos.1 hc
      simp only [Fin.cast_mk] at this
      rw [hb] at this; cases this
  unfold MPT.firstNonEmpty
  rw [hf]

theorem prefixNibble_spec (i : Nib) :
    (NibblePath.mk [UInt8.ofNat i.val] 1).WF ∧ (NibblePath.mk [UInt8.ofNat i.val] 1).nibs = [i] := by
  refine ⟨by simp [NibblePath.WF], ?_⟩
  simp only [NibblePath.nibs, toNibs_cons, toNibs_nil]
  revert i
  decide

theorem buildFromLast_run {E : Env} {cs : Nib → T} (ho : occ cs ≠ 0) {st st' : Store}
    {r : Py MPT.DeleteAction} (hg : Good E st) (hs : ∀ i, Stored E st.kv (cs i))
    (hrun : MPT.buildFromLastBranch E (refs E cs) st = (r, st')) (hl : LogOk E st'.written) :
    ∃ a, r = .ok a ∧ ActRep E (fromLast cs) a ∧ Stored E st'.kv (fromLast cs).tree := by
  obtain ⟨i, hi, hne⟩ := firstChild_some ho
  unfold MPT.buildFromLastBranch at hrun
  obtain ⟨n, hn, hrep⟩ := getNodeM_ref (hs i) hne
  obtain ⟨hw, hpn⟩ := prefixNibble_spec i
  simp only [firstNonEmpty_refs E hi, M.bind_apply, M.lift_apply, refs_get, hn] at hrun
  have hsi := hs i
  unfold fromLast
  rw [hi]
  simp only
  cases hc : cs i with
  | empty => exact absurd hc hne
  | leaf p v =>
    rw [hc] at hrep
    cases n <;> simp only [Rep] at hrep
    rename_i np d
    obtain ⟨h1, rfl, rfl⟩ := hrep
    obtain ⟨q, hq, hqw, hqn⟩ := NibblePath.combine_spec hw h1
    rw [hpn] at hqn
    have hr : Rep E (leaf (i :: np.nibs) d) (.leaf q d) := ⟨hqw, hqn, rfl⟩
    simp only [M.bind_apply, M.lift_apply, hq, storeNode_run hr, M.pure_apply] at hrun
    obtain ⟨rfl, rfl⟩ := Prod.mk.inj hrun
    exact ⟨_, rfl, ⟨hqw, hqn, rfl⟩, stored_put hg hl trivial⟩
  | ext p c =>
    rw [hc] at hrep hsi
    cases n <;> simp only [Rep] at hrep
    rename_i np d
    obtain ⟨h1, rfl, rfl⟩ := hrep
    obtain ⟨q, hq, hqw, hqn⟩ := NibblePath.combine_spec hw h1
    rw [hpn] at hqn
    have hr : Rep E (ext (i :: np.nibs) c) (.ext q (ref E c)) := ⟨hqw, hqn, rfl⟩
    simp only [M.bind_apply, M.lift_apply, hq, storeNode_run hr, M.pure_apply] at hrun
    obtain ⟨rfl, rfl⟩ := Prod.mk.inj hrun
    exact ⟨_, rfl, ⟨hqw, hqn, rfl⟩, stored_put hg hl hsi.2⟩
  | branch ds v =>
    rw [hc] at hrep hsi hrun
    cases n <;> simp only [Rep] at hrep
    have hr : Rep E (ext [i] (branch ds v)) (.ext ⟨[UInt8.ofNat i.val], 1⟩ (ref E (branch ds v))) :=
      ⟨hw, hpn, rfl⟩
    simp only [M.bind_apply, storeNode_run hr, M.pure_apply] at hrun
    obtain ⟨rfl, rfl⟩ := Prod.mk.inj hrun
    exact ⟨_, rfl, ⟨hw, hpn, rfl⟩, stored_put hg hl hsi⟩

theorem afterDeleted_run {E : Env} {cs : Nib → T} {v : Bytes} {st st' : Store}
    {r : Py MPT.DeleteAction} (hg : Good E st) (hs : ∀ i, Stored E st.kv (cs i))
    (hrun : MPT.afterDeleted E (refs E cs) v st = (r, st')) (hl : LogOk E st'.written) :
    ∃ a, r = .ok a ∧ ActRep E (afterDel cs v) a ∧ Stored E st'.kv (afterDel cs v).tree := by
  unfold MPT.afterDeleted at hrun
  simp only [nonEmptyCount_refs, ne_eq, List.length_eq_zero_iff] at hrun
  unfold afterDel
  by_cases h1 : occ cs = 0 ∧ v = []
  · rw [if_pos h1] at hrun ⊢
    obtain ⟨rfl, rfl⟩ := Prod.mk.inj hrun
    exact ⟨_, rfl, trivial, trivial⟩
  rw [if_neg h1] at hrun ⊢
  by_cases h2 : occ cs = 0 ∧ v ≠ []
  · have h2' : occ cs = 0 ∧ ¬ v = [] := h2
    rw [if_pos h2'] at hrun
    rw [if_pos h2]
    have hw : (NibblePath.mk [] 0).WF := NibblePath.WF_bytes _
    have hnn : (NibblePath.mk [] 0).nibs = [] := by simp [NibblePath.nibs, toNibs]
    have hr : Rep E (leaf [] v) (.leaf ⟨[], 0⟩ v) := ⟨hw, hnn, rfl⟩
    simp only [M.bind_apply, storeNode_run hr, M.pure_apply] at hrun
    obtain ⟨rfl, rfl⟩ := Prod.mk.inj hrun
    exact ⟨_, rfl, ⟨hw, hnn, rfl⟩, stored_put hg hl trivial⟩
  have h2' : ¬ (occ cs = 0 ∧ ¬ v = []) := h2
  rw [if_neg h2'] at hrun
  rw [if_neg h2]
  by_cases h3 : occ cs = 1 ∧ v = []
  · rw [if_pos h3] at hrun ⊢
    exact buildFromLast_run (by omega) hg hs hrun hl
  · rw [if_neg h3] at hrun ⊢
    have hr : Rep E (branch cs v) (.branch (refs E cs) v) := ⟨rfl, rfl⟩
    simp only [M.bind_apply, storeNode_run hr, M.pure_apply] at hrun
    obtain ⟨rfl, rfl⟩ := Prod.mk.inj hrun
    exact ⟨_, rfl, rfl, stored_put hg hl hs⟩

theorem afterDel_Ok (cs : Nib → T) (v : Bytes) : (afterDel cs v).Ok := by
  unfold afterDel
  split
  · trivial
  · split
    · exact .inl ⟨_, rfl⟩
    · split
      · unfold fromLast
        split
        · trivial
        · split
          · trivial
          · exact .inl ⟨_, rfl⟩
          · exact .inr ⟨_, rfl⟩
          · exact .inr ⟨_, rfl⟩
      · trivial

theorem remove_Ok {t : T} {p : List Nib} {d : DelRes} (h : remove t p = .ok d) : d.Ok := by
  cases t with
  | empty => simp [remove] at h
  | leaf q v =>
    simp only [remove] at h
    split at h <;> simp at h
    subst h; trivial
  | ext q c =>
    simp only [remove] at h
    split at h
    · split at h <;> simp at h <;> subst h <;> trivial
    · simp at h
  | branch cs v =>
    cases p with
    | nil =>
      simp only [remove] at h
      split at h <;> simp at h
      subst h; exact afterDel_Ok _ _
    | cons i p =>
      simp only [remove] at h
      split at h
      · simp at h
      · split at h <;> simp at h <;> subst h
        · exact afterDel_Ok _ _
        · trivial
        · trivial

theorem Shape.fromLast {cs : Nib → T} (h : ∀ i, (cs i).Shape) : (fromLast cs).tree.Shape := by
  unfold T.fromLast
  split
  · trivial
  · rename_i i _
    have hi := h i
    split
    · trivial
    · trivial
    · rename_i p c hc
      rw [hc] at hi
      exact ⟨by simp, hi.2⟩
    · rename_i ds v hc
      rw [hc] at hi
      exact ⟨by simp, rfl, hi⟩

theorem Shape.afterDel {cs : Nib → T} {v : Bytes} (h : ∀ i, (cs i).Shape) :
    (afterDel cs v).tree.Shape := by
  unfold T.afterDel
  split
  · trivial
  · split
    · trivial
    · split
      · exact Shape.fromLast h
      · exact h

theorem afterDel_isBranch {cs : Nib → T} {v : Bytes} {t : T} (h : afterDel cs v = .updated t) :
    t.isBranch = true := by
  unfold afterDel at h
  split at h
  · cases h
  · split at h
    · cases h
    · split at h
      · unfold fromLast at h
        split at h
        · cases h
        · split at h <;> cases h
      · simp only [DelRes.updated.injEq] at h
        rw [← h]; rfl

theorem remove_isBranch {t : T} (hb : t.isBranch = true) {p : List Nib} {t' : T}
    (h : remove t p = .ok (.updated t')) : t'.isBranch = true := by
  obtain ⟨cs, v, rfl⟩ := isBranch_iff.1 hb
  cases p with
  | nil =>
    simp only [remove] at h
    split at h <;> simp at h
    exact afterDel_isBranch h
  | cons i p =>
    simp only [remove] at h
    split at h
    · simp at h
    · split at h <;> simp at h
      · exact afterDel_isBranch h
      · rw [← h]; rfl
      · rw [← h]; rfl

theorem Shape.remove {t : T} (h : t.Shape) {p : List Nib} {d : DelRes} (hd : remove t p = .ok d) :
    d.tree.Shape := by
  induction t generalizing p d with
  | empty => simp [T.remove] at hd
  | leaf q v =>
    simp only [T.remove] at hd
    split at hd <;> simp at hd
    subst hd; trivial
  | ext q c ih =>
    simp only [T.remove] at hd
    split at hd
    · split at hd <;> simp at hd <;> subst hd
      · trivial
      · rename_i c' hc
        exact ⟨h.1, remove_isBranch h.2.1 hc, ih h.2.2 hc⟩
      · rename_i sp c' hc
        have h1 := ih h.2.2 hc
        rcases remove_Ok hc with ⟨w, rfl⟩ | ⟨e, rfl⟩
        · trivial
        · exact ⟨by simp [h.1], h1.2⟩
    · simp at hd
  | branch cs v ih =>
    have hset : ∀ i c', c'.Shape → ∀ j, (fset cs i c' j).Shape := by
      intro i c' hc' j
      simp only [fset]; split
      · exact hc'
      · exact h j
    cases p with
    | nil =>
      simp only [T.remove] at hd
      split at hd <;> simp at hd
      subst hd; exact Shape.afterDel h
    | cons i p =>
      simp only [T.remove] at hd
      split at hd
      · simp at hd
      · split at hd <;> simp at hd <;> subst hd
        · exact Shape.afterDel (hset i _ trivial)
        · rename_i c' hc
          exact hset i _ (ih i (h i) hc)
        · rename_i sp c' hc
          exact hset i _ (ih i (h i) hc)

theorem good_writes {E : Env} {α : Type} {m : M Store α} (hm : Writes E m) {st st' : Store} {r : Py α}
    (hrun : m st = (r, st')) (hg : Good E st) : Good E st' := by
  obtain ⟨ws, hw⟩ := hm st
  rw [hrun] at hw
  simp only at hw
  rw [hw]; exact hg.replay ws

/-- What `deleteAux` returns for a result on trees. -/
def DelSpec (E : Env) (st : Store) : Py DelRes → Py MPT.DeleteAction → Store → Prop
  | .error e, r, st' => r = .error e ∧ st' = st
  | .ok d, r, st' => ∃ a, r = .ok a ∧ ActRep E d a ∧ Stored E st'.kv d.tree

theorem Rep.combine {E : Env} {t : T} {n : Node} {q : NibblePath} (hr : Rep E t n) (hq : q.WF)
    {sp : List Nib} (hok : (∃ v, t = leaf sp v) ∨ (∃ c, t = ext sp c)) (st : Store)
    (spn : NibblePath) (sr : Bytes) :
    (match (generalizing := false) n with
      | .leaf p d => do
        let path ← M.lift (q.combine p)
        let newRef ← MPT.storeNode E (.leaf path d)
        return MPT.DeleteAction.updated newRef
      | .ext p r => do
        let path ← M.lift (q.combine p)
        let newRef ← MPT.storeNode E (.ext path r)
        return MPT.DeleteAction.updated newRef
      | .branch _ _ => do
        let path ← M.lift (q.combine spn)
        let newRef ← MPT.storeNode E (.ext path sr)
        return MPT.DeleteAction.updated newRef : M Store MPT.DeleteAction) st
      = (.ok (.updated (ref E (mergeExt q.nibs sp t))), put E st (mergeExt q.nibs sp t)) := by
  rcases hok with ⟨v, rfl⟩ | ⟨c, rfl⟩
  · cases n <;> simp only [Rep] at hr
    rename_i p d
    obtain ⟨h1, rfl, rfl⟩ := hr
    obtain ⟨s, hs, hsw, hsn⟩ := NibblePath.combine_spec hq h1
    have hr : Rep E (mergeExt q.nibs p.nibs (leaf p.nibs d)) (.leaf s d) := ⟨hsw, hsn, rfl⟩
    simp only [M.bind_apply, M.lift_apply, hs, storeNode_run hr, M.pure_apply]
  · cases n <;> simp only [Rep] at hr
    rename_i p r
    obtain ⟨h1, rfl, rfl⟩ := hr
    obtain ⟨s, hs, hsw, hsn⟩ := NibblePath.combine_spec hq h1
    have hr : Rep E (mergeExt q.nibs p.nibs (ext p.nibs c)) (.ext s (ref E c)) := ⟨hsw, hsn, rfl⟩
    simp only [M.bind_apply, M.lift_apply, hs, storeNode_run hr, M.pure_apply]

/-- The refinement theorem for `_delete`. -/
theorem deleteAux_run {E : Env} (f : Nat) {t : T} (hsh : t.Shape) (hne : t ≠ empty) {st st' : Store}
    {r : Py MPT.DeleteAction} {path : NibblePath} (hp : path.WF) (hf : path.nibs.length < f)
    (hg : Good E st) (hs : Stored E st.kv t)
    (hrun : MPT.deleteAux E f (ref E t) path st = (r, st')) (hl : LogOk E st'.written) :
    DelSpec E st (remove t path.nibs) r st' := by
  induction f generalizing t st st' r path with
  | zero => omega
  | succ f ih =>
    have hstep := step_writes (Writes.deleteAux _ _ _) hrun hg hl
    unfold MPT.deleteAux at hrun
    obtain ⟨n, hn, hrep⟩ := getNodeM_ref hs hne
    rw [M.bind_apply, hn] at hrun
    simp only at hrun
    cases t with
    | empty => exact absurd rfl hne
    | leaf q w =>
      cases n <;> simp only [Rep] at hrep
      rename_i np d
      obtain ⟨hnp, rfl, rfl⟩ := hrep
      simp only [M.bind_apply, M.lift_apply, NibblePath.eq_spec hp hnp] at hrun
      rw [remove]
      by_cases he : path.nibs = np.nibs
      · rw [if_pos he]
        simp only [he, decide_true, if_true, M.pure_apply] at hrun
        obtain ⟨rfl, rfl⟩ := Prod.mk.inj hrun
        exact ⟨_, rfl, trivial, trivial⟩
      · rw [if_neg he]
        simp only [he, decide_false, Bool.false_eq_true, if_false, M.raise_apply] at hrun
        obtain ⟨rfl, rfl⟩ := Prod.mk.inj hrun
        exact ⟨rfl, rfl⟩
    | ext q c =>
      cases n <;> simp only [Rep] at hrep
      rename_i np nr
      obtain ⟨hnp, rfl, rfl⟩ := hrep
      simp only [M.bind_apply, M.lift_apply, NibblePath.startsWith_spec hp hnp] at hrun
      rw [remove]
      by_cases he : np.nibs <+: path.nibs
      · rw [if_pos he]
        have hA : (path.consume np.nibs.length).WF := NibblePath.consume_WF hp he.length_le
        have hAn : (path.consume np.nibs.length).nibs = path.nibs.drop np.nibs.length :=
          NibblePath.consume_nibs _ _
        simp only [he, decide_true, not_true, if_false, M.bind_apply, M.lift_apply,
          NibblePath.len_spec hnp] at hrun
        have hlen : (path.consume np.nibs.length).nibs.length < f := by
          rw [hAn, List.length_drop]
          have : 0 < np.nibs.length := List.length_pos_iff.2 hsh.1
          have := he.length_le
          omega
        have hce : c ≠ empty := by rintro rfl; simp [Shape, isBranch] at hsh
        cases hrec : MPT.deleteAux E f (ref E c) (path.consume np.nibs.length) st with
        | mk r1 st1 =>
          rw [hrec] at hrun
          have hg1 : Good E st1 := good_writes (Writes.deleteAux _ _ _) hrec hg
          have fin := ih hsh.2.2 hce hA hlen hg hs.2 hrec
          rw [hAn] at fin
          cases r1 with
          | error e =>
            simp only at hrun
            obtain ⟨rfl, rfl⟩ := Prod.mk.inj hrun
            have fin := fin hl
            cases hrm : remove c (path.nibs.drop np.nibs.length) with
            | error e' =>
              rw [hrm] at fin
              exact fin
            | ok d =>
              rw [hrm] at fin
              obtain ⟨a, h1, _⟩ := fin
              cases h1
          | ok act =>
            simp only at hrun
            have hl1 : LogOk E st1.written := by
              refine (step_writes (m := match act with
                | .deleted => (pure MPT.DeleteAction.deleted : M Store MPT.DeleteAction)
                | .updated childRef => do
                  let newRef ← MPT.storeNode E (.ext np childRef)
                  return .updated newRef
                | .useless storedPath storedRef => do
                  let child ← MPT.getNodeM storedRef
                  match child with
                  | .leaf p d => do
                    let path ← M.lift (np.combine p)
                    let newRef ← MPT.storeNode E (.leaf path d)
                    return .updated newRef
                  | .ext p r => do
                    let path ← M.lift (np.combine p)
                    let newRef ← MPT.storeNode E (.ext path r)
                    return .updated newRef
                  | .branch _ _ => do
                    let path ← M.lift (np.combine storedPath)
                    let newRef ← MPT.storeNode E (.ext path storedRef)
                    return .updated newRef) ?_ hrun hg1 hl).log
              cases act with
              | deleted => exact Writes.pure _
              | updated _ => exact (Writes.storeNode _).bind fun _ => Writes.pure _
              | useless _ _ =>
                refine (Writes.getNodeM _).bind fun n => ?_
                split <;> exact (Writes.lift _).bind fun _ => (Writes.storeNode _).bind fun _ => Writes.pure _
            have fin := fin hl1
            cases hrm : remove c (path.nibs.drop np.nibs.length) with
            | error e' =>
              rw [hrm] at fin
              exact absurd fin.1 (by simp)
            | ok d =>
              rw [hrm] at fin
              obtain ⟨a, h1, hact, hst⟩ := fin
              cases h1
              cases d with
              | deleted =>
                cases act <;> simp only [ActRep] at hact
                obtain ⟨rfl, rfl⟩ := Prod.mk.inj hrun
                exact ⟨_, rfl, trivial, trivial⟩
              | updated c' =>
                cases act <;> simp only [ActRep] at hact
                subst hact
                have hr : Rep E (ext np.nibs c') (.ext np (ref E c')) := ⟨hnp, rfl, rfl⟩
                simp only [M.bind_apply, storeNode_run hr, M.pure_apply] at hrun
                obtain ⟨rfl, rfl⟩ := Prod.mk.inj hrun
                exact ⟨_, rfl, rfl, stored_put hg1 hl hst⟩
              | useless sp c' =>
                cases act <;> simp only [ActRep] at hact
                obtain ⟨hspw, hspn, rfl⟩ := hact
                have hok := remove_Ok hrm
                have hcne : c' ≠ empty := by
                  rcases hok with ⟨w, rfl⟩ | ⟨d, rfl⟩ <;> simp
                have hst : Stored E st1.kv c' := hst
                obtain ⟨n', hn', hrep'⟩ := getNodeM_ref hst hcne
                simp only at hrun
                rw [M.bind_apply, hn'] at hrun
                simp only at hrun
                have hrun := (Rep.combine hrep' hnp hok st1 _ _).symm.trans hrun
                obtain ⟨rfl, rfl⟩ := Prod.mk.inj hrun
                refine ⟨_, rfl, rfl, ?_⟩
                rcases hok with ⟨w, rfl⟩ | ⟨d, rfl⟩
                · exact stored_put hg1 hl trivial
                · exact stored_put hg1 hl hst.2
      · rw [if_neg he]
        simp only [he, decide_false, Bool.false_eq_true, not_false_eq_true, if_true, M.raise_apply] at hrun
        obtain ⟨rfl, rfl⟩ := Prod.mk.inj hrun
        exact ⟨rfl, rfl⟩
    | branch cs w =>
      cases n <;> simp only [Rep] at hrep
      rename_i bs d
      obtain ⟨rfl, rfl⟩ := hrep
      simp only [M.bind_apply, M.lift_apply, NibblePath.len_spec hp] at hrun
      cases hnn : path.nibs with
      | nil =>
        rw [remove]
        by_cases hd : d = []
        · rw [if_pos hd]
          simp only [hnn, hd, List.length_nil, ne_eq, not_true, or_self, not_false_eq_true, if_true,
            M.raise_apply] at hrun
          obtain ⟨rfl, rfl⟩ := Prod.mk.inj hrun
          exact ⟨rfl, rfl⟩
        · rw [if_neg hd]
          simp only [hnn, List.length_nil, ne_eq, not_true, List.length_eq_zero_iff, hd, false_or,
            not_false_eq_true, if_false, and_false, and_self, if_true] at hrun
          exact afterDeleted_run hg hs.2 hrun hl
      | cons i p =>
        obtain ⟨hA, hAn⟩ := nibs_cons_consume hp hnn
        simp only [hnn, List.length_cons, Nat.succ_ne_zero, ne_eq, not_false_eq_true, true_or, not_true,
          if_false, false_and, M.bind_apply, M.lift_apply, NibblePath.at_zero hnn, refs_get] at hrun
        rw [remove]
        cases hie : (cs i).isEmpty with
        | true =>
          have : (ref E (cs i)).length = 0 := by
            rw [isEmpty_iff.1 hie]; rfl
          simp only [this, if_true, M.raise_apply] at hrun
          obtain ⟨rfl, rfl⟩ := Prod.mk.inj hrun
          exact ⟨rfl, rfl⟩
        | false =>
          have hcl : ¬ (ref E (cs i)).length = 0 := by
            have := (ref_length_pos (E := E)).2 hie
            omega
          have hce : cs i ≠ empty := by intro e; rw [e] at hie; simp [isEmpty] at hie
          simp only [hcl, if_false, M.bind_apply] at hrun
          simp only [Bool.false_eq_true, if_false]
          have hlen : (path.consume 1).nibs.length < f := by
            rw [hAn]; rw [hnn] at hf; simp at hf; omega
          cases hrec : MPT.deleteAux E f (ref E (cs i)) (path.consume 1) st with
          | mk r1 st1 =>
            rw [hrec] at hrun
            have hg1 : Good E st1 := good_writes (Writes.deleteAux _ _ _) hrec hg
            have fin := ih (hsh i) hce hA hlen hg (hs.2 i) hrec
            rw [hAn] at fin
            cases r1 with
            | error e =>
              simp only at hrun
              obtain ⟨rfl, rfl⟩ := Prod.mk.inj hrun
              have fin := fin hl
              cases hrm : remove (cs i) p with
              | error e' =>
                rw [hrm] at fin
                exact fin
              | ok d =>
                rw [hrm] at fin
                obtain ⟨a, h1, _⟩ := fin
                cases h1
            | ok act =>
              simp only at hrun
              have hl1 : LogOk E st1.written := by
                refine (step_writes (m := match act with
                  | .deleted => do
                    let branches ← M.lift (pySet (refs E cs) i.val [])
                    MPT.afterDeleted E branches d
                  | .updated nextRef => do
                    let branches ← M.lift (pySet (refs E cs) i.val nextRef)
                    let ref ← MPT.storeNode E (.branch branches d)
                    return .updated ref
                  | .useless _ nextRef => do
                    let branches ← M.lift (pySet (refs E cs) i.val nextRef)
                    let ref ← MPT.storeNode E (.branch branches d)
                    return .updated ref) ?_ hrun hg1 hl).log
                cases act with
                | deleted => exact (Writes.lift _).bind fun _ => Writes.afterDeleted _ _
                | updated _ => exact (Writes.lift _).bind fun _ => (Writes.storeNode _).bind fun _ => Writes.pure _
                | useless _ _ => exact (Writes.lift _).bind fun _ => (Writes.storeNode _).bind fun _ => Writes.pure _
              have hs1 := (step_writes (Writes.deleteAux _ _ _) hrec hg hl1)
              have fin := fin hl1
              have hset : ∀ c', Stored E st1.kv c' → ∀ j, Stored E st1.kv (fset cs i c' j) := by
                intro c' hc' j
                simp only [fset]; split
                · exact hc'
                · exact hs1.stored (hs.2 j)
              cases hrm : remove (cs i) p with
              | error e' =>
                rw [hrm] at fin
                exact absurd fin.1 (by simp)
              | ok dd =>
                rw [hrm] at fin
                obtain ⟨a, h1, hact, hst⟩ := fin
                cases h1
                have keySet : ∀ c', (do
                    let branches ← M.lift (pySet (refs E cs) i.val (ref E c'))
                    let ref ← MPT.storeNode E (.branch branches d)
                    return MPT.DeleteAction.updated ref : M Store MPT.DeleteAction) st1 =
                    (.ok (.updated (ref E (branch (fset cs i c') d))), put E st1 (branch (fset cs i c') d)) := by
                  intro c'
                  have hr : Rep E (branch (fset cs i c') d) (.branch (refs E (fset cs i c')) d) := ⟨rfl, rfl⟩
                  simp only [M.bind_apply, M.lift_apply, refs_set, storeNode_run hr, M.pure_apply]
                cases dd with
                | deleted =>
                  cases act <;> simp only [ActRep] at hact
                  have : pySet (refs E cs) i.val [] = .ok (refs E (fset cs i empty)) := refs_set E cs i empty
                  simp only [M.bind_apply, M.lift_apply, this] at hrun
                  exact afterDeleted_run hg1 (hset empty trivial) hrun hl
                | updated c' =>
                  cases act <;> simp only [ActRep] at hact
                  subst hact
                  simp only at hrun
                  rw [keySet] at hrun
                  obtain ⟨rfl, rfl⟩ := Prod.mk.inj hrun
                  exact ⟨_, rfl, rfl, stored_put hg1 hl (hset c' hst)⟩
                | useless sp c' =>
                  cases act <;> simp only [ActRep] at hact
                  obtain ⟨hspw, hspn, rfl⟩ := hact
                  simp only at hrun
                  rw [keySet] at hrun
                  obtain ⟨rfl, rfl⟩ := Prod.mk.inj hrun
                  exact ⟨_, rfl, rfl, stored_put hg1 hl (hset c' hst)⟩

end T
end Pymt
