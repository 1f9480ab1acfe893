import Verif.Lemmas.Refine

/-!
# `_update` refines insertion
-/

namespace Pymt
namespace T

theorem nibs_cons_consume {p : NibblePath} (hp : p.WF) {i : Nib} {q : List Nib} (h : p.nibs = i :: q) :
    (p.consume 1).WF ∧ (p.consume 1).nibs = q := by
  refine ⟨NibblePath.consume_WF hp (by rw [h]; simp), ?_⟩
  rw [NibblePath.consume_nibs, h]; rfl

/-- State after `_create_branch_leaf`. -/
def putLeaf (E : Env) (st : Store) : List Nib → Bytes → Store
  | [], _ => st
  | _ :: p, v => put E st (leaf p v)

/-- State after `_create_branch_extension`. -/
def putExt (E : Env) (st : Store) : List Nib → T → Store
  | _ :: j :: p, c => put E st (ext (j :: p) c)
  | _, _ => st

theorem putLeaf_replay (E : Env) (st : Store) (p : List Nib) (v : Bytes) :
    ∃ ws, putLeaf E st p v = replay E ws st := by
  cases p with
  | nil => exact ⟨[], rfl⟩
  | cons i p => exact put_eq_replay _ _ _

theorem putExt_replay (E : Env) (st : Store) (p : List Nib) (c : T) :
    ∃ ws, putExt E st p c = replay E ws st := by
  rcases p with _ | ⟨i, _ | ⟨j, p⟩⟩
  · exact ⟨[], rfl⟩
  · exact ⟨[], rfl⟩
  · exact put_eq_replay _ _ _

theorem good_replay {E : Env} {st st' : Store} (hg : Good E st) (h : ∃ ws, st' = replay E ws st) :
    Good E st' := by
  obtain ⟨ws, rfl⟩ := h
  exact hg.replay ws

theorem createBranchLeaf_run {E : Env} {path : NibblePath} (hp : path.WF) (v : Bytes) (cs : Nib → T)
    (st : Store) :
    MPT.createBranchLeaf E path v (refs E cs) st =
      (.ok (refs E (setLeaf path.nibs v cs)),
        putLeaf E st path.nibs v) := by
  unfold MPT.createBranchLeaf
  cases hn : path.nibs with
  | nil => simp [NibblePath.len_spec hp, hn, setLeaf, putLeaf]
  | cons i p =>
    obtain ⟨h1, h2⟩ := nibs_cons_consume hp hn
    have hr : Rep E (leaf p v) (.leaf (path.consume 1) v) := ⟨h1, h2, rfl⟩
    simp [NibblePath.len_spec hp, hn, NibblePath.at_zero hn, storeNode_run hr, refs_set, setLeaf, putLeaf]

theorem createBranchExtension_run {E : Env} {path : NibblePath} (hp : path.WF) (hne : path.nibs ≠ [])
    (c : T) (cs : Nib → T) (st : Store) :
    MPT.createBranchExtension E path (ref E c) (refs E cs) st =
      (.ok (refs E (setExt path.nibs c cs)),
        putExt E st path.nibs c) := by
  unfold MPT.createBranchExtension
  rcases hn : path.nibs with _ | ⟨i, _ | ⟨j, p⟩⟩
  · exact absurd hn hne
  · simp [NibblePath.len_spec hp, hn, NibblePath.at_zero hn, refs_set, setExt, putExt]
  · obtain ⟨h1, h2⟩ := nibs_cons_consume hp hn
    have hr : Rep E (ext (j :: p) c) (.ext (path.consume 1) (ref E c)) := ⟨h1, h2, rfl⟩
    simp [NibblePath.len_spec hp, hn, NibblePath.at_zero hn, storeNode_run hr, refs_set, setExt, putExt]

/-- Storing a leaf as part of a branch. -/
theorem stored_setLeaf {E : Env} {st : Store} {p : List Nib} {v : Bytes} {cs : Nib → T} (hg : Good E st)
    (hl : LogOk E (putLeaf E st p v).written)
    (hs : ∀ i, Stored E st.kv (cs i)) :
    Step E st (putLeaf E st p v) ∧
    ∀ i, Stored E (putLeaf E st p v).kv (setLeaf p v cs i) := by
  rcases p with _ | ⟨j, p⟩
  · exact ⟨step_replay hg hl ⟨[], rfl⟩, hs⟩
  · have hstep := step_put hg hl
    refine ⟨hstep, fun i => ?_⟩
    simp only [setLeaf, fset]
    split
    · exact stored_put hg hl trivial
    · exact hstep.stored (hs i)

theorem stored_setExt {E : Env} {st : Store} {p : List Nib} {c : T} {cs : Nib → T} (hg : Good E st)
    (hl : LogOk E (putExt E st p c).written)
    (hc : Stored E st.kv c) (hs : ∀ i, Stored E st.kv (cs i)) :
    Step E st (putExt E st p c) ∧
    ∀ i, Stored E (putExt E st p c).kv (setExt p c cs i) := by
  rcases p with _ | ⟨j, _ | ⟨k, p⟩⟩
  · exact ⟨step_replay hg hl ⟨[], rfl⟩, hs⟩
  · refine ⟨step_replay hg hl ⟨[], rfl⟩, fun i => ?_⟩
    simp only [setExt, fset]
    split
    · exact hc
    · exact hs i
  · have hstep := step_put hg hl
    refine ⟨hstep, fun i => ?_⟩
    simp only [setExt, fset]
    split
    · exact stored_put hg hl hc
    · exact hstep.stored (hs i)

theorem wrapExt_run {E : Env} {c : NibblePath} (hc : c.WF) (t : T) (st : Store) :
    (if c.nibs.length ≠ 0 then MPT.storeNode E (.ext c (ref E t)) else (pure (ref E t) : M Store Bytes)) st =
      (.ok (ref E (wrapExt c.nibs t)), if c.nibs = [] then st else put E st (ext c.nibs t)) := by
  unfold wrapExt
  by_cases h : c.nibs = []
  · simp [h]
  · have hr : Rep E (ext c.nibs t) (.ext c (ref E t)) := ⟨hc, rfl, rfl⟩
    simp [h, storeNode_run hr]

theorem stored_wrapExt {E : Env} {st : Store} {c : List Nib} {t : T} (hg : Good E st)
    (hl : LogOk E (if c = [] then st else put E st (ext c t)).written)
    (hs : Stored E st.kv t) :
    Stored E (if c = [] then st else put E st (ext c t)).kv (wrapExt c t) := by
  unfold wrapExt
  by_cases h : c = []
  · simpa [h] using hs
  · simp only [h, if_false] at hl ⊢
    exact stored_put hg hl hs

theorem log_wrapExt {E : Env} {st : Store} {c : List Nib} {t : T}
    (hg : Good E st)
    (hl : LogOk E (if c = [] then st else put E st (ext c t)).written) : LogOk E st.written := by
  by_cases h : c = []
  · simpa [h] using hl
  · simp only [h, if_false] at hl
    exact (step_put hg hl).log

theorem good_put {E : Env} {st : Store} (hg : Good E st) (t : T) : Good E (put E st t) := by
  unfold put; split
  · exact hg
  · exact hg.set _

/-- The refinement theorem for `_update`. -/
theorem updateAux_run {E : Env} (f : Nat) {t : T} (hsh : t.Shape) {st st' : Store} {r : Py Bytes}
    {path : NibblePath} (hp : path.WF) (v : Bytes) (hf : path.nibs.length < f)
    (hg : Good E st) (hs : Stored E st.kv t)
    (hrun : MPT.updateAux E f (ref E t) path v st = (r, st')) (hl : LogOk E st'.written) :
    r = .ok (ref E (insert t path.nibs v)) ∧ Stored E st'.kv (insert t path.nibs v) := by
  induction f generalizing t st st' r path with
  | zero => omega
  | succ f ih =>
    have hstep := step_writes (Writes.updateAux _ _ _ _) hrun hg hl
    unfold MPT.updateAux at hrun
    by_cases hne : t = empty
    · subst hne
      have hr : Rep E (leaf path.nibs v) (.leaf path v) := ⟨hp, rfl, rfl⟩
      rw [if_pos (.inl rfl), storeNode_run hr] at hrun
      obtain ⟨rfl, rfl⟩ := Prod.mk.inj hrun
      exact ⟨rfl, stored_put hg hl trivial⟩
    rw [if_neg (by
      rintro (h | h)
      · exact ref_ne_nil hne h
      · exact ref_ne_emptyHash hg hstep.log hs hne h)] at hrun
    obtain ⟨n, hn, hrep⟩ := getNodeM_ref hs hne
    rw [M.bind_apply, hn] at hrun
    simp only at hrun
    cases t with
    | empty => exact absurd rfl hne
    | leaf q w =>
      cases n <;> simp only [Rep] at hrep
      rename_i np d
      obtain ⟨hnp, rfl, rfl⟩ := hrep
      simp only [M.bind_apply, M.lift_apply, NibblePath.eq_spec hnp hp] at hrun
      rw [insert]
      by_cases he : np.nibs = path.nibs
      · have hr : Rep E (leaf np.nibs v) (.leaf np v) := ⟨hnp, rfl, rfl⟩
        simp only [he, decide_true, if_true, storeNode_run hr] at hrun
        obtain ⟨rfl, rfl⟩ := Prod.mk.inj hrun
        rw [if_pos he, he]
        exact ⟨rfl, stored_put hg hl trivial⟩
      · rw [if_neg he]
        obtain ⟨c, hc, hcw, hcn⟩ := NibblePath.commonPrefix_spec hp hnp
        have hA : (path.consume c.nibs.length).WF :=
          NibblePath.consume_WF hp (by rw [hcn]; exact (lcp_prefix_left _ _).length_le)
        have hB : (np.consume c.nibs.length).WF :=
          NibblePath.consume_WF hnp (by rw [hcn]; exact (lcp_prefix_right _ _).length_le)
        have hAn : (path.consume c.nibs.length).nibs = path.nibs.drop (lcp path.nibs np.nibs).length := by
          rw [NibblePath.consume_nibs, hcn]
        have hBn : (np.consume c.nibs.length).nibs = np.nibs.drop (lcp path.nibs np.nibs).length := by
          rw [NibblePath.consume_nibs, hcn]
        have hdiff := drop_lcp_ne (p := path.nibs) (q := np.nibs) (fun e => he e.symm)
        -- the branch node
        have hassert : ¬ ¬ ((path.consume c.nibs.length).nibs.length ≠ 0 ∨
            (np.consume c.nibs.length).nibs.length ≠ 0) := by
          rw [hAn, hBn]
          intro h
          simp only [ne_eq, not_or, Classical.not_not, List.length_eq_zero_iff] at h
          exact hdiff (h.1.trans h.2.symm)
        simp only [he, decide_false, Bool.false_eq_true, if_false, M.bind_apply, M.lift_apply, hc,
          NibblePath.len_spec hcw, MPT.createBranchNode, NibblePath.len_spec hA, NibblePath.len_spec hB,
          if_neg hassert, refs_replicate E, createBranchLeaf_run hA, createBranchLeaf_run hB] at hrun
        generalize hst1 : (putLeaf E st (path.consume c.nibs.length).nibs v) = st1 at hrun
        generalize hst2 : (putLeaf E st1 (np.consume c.nibs.length).nibs d) = st2 at hrun
        have hr : Rep E (branch2 (path.nibs.drop (lcp path.nibs np.nibs).length) v
            (np.nibs.drop (lcp path.nibs np.nibs).length) d)
            (.branch (refs E (setLeaf (np.consume c.nibs.length).nibs d
              (setLeaf (path.consume c.nibs.length).nibs v (fun _ => empty))))
              (if (path.consume c.nibs.length).nibs.length = 0 then v
                else if (np.consume c.nibs.length).nibs.length = 0 then d else [])) := by
          rw [hAn, hBn]
          refine ⟨rfl, ?_⟩
          simp only [List.length_eq_zero_iff]
        rw [storeNode_run hr] at hrun
        simp only at hrun
        rw [wrapExt_run hcw] at hrun
        obtain ⟨rfl, rfl⟩ := Prod.mk.inj hrun
        have hg1 : Good E st1 := good_replay hg (hst1 ▸ putLeaf_replay _ _ _ _)
        have hg2 : Good E st2 := good_replay hg1 (hst2 ▸ putLeaf_replay _ _ _ _)
        have hl3 := log_wrapExt (good_put hg2 _) hl
        have hl2 := (step_put hg2 hl3).log
        have s2 := stored_setLeaf (p := (np.consume c.nibs.length).nibs) (v := d) (E := E) (st := st1)
          (cs := setLeaf (path.consume c.nibs.length).nibs v (fun _ => empty)) hg1 (by rw [hst2]; exact hl2)
        rw [hst2] at s2
        have hl1 : LogOk E st1.written := (step_replay hg1 hl2 (hst2 ▸ putLeaf_replay _ _ _ _)).log
        have s1 := stored_setLeaf (p := (path.consume c.nibs.length).nibs) (v := v) (E := E) (st := st)
          (cs := fun _ => empty) hg (by rw [hst1]; exact hl1) (fun _ => trivial)
        rw [hst1] at s1
        have hb := stored_put (t := branch2 (path.nibs.drop (lcp path.nibs np.nibs).length) v
            (np.nibs.drop (lcp path.nibs np.nibs).length) d) hg2 hl3
            (by have := (s2 s1.2).2; rw [hAn, hBn] at this; exact this)
        simp only [← hcn] at *
        exact ⟨trivial, stored_wrapExt (good_put hg2 _) hl hb⟩
    | ext q c =>
      cases n <;> simp only [Rep] at hrep
      rename_i np nr
      obtain ⟨hnp, rfl, rfl⟩ := hrep
      simp only [M.bind_apply, M.lift_apply, NibblePath.startsWith_spec hp hnp] at hrun
      rw [insert]
      by_cases he : np.nibs <+: path.nibs
      · rw [if_pos he]
        have hA : (path.consume np.nibs.length).WF := NibblePath.consume_WF hp he.length_le
        have hAn : (path.consume np.nibs.length).nibs = path.nibs.drop np.nibs.length :=
          NibblePath.consume_nibs _ _
        simp only [he, decide_true, if_true, M.bind_apply, M.lift_apply, NibblePath.len_spec hnp] at hrun
        cases hrec : MPT.updateAux E f (ref E c) (path.consume np.nibs.length) v st with
        | mk r1 st1 =>
          rw [hrec] at hrun
          have hlen : (path.consume np.nibs.length).nibs.length < f := by
            rw [hAn, List.length_drop]
            have : 0 < np.nibs.length := List.length_pos_iff.2 hsh.1
            have := he.length_le
            omega
          cases hr1 : r1 with
          | error e =>
            rw [hr1] at hrun
            obtain ⟨rfl, rfl⟩ := Prod.mk.inj hrun
            have := (ih hsh.2.2 hA hlen hg hs.2 hrec hl).1
            rw [hr1] at this
            cases this
          | ok ref1 =>
            rw [hr1] at hrun
            have hg1 : Good E st1 := by
              obtain ⟨ws, hw⟩ := Writes.updateAux (E := E) f (ref E c) (path.consume np.nibs.length) v st
              rw [hrec] at hw
              simp only at hw
              rw [hw]; exact hg.replay ws
            simp only at hrun
            have hl1 : LogOk E st1.written := (step_writes (Writes.storeNode _) hrun hg1 hl).log
            obtain ⟨e1, e2⟩ := ih hsh.2.2 hA hlen hg hs.2 hrec hl1
            rw [hr1] at e1
            cases e1
            have hr : Rep E (ext np.nibs (insert c (path.nibs.drop np.nibs.length) v))
                (.ext np (ref E (insert c (path.consume np.nibs.length).nibs v))) := by
              rw [hAn]; exact ⟨hnp, rfl, rfl⟩
            rw [storeNode_run hr] at hrun
            obtain ⟨rfl, rfl⟩ := Prod.mk.inj hrun
            exact ⟨rfl, stored_put hg1 hl (by rw [hAn] at e2; exact e2)⟩
      · rw [if_neg he]
        obtain ⟨k, hk, hkw, hkn⟩ := NibblePath.commonPrefix_spec hp hnp
        have hA : (path.consume k.nibs.length).WF :=
          NibblePath.consume_WF hp (by rw [hkn]; exact (lcp_prefix_left _ _).length_le)
        have hB : (np.consume k.nibs.length).WF :=
          NibblePath.consume_WF hnp (by rw [hkn]; exact (lcp_prefix_right _ _).length_le)
        have hAn : (path.consume k.nibs.length).nibs = path.nibs.drop (lcp path.nibs np.nibs).length := by
          rw [NibblePath.consume_nibs, hkn]
        have hBn : (np.consume k.nibs.length).nibs = np.nibs.drop (lcp path.nibs np.nibs).length := by
          rw [NibblePath.consume_nibs, hkn]
        have hBne : (np.consume k.nibs.length).nibs ≠ [] := by rw [hBn]; exact drop_lcp_ne_nil he
        simp only [he, decide_false, Bool.false_eq_true, if_false, M.bind_apply, M.lift_apply, hk,
          NibblePath.len_spec hkw, NibblePath.len_spec hA,
          refs_replicate E, createBranchLeaf_run hA, createBranchExtension_run hB hBne] at hrun
        generalize hst1 : (putLeaf E st (path.consume k.nibs.length).nibs v) = st1 at hrun
        generalize hst2 : (putExt E st1 (np.consume k.nibs.length).nibs c) = st2 at hrun
        have hr : Rep E (branchExt (path.nibs.drop (lcp path.nibs np.nibs).length) v
            (np.nibs.drop (lcp path.nibs np.nibs).length) c)
            (.branch (refs E (setExt (np.consume k.nibs.length).nibs c
              (setLeaf (path.consume k.nibs.length).nibs v (fun _ => empty))))
              (if (path.consume k.nibs.length).nibs.length = 0 then v else [])) := by
          rw [hAn, hBn]
          refine ⟨rfl, ?_⟩
          simp only [List.length_eq_zero_iff]
        rw [storeNode_run hr] at hrun
        simp only at hrun
        rw [wrapExt_run hkw] at hrun
        obtain ⟨rfl, rfl⟩ := Prod.mk.inj hrun
        have hg1 : Good E st1 := good_replay hg (hst1 ▸ putLeaf_replay _ _ _ _)
        have hg2 : Good E st2 := good_replay hg1 (hst2 ▸ putExt_replay _ _ _ _)
        have hl3 := log_wrapExt (good_put hg2 _) hl
        have hl2 := (step_put hg2 hl3).log
        have hl1 : LogOk E st1.written := (step_replay hg1 hl2 (hst2 ▸ putExt_replay _ _ _ _)).log
        have s1 := stored_setLeaf (p := (path.consume k.nibs.length).nibs) (v := v) (E := E) (st := st)
          (cs := fun _ => empty) hg (by rw [hst1]; exact hl1) (fun _ => trivial)
        rw [hst1] at s1
        have s2 := stored_setExt (p := (np.consume k.nibs.length).nibs) (c := c) (E := E) (st := st1)
          (cs := setLeaf (path.consume k.nibs.length).nibs v (fun _ => empty)) hg1 (by rw [hst2]; exact hl2)
          (s1.1.stored hs.2) s1.2
        rw [hst2] at s2
        have hb := stored_put (t := branchExt (path.nibs.drop (lcp path.nibs np.nibs).length) v
            (np.nibs.drop (lcp path.nibs np.nibs).length) c) hg2 hl3
            (by have := s2.2; rw [hAn, hBn] at this; exact this)
        simp only [← hkn] at *
        exact ⟨trivial, stored_wrapExt (good_put hg2 _) hl hb⟩
    | branch cs w =>
      cases n <;> simp only [Rep] at hrep
      rename_i bs d
      obtain ⟨rfl, rfl⟩ := hrep
      simp only [M.bind_apply, M.lift_apply, NibblePath.len_spec hp] at hrun
      cases hn : path.nibs with
      | nil =>
        have hr : Rep E (branch cs v) (.branch (refs E cs) v) := ⟨rfl, rfl⟩
        simp only [hn, List.length_nil, if_true, storeNode_run hr] at hrun
        obtain ⟨rfl, rfl⟩ := Prod.mk.inj hrun
        exact ⟨rfl, stored_put hg hl hs.2⟩
      | cons i p =>
        obtain ⟨hA, hAn⟩ := nibs_cons_consume hp hn
        simp only [hn, List.length_cons, Nat.succ_ne_zero, if_false,
          M.bind_apply, M.lift_apply, NibblePath.at_zero hn, refs_get] at hrun
        cases hrec : MPT.updateAux E f (ref E (cs i)) (path.consume 1) v st with
        | mk r1 st1 =>
          rw [hrec] at hrun
          have hlen : (path.consume 1).nibs.length < f := by
            rw [hAn]; rw [hn] at hf; simp at hf; omega
          cases hr1 : r1 with
          | error e =>
            rw [hr1] at hrun
            obtain ⟨rfl, rfl⟩ := Prod.mk.inj hrun
            have := (ih (hsh i) hA hlen hg (hs.2 i) hrec hl).1
            rw [hr1] at this
            cases this
          | ok ref1 =>
            rw [hr1] at hrun
            have hg1 : Good E st1 := by
              obtain ⟨ws, hw⟩ := Writes.updateAux (E := E) f (ref E (cs i)) (path.consume 1) v st
              rw [hrec] at hw
              simp only at hw
              rw [hw]; exact hg.replay ws
            have hl1 : LogOk E st1.written := by
              have hw : Writes E ((M.lift (pySet (refs E cs) i.val ref1)) >>= fun bs =>
                  MPT.storeNode E (.branch bs d)) :=
                (Writes.lift _).bind fun _ => Writes.storeNode _
              exact (step_writes hw hrun hg1 hl).log
            obtain ⟨e1, e2⟩ := ih (hsh i) hA hlen hg (hs.2 i) hrec hl1
            rw [hr1] at e1
            cases e1
            have hr : Rep E (branch (fset cs i (insert (cs i) p v)) d)
                (.branch (refs E (fset cs i (insert (cs i) p v))) d) := ⟨rfl, rfl⟩
            simp only [hAn, refs_set, storeNode_run hr] at hrun
            obtain ⟨rfl, rfl⟩ := Prod.mk.inj hrun
            refine ⟨rfl, stored_put hg1 hl ?_⟩
            intro j
            simp only [fset]
            split
            · rw [hAn] at e2; exact e2
            · exact (step_writes (Writes.updateAux _ _ _ _) hrec hg hl1).stored (hs.2 j)

end T
end Pymt
