import Verif.Lemmas.Evolve
import Verif.Lemmas.Light

/-!
# A storage that has the nodes on the way of some keys, and updates of these keys
-/

namespace Pymt

/-- No entry is lost. -/
def Grows (st st' : Store) : Prop := ∀ k, dget st.kv k ≠ none → dget st'.kv k ≠ none

theorem Grows.refl (st : Store) : Grows st st := fun _ h => h
theorem Grows.trans {a b c : Store} (h : Grows a b) (h' : Grows b c) : Grows a c := fun k hk => h' k (h k hk)

theorem Grows.set (st : Store) (k v : Bytes) : Grows st (st.set k v) := by
  intro k' h
  simp only [Store.set, dget_dset]
  split
  · simp
  · exact h

namespace T

theorem Grows.avail {E : Env} {st st' : Store} (h : Grows st st') {x : T} (ha : Avail E st.kv x) : Avail E st'.kv x :=
  ha.imp id (h _)

theorem grows_put (E : Env) (st : Store) (t : T) : Grows st (put E st t) := by
  unfold put
  split
  · exact Grows.refl _
  · exact Grows.set _ _ _

theorem avail_put (E : Env) (st : Store) (t : T) : Avail E (put E st t).kv t := by
  unfold put Avail
  by_cases h : (enc E t).length < 32
  · exact .inl h
  · right
    rw [if_neg h]
    simp [Store.set, dget_dset]

theorem grows_putLeaf (E : Env) (st : Store) (p : List Nib) (v : Bytes) : Grows st (putLeaf E st p v) := by
  cases p
  · exact Grows.refl _
  · exact grows_put _ _ _

theorem grows_putExt (E : Env) (st : Store) (p : List Nib) (c : T) : Grows st (putExt E st p c) := by
  rcases p with _ | ⟨i, _ | ⟨j, p⟩⟩
  · exact Grows.refl _
  · exact Grows.refl _
  · exact grows_put _ _ _

theorem avail_empty (E : Env) (kv : Dict Bytes) : Avail E kv empty := by
  left; simp [enc, item]; decide

theorem mem_trail_leaf {q : List Nib} {v : Bytes} {p : List Nib} {x : T} (h : x ∈ trail (leaf q v) p) : x = leaf q v := by
  cases p <;> simpa [trail, T.seek, passed] using h

theorem mem_trail_empty {p : List Nib} {x : T} (h : x ∈ trail empty p) : x = empty := by
  cases p <;> simpa [trail, T.seek, passed] using h

theorem mem_trail_ext {q : List Nib} {c : T} {p : List Nib} {x : T} (h : x ∈ trail (ext q c) p) :
    x = ext q c ∨ (p ≠ [] ∧ q <+: p ∧ x ∈ trail c (p.drop q.length)) := by
  cases p with
  | nil => left; simpa [trail] using h
  | cons i p =>
    by_cases hq : q <+: i :: p
    · rw [trail_ext hq] at h
      exact (List.mem_cons.1 h).imp id fun h => ⟨by simp, hq, h⟩
    · left; simpa [trail, T.seek, passed, hq] using h

theorem mem_trail_branch {cs : Nib → T} {v : Bytes} {p : List Nib} {x : T} (h : x ∈ trail (branch cs v) p) :
    x = branch cs v ∨ ∃ i p', p = i :: p' ∧ x ∈ trail (cs i) p' := by
  cases p with
  | nil => left; simpa [trail] using h
  | cons i p =>
    by_cases he : (cs i).isEmpty = true
    · left; simpa [trail, T.seek, passed, he] using h
    · rw [trail_branch he] at h
      exact (List.mem_cons.1 h).imp id fun h => ⟨i, p, rfl, h⟩

theorem mem_trail_wrap {c : List Nib} {t : T} {p : List Nib} {x : T} (h : x ∈ trail (wrapExt c t) p) :
    (c ≠ [] ∧ x = ext c t) ∨ (c <+: p ∧ x ∈ trail t (p.drop c.length)) := by
  unfold wrapExt at h
  split at h
  · rename_i hc
    subst hc
    exact .inr ⟨List.nil_prefix, h⟩
  · rename_i hc
    exact (mem_trail_ext h).imp (⟨hc, ·⟩) (·.2)

/-- Wrapping stores what is wrapped around. -/
theorem avail_wrap {E : Env} {st : Store} {c : List Nib} {t : T} :
    Grows st (if c = [] then st else put E st (ext c t)) ∧
    (c ≠ [] → Avail E (if c = [] then st else put E st (ext c t)).kv (ext c t)) := by
  by_cases h : c = []
  · rw [if_pos h]; exact ⟨Grows.refl _, fun h' => absurd h h'⟩
  · rw [if_neg h]; exact ⟨grows_put _ _ _, fun _ => avail_put _ _ _⟩

/-- `_update` on a storage with the nodes on the way of the key: it ends, and afterwards every node on the way of any
path was on that way before or is in the storage. -/
theorem updateAux_client {E : Env} {st st' : Store} (hag : Agree st'.kv st.kv) (hg : Good E st)
    (hl : LogOk E st.written) (f : Nat) {t : T} (hsh : t.Shape)
    (hs : Stored E st.kv t) {path : NibblePath} (hp : path.WF) (v : Bytes)
    (hf : path.nibs.length < f) (hb : ¬ Blocked E st'.kv t path.nibs) :
    ∃ s1, MPT.updateAux E f (ref E t) path v st' = (.ok (ref E (insert t path.nibs v)), s1) ∧ Grows st' s1 ∧
      ∀ q, ∀ x ∈ trail (insert t path.nibs v) q, x ∈ trail t q ∨ Avail E s1.kv x := by
  induction f generalizing t path with
  | zero => omega
  | succ f ih =>
    unfold MPT.updateAux
    by_cases hne : t = empty
    · subst hne
      have hr : Rep E (leaf path.nibs v) (.leaf path v) := ⟨hp, rfl, rfl⟩
      rw [if_pos (.inl rfl), storeNode_run hr]
      refine ⟨_, rfl, grows_put _ _ _, fun q x hx => .inr ?_⟩
      rw [insert] at hx
      rw [mem_trail_leaf hx]
      exact avail_put _ _ _
    rw [if_neg (by
      rintro (h | h)
      · exact ref_ne_nil hne h
      · exact ref_ne_emptyHash hg hl hs hne h)]
    have hav : Avail E st'.kv t := Classical.byContradiction fun h => hb (blocked_self h _)
    obtain ⟨n, hn, hrep⟩ := (light_node hag hne hs).1 hav
    have hn' : MPT.getNodeM (ref E t) st' = (.ok n, st') := by simp [MPT.getNodeM, hn]
    rw [M.bind_apply, hn']
    simp only
    cases t with
    | empty => exact absurd rfl hne
    | leaf q w =>
      cases n <;> simp only [Rep] at hrep
      rename_i np d
      obtain ⟨hnp, rfl, rfl⟩ := hrep
      simp only [M.bind_apply, M.lift_apply, NibblePath.eq_spec hnp hp]
      rw [insert]
      by_cases he : np.nibs = path.nibs
      · have hr : Rep E (leaf np.nibs v) (.leaf np v) := ⟨hnp, rfl, rfl⟩
        simp only [he, decide_true, if_true, storeNode_run hr]
        refine ⟨_, rfl, grows_put _ _ _, fun q x hx => .inr ?_⟩
        rw [mem_trail_leaf hx, ← he]
        exact avail_put _ _ _
      · obtain ⟨c, hc, hcw, hcn⟩ := NibblePath.commonPrefix_spec hp hnp
        have hA : (path.consume c.nibs.length).WF :=
          NibblePath.consume_WF hp (by rw [hcn]; exact (lcp_prefix_left _ _).length_le)
        have hB : (np.consume c.nibs.length).WF :=
          NibblePath.consume_WF hnp (by rw [hcn]; exact (lcp_prefix_right _ _).length_le)
        have hAn : (path.consume c.nibs.length).nibs = path.nibs.drop (lcp path.nibs np.nibs).length := by
          rw [NibblePath.consume_nibs, hcn]
        have hBn : (np.consume c.nibs.length).nibs = np.nibs.drop (lcp path.nibs np.nibs).length := by
          rw [NibblePath.consume_nibs, hcn]
        have hdiff := drop_lcp_ne (p := path.nibs) (q := np.nibs) (fun e => he e.symm)
        have hassert : ¬ ¬ ((path.consume c.nibs.length).nibs.length ≠ 0 ∨
            (np.consume c.nibs.length).nibs.length ≠ 0) := by
          rw [hAn, hBn]
          intro h
          simp only [ne_eq, not_or, Classical.not_not, List.length_eq_zero_iff] at h
          exact hdiff (h.1.trans h.2.symm)
        simp only [he, decide_false, Bool.false_eq_true, if_false, M.bind_apply, M.lift_apply, hc,
          NibblePath.len_spec hcw, MPT.createBranchNode, NibblePath.len_spec hA, NibblePath.len_spec hB,
          if_neg hassert, refs_replicate E, createBranchLeaf_run hA, createBranchLeaf_run hB]
        generalize hst1 : (putLeaf E st' (path.consume c.nibs.length).nibs v) = st1
        generalize hst2 : (putLeaf E st1 (np.consume c.nibs.length).nibs d) = st2
        have hr : Rep E (branch2 (path.nibs.drop (lcp path.nibs np.nibs).length) v
            (np.nibs.drop (lcp path.nibs np.nibs).length) d)
            (.branch (refs E (setLeaf (np.consume c.nibs.length).nibs d
              (setLeaf (path.consume c.nibs.length).nibs v (fun _ => empty))))
              (if (path.consume c.nibs.length).nibs.length = 0 then v
                else if (np.consume c.nibs.length).nibs.length = 0 then d else [])) := by
          rw [hAn, hBn]
          refine ⟨rfl, ?_⟩
          simp only [List.length_eq_zero_iff]
        rw [storeNode_run hr]
        simp only
        rw [wrapExt_run hcw]
        have g1 : Grows st' st1 := hst1 ▸ grows_putLeaf _ _ _ _
        have g2 : Grows st1 st2 := hst2 ▸ grows_putLeaf _ _ _ _
        have g3 := grows_put E st2 (branch2 (path.nibs.drop (lcp path.nibs np.nibs).length) v
            (np.nibs.drop (lcp path.nibs np.nibs).length) d)
        have g4 := @avail_wrap E (put E st2 (branch2 (path.nibs.drop (lcp path.nibs np.nibs).length) v
            (np.nibs.drop (lcp path.nibs np.nibs).length) d)) c.nibs (branch2 (path.nibs.drop (lcp path.nibs np.nibs).length) v
            (np.nibs.drop (lcp path.nibs np.nibs).length) d)
        rw [← hcn] at hAn hBn g3 g4 ⊢
        refine ⟨_, rfl, g1.trans (g2.trans (g3.trans g4.1)), fun q x hx => .inr ?_⟩
        rcases mem_trail_wrap hx with ⟨h0, rfl⟩ | ⟨-, hx⟩
        · exact g4.2 h0
        refine Grows.avail g4.1 ?_
        rcases mem_trail_branch hx with rfl | ⟨i, q', -, hx⟩
        · exact avail_put _ _ _
        refine Grows.avail g3 ?_
        rw [← hAn, ← hBn] at hx
        generalize (np.consume c.nibs.length).nibs = Q at *
        generalize (path.consume c.nibs.length).nibs = P at *
        have inner : ∀ {j q'}, x ∈ trail (setLeaf P v (fun _ => empty) j) q' → Avail E st2.kv x := by
          intro j q' hx
          cases P with
          | nil => rw [mem_trail_empty hx]; exact avail_empty _ _
          | cons i P =>
            simp only [setLeaf, fset] at hx
            split at hx
            · rw [mem_trail_leaf hx]
              refine Grows.avail g2 ?_
              rw [← hst1]
              exact avail_put _ _ _
            · rw [mem_trail_empty hx]; exact avail_empty _ _
        cases Q with
        | nil => exact inner (by simpa [setLeaf] using hx)
        | cons j Q =>
          simp only [setLeaf, fset] at hx
          split at hx
          · rw [mem_trail_leaf hx, ← hst2]
            exact avail_put _ _ _
          · exact inner hx
    | ext q c =>
      cases n <;> simp only [Rep] at hrep
      rename_i np nr
      obtain ⟨hnp, rfl, rfl⟩ := hrep
      simp only [M.bind_apply (M.lift _), M.lift_apply, NibblePath.startsWith_spec hp hnp]
      rw [insert]
      by_cases he : np.nibs <+: path.nibs
      · rw [if_pos he]
        have hA : (path.consume np.nibs.length).WF := NibblePath.consume_WF hp he.length_le
        have hAn : (path.consume np.nibs.length).nibs = path.nibs.drop np.nibs.length :=
          NibblePath.consume_nibs _ _
        have hb' : ¬ Blocked E st'.kv c (path.consume np.nibs.length).nibs := by
          rw [hAn]
          cases hpn : path.nibs with
          | nil => rw [hpn] at he; exact absurd (List.prefix_nil.1 he) hsh.1
          | cons i p =>
            rw [hpn, blocked_ext hav] at hb
            exact fun h => hb ⟨hpn ▸ he, h⟩
        obtain ⟨s1, r1, r2, r3⟩ := ih hsh.2.2 hs.2 hA (by rw [hAn]; exact drop_len hsh.1 he hf) hb'
        simp only [he, decide_true, if_true, M.bind_apply, M.lift_apply, NibblePath.len_spec hnp, r1]
        have hr : Rep E (ext np.nibs (insert c (path.nibs.drop np.nibs.length) v))
            (.ext np (ref E (insert c (path.consume np.nibs.length).nibs v))) := by
          rw [hAn]; exact ⟨hnp, rfl, rfl⟩
        rw [storeNode_run hr]
        refine ⟨_, rfl, r2.trans (grows_put _ _ _), fun q x hx => ?_⟩
        rcases mem_trail_ext hx with rfl | ⟨h0, h1, hx⟩
        · exact .inr (avail_put _ _ _)
        · rw [← hAn] at hx
          rcases r3 _ x hx with hx | hx
          · left
            cases q with
            | nil => exact absurd rfl h0
            | cons i q => rw [trail_ext h1]; exact List.mem_cons_of_mem _ hx
          · exact .inr (Grows.avail (grows_put _ _ _) hx)
      · rw [if_neg he]
        obtain ⟨k, hk, hkw, hkn⟩ := NibblePath.commonPrefix_spec hp hnp
        have hA : (path.consume k.nibs.length).WF :=
          NibblePath.consume_WF hp (by rw [hkn]; exact (lcp_prefix_left _ _).length_le)
        have hB : (np.consume k.nibs.length).WF :=
          NibblePath.consume_WF hnp (by rw [hkn]; exact (lcp_prefix_right _ _).length_le)
        have hAn : (path.consume k.nibs.length).nibs = path.nibs.drop (lcp path.nibs np.nibs).length := by
          rw [NibblePath.consume_nibs, hkn]
        have hBn : (np.consume k.nibs.length).nibs = np.nibs.drop (lcp path.nibs np.nibs).length := by
          rw [NibblePath.consume_nibs, hkn]
        have hBne : (np.consume k.nibs.length).nibs ≠ [] := by rw [hBn]; exact drop_lcp_ne_nil he
        simp only [he, decide_false, Bool.false_eq_true, if_false, M.bind_apply, M.lift_apply, hk,
          NibblePath.len_spec hkw, NibblePath.len_spec hA,
          refs_replicate E, createBranchLeaf_run hA, createBranchExtension_run hB hBne]
        generalize hst1 : (putLeaf E st' (path.consume k.nibs.length).nibs v) = st1
        generalize hst2 : (putExt E st1 (np.consume k.nibs.length).nibs c) = st2
        have hr : Rep E (branchExt (path.nibs.drop (lcp path.nibs np.nibs).length) v
            (np.nibs.drop (lcp path.nibs np.nibs).length) c)
            (.branch (refs E (setExt (np.consume k.nibs.length).nibs c
              (setLeaf (path.consume k.nibs.length).nibs v (fun _ => empty))))
              (if (path.consume k.nibs.length).nibs.length = 0 then v else [])) := by
          rw [hAn, hBn]
          refine ⟨rfl, ?_⟩
          simp only [List.length_eq_zero_iff]
        rw [storeNode_run hr]
        simp only
        rw [wrapExt_run hkw]
        have g1 : Grows st' st1 := hst1 ▸ grows_putLeaf _ _ _ _
        have g2 : Grows st1 st2 := hst2 ▸ grows_putExt _ _ _ _
        have g3 := grows_put E st2 (branchExt (path.nibs.drop (lcp path.nibs np.nibs).length) v
            (np.nibs.drop (lcp path.nibs np.nibs).length) c)
        have g4 := @avail_wrap E (put E st2 (branchExt (path.nibs.drop (lcp path.nibs np.nibs).length) v
            (np.nibs.drop (lcp path.nibs np.nibs).length) c)) k.nibs (branchExt (path.nibs.drop (lcp path.nibs np.nibs).length) v
            (np.nibs.drop (lcp path.nibs np.nibs).length) c)
        have hkp : np.nibs = k.nibs ++ (np.consume k.nibs.length).nibs := by
          rw [hBn, hkn]
          exact (List.prefix_iff_eq_append.1 (lcp_prefix_right _ _)).symm
        rw [← hkn] at hAn hBn g3 g4 ⊢
        refine ⟨_, rfl, g1.trans (g2.trans (g3.trans g4.1)), fun q x hx => ?_⟩
        rcases mem_trail_wrap hx with ⟨h0, rfl⟩ | ⟨hkq, hx⟩
        · exact .inr (g4.2 h0)
        have lift : Avail E st2.kv x → Avail E (if k.nibs = [] then _ else _ : Store).kv x :=
          fun h => Grows.avail g4.1 (Grows.avail g3 h)
        rcases mem_trail_branch hx with rfl | ⟨i, q', hq', hx⟩
        · exact .inr (Grows.avail g4.1 (avail_put _ _ _))
        rw [← hAn, ← hBn] at hx
        have hold : ∀ {Q}, (np.consume k.nibs.length).nibs = Q → Q <+: i :: q' →
            x ∈ trail c ((i :: q').drop Q.length) → x ∈ trail (ext np.nibs c) q := by
          intro Q hQ hpre hin
          have hqe : q = k.nibs ++ (i :: q') := by
            rw [← hq']; exact (List.prefix_iff_eq_append.1 hkq).symm
          rw [hQ] at hkp
          have hpre' : np.nibs <+: q := by
            rw [hkp, hqe]; exact (List.prefix_append_right_inj _).2 hpre
          have hd : q.drop np.nibs.length = (i :: q').drop Q.length := by
            rw [hkp, hqe, List.length_append, List.drop_append, ]
            simp
          cases q with
          | nil => simp at hqe
          | cons j q =>
            rw [trail_ext hpre', hd]
            exact List.mem_cons_of_mem _ hin
        generalize (np.consume k.nibs.length).nibs = Q at *
        generalize (path.consume k.nibs.length).nibs = P at *
        have inner : x ∈ trail (setLeaf P v (fun _ => empty) i) q' → Avail E st2.kv x := by
          intro hx
          cases P with
          | nil => rw [mem_trail_empty hx]; exact avail_empty _ _
          | cons i P =>
            simp only [setLeaf, fset] at hx
            split at hx
            · rw [mem_trail_leaf hx]
              refine Grows.avail g2 ?_
              rw [← hst1]
              exact avail_put _ _ _
            · rw [mem_trail_empty hx]; exact avail_empty _ _
        rcases Q with _ | ⟨j, _ | ⟨j', Q⟩⟩
        · exact absurd rfl hBne
        · simp only [setExt, fset] at hx
          split at hx
          · rename_i hij
            subst hij
            exact .inl (hold rfl (by simp) (by simpa using hx))
          · exact .inr (lift (inner hx))
        · simp only [setExt, fset] at hx
          split at hx
          · rename_i hij
            subst hij
            rcases mem_trail_ext hx with rfl | ⟨h0, h1, hx⟩
            · refine .inr (lift ?_)
              rw [← hst2]
              exact avail_put _ _ _
            · exact .inl (hold rfl (by simpa using h1) (by simpa using hx))
          · exact .inr (lift (inner hx))
    | branch cs w =>
      cases n <;> simp only [Rep] at hrep
      rename_i bs d
      obtain ⟨rfl, rfl⟩ := hrep
      simp only [M.bind_apply (M.lift _), M.lift_apply, NibblePath.len_spec hp]
      cases hpn : path.nibs with
      | nil =>
        have hr : Rep E (branch cs v) (.branch (refs E cs) v) := ⟨rfl, rfl⟩
        simp only [List.length_nil, if_true, storeNode_run hr]
        refine ⟨_, rfl, grows_put _ _ _, fun q x hx => ?_⟩
        cases q with
        | nil =>
          right
          have : x = branch cs v := by simpa [trail, insert] using hx
          rw [this]; exact avail_put _ _ _
        | cons i q =>
          by_cases hem : (cs i).isEmpty = true
          · right
            have : x = branch cs v := by simpa [trail, T.seek, passed, hem, insert] using hx
            rw [this]; exact avail_put _ _ _
          · rw [insert, trail_branch hem] at hx
            rcases List.mem_cons.1 hx with rfl | hx
            · exact .inr (avail_put _ _ _)
            · left; rw [trail_branch hem]; exact List.mem_cons_of_mem _ hx
      | cons i p =>
        obtain ⟨hA, hAn⟩ := nibs_cons_consume hp hpn
        have hb' : ¬ Blocked E st'.kv (cs i) (path.consume 1).nibs := by
          rw [hAn]
          rw [hpn, blocked_branch hav] at hb
          by_cases hem : (cs i).isEmpty = true
          · rw [isEmpty_iff.1 hem]
            rintro ⟨x, hx, hx'⟩
            rw [mem_trail_empty hx] at hx'
            exact hx' (avail_empty _ _)
          · exact fun h => hb ⟨hem, h⟩
        obtain ⟨s1, r1, r2, r3⟩ := ih (hsh i) (hs.2 i) hA (by rw [hAn]; rw [hpn] at hf; simp at hf; omega) hb'
        have hr : Rep E (branch (fset cs i (insert (cs i) p v)) d)
            (.branch (refs E (fset cs i (insert (cs i) p v))) d) := ⟨rfl, rfl⟩
        rw [if_neg (by simp)]
        simp only [NibblePath.at_zero hpn, M.bind_apply, M.lift_apply, refs_get, r1]
        simp only [hAn, refs_set, storeNode_run hr]
        rw [insert]
        refine ⟨_, rfl, r2.trans (grows_put _ _ _), fun q x hx => ?_⟩
        rcases mem_trail_branch hx with rfl | ⟨j, q', rfl, hy⟩
        · exact .inr (avail_put _ _ _)
        clear hx
        have hx := hy
        have old : ∀ {j}, x ∈ trail (cs j) q' → x ∈ trail (branch cs d) (j :: q') ∨ Avail E (put E s1
            (branch (fset cs i (insert (cs i) p v)) d)).kv x := by
          intro j hx
          by_cases hem : (cs j).isEmpty = true
          · rw [isEmpty_iff.1 hem] at hx
            rw [mem_trail_empty hx]
            exact .inr (avail_empty _ _)
          · left; rw [trail_branch hem]; exact List.mem_cons_of_mem _ hx
        simp only [fset] at hx
        split at hx
        · rename_i hij
          subst hij
          rw [hAn] at r3
          rcases r3 _ x hx with hx | hx
          · exact old hx
          · exact .inr (Grows.avail (grows_put _ _ _) hx)
        · exact old hx

end T
end Pymt
