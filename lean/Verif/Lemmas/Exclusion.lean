import Verif.Lemmas.ProofObj
import Verif.Spec.Exclusion

/-!
# Where searches for absent keys end
-/

namespace Pymt
namespace T

theorem seek_of_passed_nil {t : T} {p : List Nib} (h : passed t p = []) : T.seek t p = (t, p) := by
  cases t with
  | empty => rfl
  | leaf q v => rfl
  | ext q c =>
    cases p with
    | nil => rfl
    | cons i p =>
      by_cases hpre : q <+: i :: p
      · simp [passed, hpre] at h
      · simp [T.seek, hpre]
  | branch cs v =>
    cases p with
    | nil => rfl
    | cons i p =>
      by_cases he : (cs i).isEmpty = true
      · simp [T.seek, he]
      · simp [passed, he] at h

/-- The outcome of making and checking an exclusion proof is good. -/
def Fine (E : Env) (a : T) (p : List Nib) : Prop :=
  has a p = false ∧ ((shown a p = trail a p ∧ admits (T.seek a p).1 p = true) ∨
    (shown a p = passed a p ∧ passed a p ≠ [] ∧ 32 ≤ (enc E (T.seek a p).1).length))

theorem suffix_of_nibs {e e1 : Bytes} (h : toNibs e <:+ toNibs e1) : e <:+ e1 := by
  obtain ⟨s, hs⟩ := h
  have hlen : s.length % 2 = 0 := by
    have := congrArg List.length hs
    simp only [List.length_append, toNibs_length] at this
    omega
  refine ⟨pack s, toNibs_inj ?_⟩
  rw [toNibs_append, toNibs_pack s hlen, hs]

/-- Two beginnings of the same list. -/
theorem comparable {α : Type} {a b l : List α} (ha : a <+: l) (hb : b <+: l) :
    (∃ s, a = b ++ s) ∨ ∃ x s, b = a ++ x :: s := by
  rcases List.prefix_or_prefix_of_prefix ha hb with ⟨s, hs⟩ | ⟨s, hs⟩
  · cases s with
    | nil => exact .inl ⟨[], by simpa using hs⟩
    | cons x s => exact .inr ⟨x, s, hs.symm⟩
  · exact .inl ⟨s, hs.symm⟩

theorem next_eq {α : Type} {a l s : List α} {i n : α} (h1 : a ++ [i] <+: l) (h2 : a ++ n :: s <+: l) : n = i := by
  obtain ⟨u, rfl⟩ := h1
  obtain ⟨w, hw⟩ := h2
  simp only [List.append_assoc, List.cons_append, List.append_cancel_left_eq, List.cons.injEq] at hw
  exact hw.1

theorem fine_of {E : Env} {a : T} (hcan : a.Canon) (hne : a ≠ empty) {P : Bytes → Prop}
    {V : Bytes → Bytes → Prop} (hV : ∀ e v, V e v → lookup a (toNibs e) = some v)
    (hP : ∀ e, P e ↔ lookup a (toNibs e) ≠ none)
    (hk : ∀ p v, lookup a p = some v → ∃ k, p = toNibs k) {e : Bytes} (habs : ¬ P e)
    (hcond : Alone P e ∨ Gap P e ∨ Stem P e ∨ Skip P V e) : Fine E a (toNibs e) := by
  have hxn := seek_ne_empty hcan.shape hne (toNibs e)
  have hxc := hcan.seek (toNibs e)
  have hst := seek_stuck hcan.shape hne (toNibs e)
  have hpn := @seek_of_passed_nil a (toNibs e)
  have hex := hxc.exists_key hxn
  obtain ⟨b, hb, hlk⟩ := seek_split a (toNibs e)
  have hsh : ∀ q c i r, T.seek a (toNibs e) = (ext q c, i :: r) → shown a (toNibs e) = passed a (toNibs e) := by
    intro q c i r h; simp [shown, h]
  have hsh' : (∀ q c i r, T.seek a (toNibs e) ≠ (ext q c, i :: r)) → shown a (toNibs e) = trail a (toNibs e) := by
    intro h
    unfold shown
    split
    · rename_i q c i r heq; exact absurd heq (h q c i r)
    · rfl
  unfold Fine
  have hhas : has a (toNibs e) = match T.seek a (toNibs e) with
    | (branch _ d, _) => decide (d ≠ [])
    | (leaf q _, r) => decide (q = r)
    | _ => false := rfl
  rw [hhas]
  generalize hs : T.seek a (toNibs e) = s at *
  obtain ⟨x, r⟩ := s
  simp only at hb hlk hxn hxc hst hex ⊢
  -- present paths that begin with `b`, and keys of `x`
  have H1 : ∀ e1, P e1 → b <+: toNibs e1 → ∃ q w, toNibs e1 = b ++ q ∧ lookup x q = some w := by
    rintro e1 h1 ⟨q, hq⟩
    rw [hP, ← hq, hlk] at h1
    cases hw : lookup x q with
    | none => exact absurd hw h1
    | some w => exact ⟨q, w, hq.symm, hw⟩
  have H2 : ∀ q w, lookup x q = some w → ∃ e1, P e1 ∧ toNibs e1 = b ++ q := by
    intro q w h
    have h' := h
    rw [← hlk] at h'
    obtain ⟨k, hk⟩ := hk _ _ h'
    refine ⟨k, ?_, hk.symm⟩
    rw [hP, ← hk, h']; simp
  have hbe : b <+: toNibs e := ⟨r, hb.symm⟩
  have hre : lookup x r = none := by
    cases hw : lookup x r with
    | none => rfl
    | some w =>
      obtain ⟨e1, h1, h2⟩ := H2 r w hw
      rw [← hb] at h2
      exact absurd (toNibs_inj h2 ▸ h1) habs
  -- a beginning of `e` that goes on after `b` with a nibble
  have HB : ∀ cs v, x = branch cs v → ∀ n s, b ++ n :: s <+: toNibs e → ∀ e1, P e1 → ¬ b ++ n :: s <+: toNibs e1 := by
    rintro cs v rfl n s hn e1 h1 ⟨u, hu⟩
    rcases hst with rfl | ⟨i, r', rfl, hi⟩
    · have := hn.length_le
      rw [hb] at this
      simp at this
      omega
    · have hni : n = i := by
        refine next_eq (a := b) (l := toNibs e) (s := s) ?_ hn
        rw [hb]; exact ⟨r', by simp⟩
      subst hni
      obtain ⟨q, w, g1, g2⟩ := H1 e1 h1 ⟨n :: s ++ u, by rw [← hu]; simp⟩
      rw [← hu] at g1
      simp only [List.append_assoc, List.cons_append, List.append_cancel_left_eq] at g1
      rw [← g1] at g2
      simp [lookup, hi] at g2
  rcases hcond with ⟨e1, h1, h2, α, h3, h4, h5⟩ | ⟨α, h3, ⟨i, j, e1, e2, h6, h7, h8, h9, h10⟩, h11, h12⟩ |
      ⟨⟨e1, e2, h1, h2, h3, h4, h5⟩, h6⟩ |
      ⟨α, i, h3, h4, ⟨e1, e2, h5, h6, h7, h8, h9⟩, ⟨j, h10⟩, ⟨e3, h11, h12⟩, ⟨e4, v4, h13, h14, h15⟩⟩
  · -- Alone
    have two : ∀ q1 w1 q2 w2, lookup x q1 = some w1 → lookup x q2 = some w2 → q1 ≠ q2 →
        (∀ q w, lookup x q = some w → α <+: b ++ q) → False := by
      intro q1 w1 q2 w2 g1 g2 g3 g4
      obtain ⟨k1, g5, g6⟩ := H2 _ _ g1
      obtain ⟨k2, g7, g8⟩ := H2 _ _ g2
      have e1' := h5 k1 g5 (by rw [g6]; exact g4 _ _ g1)
      have e2' := h5 k2 g7 (by rw [g8]; exact g4 _ _ g2)
      rw [e1'] at g6; rw [e2', g6] at g8
      exact g3 (by simpa using g8)
    cases x with
    | empty => exact absurd rfl hxn
    | leaf q v =>
      have hqe : q ≠ r := by rintro rfl; simp [lookup] at hre
      refine ⟨by simp [hqe], .inl ⟨hsh' (by intro q c i r h; simp at h), ?_⟩⟩
      have hlq : lookup (leaf q v) q = some v := by simp [lookup]
      have hk1 : toNibs e1 = b ++ q := by
        rcases comparable h3 hbe with ⟨s, rfl⟩ | ⟨n, s, rfl⟩
        · obtain ⟨q', w, g1, g2⟩ := H1 e1 h1 ((List.prefix_append _ _).trans h4)
          have : q = q' := by
            simp only [lookup] at g2; split at g2
            · assumption
            · simp at g2
          rw [g1, this]
        · obtain ⟨k, g1, g2⟩ := H2 q v hlq
          have := h5 k g1 (by rw [g2]; exact ⟨n :: s ++ q, by simp⟩)
          rw [← this, g2]
      simp only [admits, Bool.not_eq_true', decide_eq_false_iff_not]
      rintro rfl
      exact h2 (suffix_of_nibs ⟨b, hk1.symm⟩)
    | ext q c =>
      exfalso
      obtain ⟨q1, w1, g1⟩ := hex
      obtain ⟨q2, w2, g2, g3⟩ := hxc.two_keys' (by simp) (by simp) q1
      have hall : ∀ q' w, lookup (ext q c) q' = some w → q <+: q' := by
        intro q' w hq
        simp only [lookup] at hq
        split at hq
        · assumption
        · simp at hq
      refine two _ _ _ _ g1 g2 (Ne.symm g3) ?_
      intro q' w hq
      rcases comparable h3 hbe with ⟨s, rfl⟩ | ⟨n, s, rfl⟩
      · -- α = b ++ s
        obtain ⟨q'', w'', k1, k2⟩ := H1 e1 h1 ((List.prefix_append _ _).trans h4)
        have hs1 : s <+: q'' := by
          have := h4; rw [k1] at this
          exact (List.prefix_append_right_inj b).1 this
        have hs2 := hall _ _ k2
        rcases List.prefix_or_prefix_of_prefix hs1 hs2 with hh | hh
        · exact (List.prefix_append_right_inj b).2 (hh.trans (hall _ _ hq))
        · exfalso
          have hsr : s <+: r := by
            have := h3; rw [hb] at this
            exact (List.prefix_append_right_inj b).1 this
          rcases hst with rfl | hst
          · have := List.prefix_nil.1 hsr
            subst this
            exact hxc.1 (List.prefix_nil.1 hh)
          · exact hst (hh.trans hsr)
      · exact ⟨n :: s ++ q', by simp⟩
    | branch cs v =>
      exfalso
      rcases comparable h3 hbe with ⟨s, rfl⟩ | ⟨n, s, rfl⟩
      · cases s with
        | nil =>
          obtain ⟨q1, w1, g1⟩ := hex
          obtain ⟨q2, w2, g2, g3⟩ := hxc.two_keys q1
          exact two _ _ _ _ g1 g2 (Ne.symm g3) (fun q' w _ => ⟨q', by simp⟩)
        | cons n s => exact HB cs v rfl n s h3 e1 h1 h4
      · obtain ⟨q1, w1, g1⟩ := hex
        obtain ⟨q2, w2, g2, g3⟩ := hxc.two_keys q1
        exact two _ _ _ _ g1 g2 (Ne.symm g3) (fun q' w _ => ⟨n :: s ++ q', by simp⟩)
  · -- Gap
    have hα : ∃ s, α = b ++ s := by
      rcases comparable h3 hbe with h | ⟨n, s, rfl⟩
      · exact h
      · exfalso
        obtain ⟨q1, w1, g1⟩ := hex
        obtain ⟨k1, g2, g3⟩ := H2 _ _ g1
        refine h12 n ?_ k1 g2 ?_
        · rw [hb]; exact ⟨s ++ r, by simp⟩
        · rw [g3]; exact ⟨s ++ q1, by simp⟩
    obtain ⟨s, rfl⟩ := hα
    have hbe1 : b <+: toNibs e1 := (List.prefix_append b s).trans ((List.prefix_append _ _).trans h9)
    have hbe2 : b <+: toNibs e2 := (List.prefix_append b s).trans ((List.prefix_append _ _).trans h10)
    obtain ⟨q1, w1, k1, k2⟩ := H1 e1 h7 hbe1
    obtain ⟨q2, w2, k3, k4⟩ := H1 e2 h8 hbe2
    have hq1 : s ++ [i] <+: q1 := by
      have := h9; rw [k1, List.append_assoc] at this
      exact (List.prefix_append_right_inj b).1 this
    have hq2 : s ++ [j] <+: q2 := by
      have := h10; rw [k3, List.append_assoc] at this
      exact (List.prefix_append_right_inj b).1 this
    cases x with
    | empty => exact absurd rfl hxn
    | leaf q v =>
      exfalso
      have e1' : q = q1 := by simp only [lookup] at k2; split at k2; assumption; simp at k2
      have e2' : q = q2 := by simp only [lookup] at k4; split at k4; assumption; simp at k4
      subst e1'; subst e2'
      obtain ⟨u, rfl⟩ := hq1
      exact h6 (next_eq (s := u) hq2 (by simp)).symm.symm
    | ext q c =>
      exfalso
      have g1 : q <+: q1 := by simp only [lookup] at k2; split at k2; assumption; simp at k2
      have g2 : q <+: q2 := by simp only [lookup] at k4; split at k4; assumption; simp at k4
      have hsr : s <+: r := by
        have := h3; rw [hb] at this
        exact (List.prefix_append_right_inj b).1 this
      have hqs : ¬ q <+: s := by
        intro hh
        rcases hst with rfl | hst
        · have := List.prefix_nil.1 hsr
          subst this
          exact hxc.1 (List.prefix_nil.1 hh)
        · exact hst (hh.trans hsr)
      have hsq1 : s <+: q1 := (List.prefix_append _ _).trans hq1
      rcases comparable hsq1 g1 with ⟨u, hu⟩ | ⟨n, u, hu⟩
      · exact hqs ⟨u, hu.symm⟩
      · subst hu
        exact h6 ((next_eq hq1 g1).symm.trans (next_eq hq2 g2))
    | branch cs v =>
      have hsn : s = [] := by
        cases s with
        | nil => rfl
        | cons n s => exact absurd ((List.prefix_append _ _).trans h9) (HB cs v rfl n s h3 e1 h7)
      subst hsn
      have hv : v = [] := by
        apply Decidable.byContradiction
        intro hv
        obtain ⟨k, g1, g2⟩ := H2 [] v (by simp [lookup, hv])
        exact h11 k g1 (by simpa using g2)
      exact ⟨by simp [hv], .inl ⟨hsh' (by intro q c i r h; simp at h), rfl⟩⟩
  · -- Stem
    have hbe1 : b <+: toNibs e1 := hbe.trans (toNibs_prefix.2 h4)
    have hbe2 : b <+: toNibs e2 := hbe.trans (toNibs_prefix.2 h5)
    obtain ⟨q1, w1, k1, k2⟩ := H1 e1 h1 hbe1
    obtain ⟨q2, w2, k3, k4⟩ := H1 e2 h2 hbe2
    have hr1 : r <+: q1 := by
      have := toNibs_prefix.2 h4; rw [k1, hb] at this
      exact (List.prefix_append_right_inj b).1 this
    cases x with
    | empty => exact absurd rfl hxn
    | leaf q v =>
      exfalso
      have e1' : q = q1 := by simp only [lookup] at k2; split at k2; assumption; simp at k2
      have e2' : q = q2 := by simp only [lookup] at k4; split at k4; assumption; simp at k4
      subst e1'; subst e2'
      exact h3 (toNibs_inj (k1.trans k3.symm))
    | ext q c =>
      cases r with
      | nil => exact ⟨rfl, .inl ⟨hsh' (by intro q c i r h; simp at h), rfl⟩⟩
      | cons i0 r0 =>
        exfalso
        have hnq : ¬ q <+: i0 :: r0 := by
          rcases hst with h | h
          · simp at h
          · exact h
        rcases h6 with rfl | ⟨α, i, h7, e3, h8, h9, h10⟩
        · have := congrArg List.length hb
          simp [toNibs_length] at this
        · have hbα : b <+: α := by
            rw [h7] at hbe
            rcases comparable hbe (List.prefix_append α [i]) with ⟨s, rfl⟩ | ⟨n, s, rfl⟩
            · cases s with
              | nil => simp
              | cons y s =>
                have := congrArg List.length hb
                rw [h7] at this
                simp at this
            · exact List.prefix_append _ _
          obtain ⟨q3, w3, k5, k6⟩ := H1 e3 h8 (hbα.trans h9)
          have g1 : q <+: q1 := by simp only [lookup] at k2; split at k2; assumption; simp at k2
          have g3 : q <+: q3 := by simp only [lookup] at k6; split at k6; assumption; simp at k6
          rcases List.prefix_or_prefix_of_prefix g1 hr1 with hh | hh
          · exact hnq hh
          · refine h10 (toNibs_prefix.1 ?_)
            rw [k5, hb]
            exact (List.prefix_append_right_inj b).2 (hh.trans g3)
    | branch cs v =>
      cases r with
      | nil =>
        have hv : v = [] := by
          apply Decidable.byContradiction
          intro hv
          simp [lookup, hv] at hre
        exact ⟨by simp [hv], .inl ⟨hsh' (by intro q c i r h; simp at h), rfl⟩⟩
      | cons n r0 =>
        exfalso
        refine HB cs v rfl n r0 (by rw [hb]; exact List.prefix_rfl) e1 h1 ?_
        rw [← hb]; exact toNibs_prefix.2 h4
  · -- Skip
    have hαe : α <+: toNibs e := (List.prefix_append _ _).trans h3
    have hα : ∃ s, α = b ++ s := by
      rcases comparable hαe hbe with h | ⟨n, s, rfl⟩
      · exact h
      · exfalso
        obtain ⟨q1, w1, g1⟩ := hex
        obtain ⟨k1, g2, g3⟩ := H2 _ _ g1
        have := next_eq h3 hbe
        subst this
        refine h4 k1 g2 ?_
        rw [g3]; exact ⟨s ++ q1, by simp⟩
    obtain ⟨s, rfl⟩ := hα
    have hbe1 : b <+: toNibs e1 := (List.prefix_append _ _).trans h8
    have hbe2 : b <+: toNibs e2 := (List.prefix_append _ _).trans h9
    obtain ⟨q1, w1, k1, k2⟩ := H1 e1 h5 hbe1
    obtain ⟨q2, w2, k3, k4⟩ := H1 e2 h6 hbe2
    cases x with
    | empty => exact absurd rfl hxn
    | leaf q v =>
      exfalso
      have e1' : q = q1 := by simp only [lookup] at k2; split at k2; assumption; simp at k2
      have e2' : q = q2 := by simp only [lookup] at k4; split at k4; assumption; simp at k4
      subst e1'; subst e2'
      exact h7 (toNibs_inj (k1.trans k3.symm))
    | ext q c =>
      have hsr : s ++ [i] <+: r := by
        have := h3; rw [hb, List.append_assoc] at this
        exact (List.prefix_append_right_inj b).1 this
      have hnq : ¬ q <+: r := by
        rcases hst with rfl | h
        · have := List.prefix_nil.1 hsr
          simp at this
        · exact h
      have g1 : q <+: q1 := by simp only [lookup] at k2; split at k2; assumption; simp at k2
      have hs1 : s <+: q1 := by
        have := h8; rw [k1] at this
        exact (List.prefix_append_right_inj b).1 this
      have hsq : s <+: q := by
        rcases List.prefix_or_prefix_of_prefix hs1 g1 with hh | hh
        · exact hh
        · exact absurd (hh.trans ((List.prefix_append _ _).trans hsr)) hnq
      obtain ⟨i0, r0, rfl⟩ : ∃ i0 r0, r = i0 :: r0 := by
        cases r with
        | nil => exact absurd (List.prefix_nil.1 hsr) (by simp)
        | cons i0 r0 => exact ⟨i0, r0, rfl⟩
      refine ⟨rfl, .inr ⟨hsh _ _ _ _ rfl, ?_, ?_⟩⟩
      · intro hnil
        have := hpn hnil
        simp only [Prod.mk.injEq] at this
        have hb0 : b = [] := by
          have h := congrArg List.length hb
          rw [this.2] at h
          simp only [List.length_append] at h
          exact List.length_eq_zero_iff.1 (by omega)
        subst hb0
        obtain ⟨q3, w3, k5, k6⟩ := H1 e3 h11 (List.nil_prefix)
        have g3 : q <+: q3 := by simp only [lookup] at k6; split at k6; assumption; simp at k6
        refine h12 ?_
        rw [k5]
        simpa using hsq.trans g3
      · have h4' := hV _ _ h13
        obtain ⟨u, hu⟩ := h14
        rw [← hu, List.append_assoc, hlk] at h4'
        have := enc_ge E h4'
        have hl := congrArg List.length hu
        rw [toNibs_length] at hl
        simp only [List.length_append] at hl this h15
        omega
    | branch cs v =>
      exfalso
      cases s with
      | nil =>
        obtain ⟨q3, w3, g1, g2⟩ := hxc.diverge j
        obtain ⟨k, g3, g4⟩ := H2 _ _ g1
        have := h10 k g3 (by rw [g4]; simp)
        rw [g4, List.append_assoc] at this
        have := (List.prefix_append_right_inj b).1 this
        obtain ⟨u, hu⟩ := this
        rw [← hu] at g2
        simp at g2
      | cons n s => exact HB cs v rfl n s hαe e1 h5 h8

end T

/-- Histories with different contents leave different root hashes. -/
theorem root_ne {E : Env} {secure : Bool} {ops ops' : List Op} {ks : List Bytes}
    (h : Valid E secure ops (ks ++ ops'.map Op.key)) (h' : Valid E secure ops' (ops.map Op.key))
    (hcoll : CollFree E (Item.encode (.str []) ::
      (hashed (MPT.after E secure ops) ++ hashed (MPT.after E secure ops'))))
    (hd : contents ops ≠ contents ops') :
    (MPT.after E secure ops').rootHash E ≠ (MPT.after E secure ops).rootHash E := by
  intro hr
  apply hd
  have hs : Valid E secure ops (ops'.map Op.key) := h.subset (by
    intro k hk; exact List.mem_append_left _ (List.mem_append_right _ hk))
  obtain ⟨a, h1, _, h3, _⟩ := h.inv
  obtain ⟨b, g1, _, g3, _⟩ := h'.inv
  have hab := h1.of_rootHash g1 hcoll h.log h'.log hr.symm
  subst hab
  have hk' : secure = true → CollFree E (ops.map Op.key ++ ops'.map Op.key) := h'.keys
  funext k
  cases hm : contents ops k with
  | some v =>
    have hmem := contents_some_mem hm
    rw [← eff_eq (E := E) hk' (List.mem_append_left _ hmem), ← g3, h3,
      eff_eq h.keys (List.mem_append_right _ hmem), hm]
  | none =>
    cases hm' : contents ops' k with
    | none => rfl
    | some v =>
      have hmem := contents_some_mem hm'
      rw [← eff_eq (E := E) hs.keys (List.mem_append_left _ hmem), ← h3, g3,
        eff_eq hk' (List.mem_append_right _ hmem), hm'] at hm
      exact hm.symm

/-- A trie has keys exactly when it is not empty. -/
theorem nonempty_iff {E : Env} {secure : Bool} {ops' : List Op} {ks : List Bytes} (h' : Valid E secure ops' ks)
    {b : T} (g2 : b.Canon) (g3 : ∀ k, T.lookup b (toNibs k) = eff E secure ops' k)
    (g4 : ∀ p v, T.lookup b p = some v → ∃ k, p = toNibs k) :
    (∃ k, contents ops' k ≠ none) ↔ b ≠ .empty := by
  constructor
  · rintro ⟨k, hk⟩ rfl
    have := (eff_present h').2 ⟨k, hk, rfl⟩
    rw [← g3] at this
    simp [T.lookup] at this
  · intro hb
    obtain ⟨q, w, hq⟩ := g2.exists_key hb
    obtain ⟨e, rfl⟩ := g4 _ _ hq
    have hpr : eff E secure ops' e ≠ none := by rw [← g3, hq]; simp
    obtain ⟨k, hk, _⟩ := (eff_present h').1 hpr
    exact ⟨k, hk⟩

theorem T.proofStorage_keeps {E : Env} {l : List Bytes} {acc ps : Dict Bytes} {k : Bytes}
    (h : MPT.proofStorage E l acc = .ok ps) (hk : dget acc k ≠ none) : dget ps k ≠ none := by
  induction l generalizing acc with
  | nil => simp only [MPT.proofStorage, Except.ok.injEq] at h; subst h; exact hk
  | cons x l ih =>
    simp only [MPT.proofStorage] at h
    cases h1 : Node.decode x with
    | error e => rw [h1] at h; cases h
    | ok n =>
      rw [h1] at h
      simp only [Except.bind_ok'] at h
      cases h2 : n.intoReference E with
      | error e => rw [h2] at h; cases h
      | ok r =>
        rw [h2] at h
        refine ih h ?_
        rw [dget_dset]
        split
        · simp
        · exact hk

theorem T.proofStorage_nil {E : Env} {l : List Bytes} (h : MPT.proofStorage E l [] = .ok []) : l = [] := by
  cases l with
  | nil => rfl
  | cons x l =>
    simp only [MPT.proofStorage] at h
    cases h1 : Node.decode x with
    | error e => rw [h1] at h; cases h
    | ok n =>
      rw [h1] at h
      simp only [Except.bind_ok'] at h
      cases h2 : n.intoReference E with
      | error e => rw [h2] at h; cases h
      | ok r =>
        rw [h2] at h
        have := T.proofStorage_keeps (k := r) h (by rw [dget_dset]; simp)
        simp [dget] at this

end Pymt
