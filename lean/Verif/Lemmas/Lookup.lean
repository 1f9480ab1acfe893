import Verif.Lemmas.History

/-!
# `contains` and `get` against the lookup function
-/

namespace Pymt
namespace T

/-- `get` on an abstract trie. -/
def getT (a : T) (p : List Nib) : Py Bytes := do
  let x ← found (T.seek a p).1 (T.seek a p).2
  dataOf x

theorem has_of_lookup {a : T} (h : a.Shape) {p : List Nib} {v : Bytes} (hp : lookup a p = some v) :
    has a p = true := by
  have hne : a ≠ empty := by rintro rfl; simp [lookup] at hp
  have hst := seek_stuck h hne p
  have hsh := h.seek p
  rw [lookup_seek] at hp
  unfold has
  generalize T.seek a p = s at *
  obtain ⟨x, r⟩ := s
  cases x with
  | empty => simp [lookup] at hp
  | leaf q w => simp only [lookup] at hp; split at hp <;> simp_all
  | ext q c =>
    rcases hst with h0 | h0
    · simp only at h0 hp
      subst h0
      simp [lookup, hsh.1] at hp
    · simp [lookup_ext_none c h0] at hp
  | branch cs d =>
    rcases hst with h0 | ⟨i, r', h0, h1⟩
    · simp only at h0 hp
      subst h0
      simp only [lookup] at hp
      split at hp <;> simp_all
    · simp only at h0 hp
      subst h0
      simp [lookup, h1] at hp

theorem has_of_none {a : T} {p : List Nib} (hp : lookup a p = none)
    (hpre : ∀ q r, p = q ++ r → r ≠ [] → lookup a q = none) : has a p = false := by
  obtain ⟨b, h1, h2⟩ := seek_split a p
  rw [lookup_seek] at hp
  unfold has
  generalize T.seek a p = s at *
  obtain ⟨x, r⟩ := s
  cases x with
  | empty => rfl
  | ext q c => rfl
  | leaf q w =>
    simp only [lookup] at hp ⊢
    split at hp <;> simp_all
  | branch cs d =>
    by_cases hd : d = []
    · simp [hd]
    · exfalso
      have h3 := h2 []
      simp only [List.append_nil, lookup, hd, if_false] at h3
      simp only at h1
      by_cases hr : r = []
      · subst hr
        simp [lookup, hd] at hp
      · rw [hpre b r h1 hr] at h3
        simp at h3

theorem getT_of_lookup {a : T} (h : a.Shape) {p : List Nib} {v : Bytes} (hp : lookup a p = some v) :
    getT a p = .ok v := by
  have hne : a ≠ empty := by rintro rfl; simp [lookup] at hp
  have hst := seek_stuck h hne p
  have hsh := h.seek p
  rw [lookup_seek] at hp
  unfold getT
  generalize T.seek a p = s at *
  obtain ⟨x, r⟩ := s
  cases x with
  | empty => simp [lookup] at hp
  | leaf q w =>
    simp only [lookup] at hp
    split at hp
    · rename_i e
      subst e
      cases q <;> simp_all [found, dataOf]
    · simp at hp
  | ext q c =>
    rcases hst with h0 | h0
    · simp only at h0 hp
      subst h0
      simp [lookup, hsh.1] at hp
    · simp [lookup_ext_none c h0] at hp
  | branch cs d =>
    rcases hst with h0 | ⟨i, r', h0, h1⟩
    · simp only at h0 hp
      subst h0
      simp only [lookup] at hp
      split at hp <;> simp_all [found, dataOf]
    · simp only at h0 hp
      subst h0
      simp [lookup, h1] at hp

theorem getT_of_none {a : T} (h : a.Canon) (hne : a ≠ empty) {p : List Nib} (hp : lookup a p = none)
    (hext : ∀ r, r ≠ [] → lookup a (p ++ r) = none) : ∃ e, getT a p = .error e := by
  have hsn := seek_ne_empty h.shape hne p
  have hsc := h.seek p
  obtain ⟨b, h1, h2⟩ := seek_split a p
  have hls := lookup_seek a p
  unfold getT
  generalize T.seek a p = s at *
  obtain ⟨x, r⟩ := s
  simp only at h1 h2 hls hsn hsc
  cases r with
  | nil =>
    exfalso
    obtain ⟨q, v, hq⟩ := hsc.exists_key hsn
    rw [← h2] at hq
    rw [List.append_nil] at h1
    subst h1
    by_cases hqn : q = []
    · subst hqn; simp [hp] at hq
    · simp [hext q hqn] at hq
  | cons i r =>
    cases x with
    | empty => exact absurd rfl hsn
    | leaf q w =>
      have : q ≠ i :: r := by
        rintro rfl
        simp [hp, lookup] at hls
      exact ⟨.keyNotFound, by simp [found, this]⟩
    | ext q c => exact ⟨_, rfl⟩
    | branch cs d => exact ⟨_, rfl⟩

/-- What `get` returns is empty or the value of a present key that extends the path asked for. -/
theorem getT_sound {a : T} {p : List Nib} {v : Bytes} (h : getT a p = .ok v) :
    v = [] ∨ ∃ r, lookup a (p ++ r) = some v := by
  obtain ⟨b, h1, h2⟩ := seek_split a p
  unfold getT at h
  generalize T.seek a p = s at *
  obtain ⟨x, r⟩ := s
  simp only at h1 h2 h
  cases x with
  | empty => cases r <;> simp [found, dataOf] at h
  | ext q c => cases r <;> simp [found, dataOf] at h
  | leaf q w =>
    cases r with
    | nil =>
      simp only [found, dataOf, Except.bind_ok', Except.ok.injEq] at h
      subst h
      rw [List.append_nil] at h1
      subst h1
      exact .inr ⟨q, by rw [h2]; simp [lookup]⟩
    | cons i r =>
      simp only [found] at h
      split at h
      · rename_i hq
        simp only [dataOf, Except.bind_ok', Except.ok.injEq] at h
        subst h
        exact .inr ⟨[], by rw [List.append_nil, h1, h2]; simp [lookup, hq]⟩
      · simp at h
  | branch cs d =>
    cases r with
    | cons i r => simp [found] at h
    | nil =>
      simp only [found, dataOf, Except.bind_ok', Except.ok.injEq] at h
      subst h
      by_cases hd : d = []
      · exact .inl hd
      · rw [List.append_nil] at h1
        subst h1
        exact .inr ⟨[], by rw [h2]; simp [lookup, hd]⟩

/-- Exactly when the walk of `contains` ends at something that counts as a hit. -/
theorem has_iff {a : T} (h : a.Canon) (hne : a ≠ empty) (p : List Nib) :
    has a p = true ↔ lookup a p ≠ none ∨
      ∃ b i r, p = b ++ i :: r ∧ (∃ v, v ≠ [] ∧ lookup a b = some v) ∧
        (∃ q, q ≠ [] ∧ lookup a (b ++ q) ≠ none) ∧ ∀ q, lookup a (b ++ i :: q) = none := by
  have hsh := h.shape
  have hst := seek_stuck hsh hne p
  have hsn := seek_ne_empty hsh hne p
  have hsc := h.seek p
  obtain ⟨b, h1, h2⟩ := seek_split a p
  constructor
  · unfold has
    generalize T.seek a p = s at *
    obtain ⟨x, r⟩ := s
    simp only at h1 h2 hst hsn hsc
    cases x with
    | empty => simp
    | ext q c => simp
    | leaf q w =>
      simp only [decide_eq_true_eq]
      rintro rfl
      left
      rw [h1, h2]; simp [lookup]
    | branch cs d =>
      simp only [ne_eq, decide_not, Bool.not_eq_eq_eq_not, Bool.not_true, decide_eq_false_iff_not]
      intro hd
      rcases hst with rfl | ⟨i, r', rfl, hi⟩
      · left; rw [h1, h2]; simp [lookup, hd]
      · right
        refine ⟨b, i, r', h1, ⟨d, hd, ?_⟩, ?_, fun q => ?_⟩
        · have := h2 []; rw [List.append_nil] at this; rw [this]; simp [lookup, hd]
        · obtain ⟨j, hj⟩ := hsc.1
          obtain ⟨q, v, hq⟩ := (hsc.2.2 j).exists_key hj
          exact ⟨j :: q, by simp, by rw [h2]; simp [lookup, hq]⟩
        · rw [h2]; simp [lookup, hi]
  · rintro (hp | ⟨b', i, r', he, ⟨v, hv, hb'⟩, ⟨q, hq, hbq⟩, hno⟩)
    · cases hl : lookup a p with
      | none => exact absurd hl hp
      | some v => exact has_of_lookup hsh hl
    unfold has
    generalize T.seek a p = s at *
    obtain ⟨x, r⟩ := s
    simp only at h1 h2 hst hsn hsc
    -- the walk stops at or before the end of b'
    have hle : b <+: b' := by
      have hb : b <+: b' ++ i :: r' := ⟨r, by rw [← h1, he]⟩
      rcases List.prefix_or_prefix_of_prefix hb (List.prefix_append b' (i :: r')) with hx | ⟨s, rfl⟩
      · exact hx
      · cases s with
        | nil => rw [List.append_nil]; exact List.prefix_refl _
        | cons j s =>
          exfalso
          obtain ⟨t, w, ht⟩ := hsc.exists_key hsn
          rw [← h2] at ht
          have : j = i := by
            obtain ⟨z, hz⟩ := hb
            rw [List.append_assoc] at hz
            have := List.append_cancel_left hz
            simp only [List.cons_append, List.cons.injEq] at this
            exact this.1
          subst this
          rw [List.append_assoc, List.cons_append, hno] at ht
          simp at ht
    obtain ⟨s, rfl⟩ := hle
    rw [h2] at hb'
    rw [List.append_assoc, h2] at hbq
    have hr : r = s ++ i :: r' := by
      have := h1.symm.trans he
      rw [List.append_assoc] at this
      exact List.append_cancel_left this
    cases x with
    | empty => exact absurd rfl hsn
    | leaf w u =>
      exfalso
      simp only [lookup] at hb' hbq
      split at hb'
      · rename_i hw
        subst hw
        apply hbq
        rw [if_neg]
        intro e
        exact hq (List.append_cancel_left ((List.append_nil _).trans e)).symm
      · simp at hb'
    | ext w c =>
      exfalso
      have hw : w <+: s := by
        apply Decidable.byContradiction
        intro hn
        rw [lookup_ext_none c hn] at hb'
        simp at hb'
      rcases hst with rfl | hst
      · simp at hr
      · exact hst (hr ▸ hw.trans (List.prefix_append _ _))
    | branch cs d =>
      cases s with
      | nil =>
        simp only [lookup] at hb'
        split at hb'
        · simp at hb'
        · rename_i hd
          simp [hd]
      | cons j s =>
        exfalso
        rcases hst with rfl | ⟨i', r2, hr2, hi'⟩
        · simp at hr
        · rw [hr2, List.cons_append, List.cons.injEq] at hr
          rw [hr.1] at hi'
          simp [lookup, hi'] at hb'

end T

/-! ### Object level -/

/-- What `get` returns is empty or the value of a present key that extends the key asked for. -/
theorem Inv.get_sound {E : Env} {t : MPT} {m : Contents} (h : Inv E t m)
    (hl : LogOk E t.store.written) {k v : Bytes} (hf : Fits E t.secure k) (hg : t.get E k = .ok v) :
    v = [] ∨ ∃ k', t.keyOf E k <+: k' ∧ m k' = some v := by
  obtain ⟨a, h1, h2, h3, h4⟩ := h
  by_cases hne : a = .empty
  · subst hne
    obtain ⟨e, he⟩ := h1.get_empty hl k
    rw [he] at hg; simp at hg
  · rw [h1.get hne (fits_nibs hf)] at hg
    rcases T.getT_sound hg with hv | ⟨r, hr⟩
    · exact .inl hv
    · obtain ⟨k', hk'⟩ := h4 _ _ hr
      rw [hk', h3] at hr
      exact .inr ⟨k', toNibs_prefix.1 ⟨r, hk'⟩, hr⟩

/-- `contains` never raises. -/
theorem Inv.contains_total {E : Env} {t : MPT} {m : Contents} (h : Inv E t m)
    (hl : LogOk E t.store.written) {k : Bytes} (hf : Fits E t.secure k) :
    t.contains E k = .ok true ∨ t.contains E k = .ok false := by
  obtain ⟨a, h1, h2, h3, h4⟩ := h
  rw [h1.contains hl (fits_nibs hf)]
  cases T.has a (toNibs (t.keyOf E k)) <;> simp

/-- Exactly when `contains` answers True. -/
theorem Inv.contains_true_iff {E : Env} {t : MPT} {m : Contents} (h : Inv E t m)
    (hl : LogOk E t.store.written) {k : Bytes} (hf : Fits E t.secure k) :
    t.contains E k = .ok true ↔ m (t.keyOf E k) ≠ none ∨
      ∃ k' i, toNibs k' ++ [i] <+: toNibs (t.keyOf E k) ∧ (∃ v, v ≠ [] ∧ m k' = some v) ∧
        (∃ k'', k'' ≠ k' ∧ k' <+: k'' ∧ m k'' ≠ none) ∧
        ∀ k'', toNibs k' ++ [i] <+: toNibs k'' → m k'' = none := by
  obtain ⟨a, h1, h2, h3, h4⟩ := h
  rw [h1.contains hl (fits_nibs hf)]
  simp only [Except.ok.injEq]
  by_cases hne : a = .empty
  · subst hne
    have : ∀ k, m k = none := fun k => by rw [← h3]; rfl
    simp only [this]
    simp [T.has, T.seek]
  · rw [T.has_iff h2 hne, h3]
    constructor
    · rintro (h | ⟨b, i, r, he, ⟨v, hv, hb⟩, ⟨q, hq, hbq⟩, hno⟩)
      · exact .inl h
      · obtain ⟨k', rfl⟩ := h4 _ _ hb
        right
        refine ⟨k', i, ⟨r, by rw [he]; simp⟩, ⟨v, hv, by rw [← h3]; exact hb⟩, ?_, ?_⟩
        · cases hl2 : T.lookup a (toNibs k' ++ q) with
          | none => exact absurd hl2 hbq
          | some w =>
            obtain ⟨k'', hk''⟩ := h4 _ _ hl2
            refine ⟨k'', ?_, toNibs_prefix.1 ⟨q, hk''⟩, ?_⟩
            · rintro rfl
              exact hq (List.append_cancel_left (hk''.trans (List.append_nil _).symm))
            · rw [← h3, ← hk'', hl2]; simp
        · rintro k'' ⟨z, hz⟩
          rw [← h3, ← hz, List.append_assoc]
          exact hno z
    · rintro (h | ⟨k', i, ⟨r, he⟩, ⟨v, hv, hb⟩, ⟨k'', hne', ⟨z, hz⟩, hm⟩, hno⟩)
      · exact .inl h
      · right
        refine ⟨toNibs k', i, r, by rw [← he]; simp, ⟨v, hv, by rw [h3]; exact hb⟩, ?_, fun q => ?_⟩
        · refine ⟨toNibs z, ?_, ?_⟩
          · intro e
            have : (toNibs z).length = 0 := by rw [e]; rfl
            rw [toNibs_length] at this
            have : z = [] := List.length_eq_zero_iff.1 (by omega)
            subst this
            rw [List.append_nil] at hz
            exact hne' hz.symm
          · rw [← toNibs_append, hz, h3]; exact hm
        · cases hq : T.lookup a (toNibs k' ++ i :: q) with
          | none => rfl
          | some w =>
            obtain ⟨k3, hk3⟩ := h4 _ _ hq
            rw [hk3, h3, hno k3 ⟨q, by rw [← hk3]; simp⟩] at hq
            simp at hq

theorem Inv.contains_some {E : Env} {t : MPT} {m : Contents} (h : Inv E t m)
    (hl : LogOk E t.store.written) {k w : Bytes} (hf : Fits E t.secure k)
    (hm : m (t.keyOf E k) = some w) : t.contains E k = .ok true := by
  obtain ⟨a, h1, h2, h3, h4⟩ := h
  rw [← h3] at hm
  rw [h1.contains hl (fits_nibs hf), T.has_of_lookup h1.shape hm]

/-- `contains` of an absent key, when no present key is a proper prefix of it. -/
theorem Inv.contains_none {E : Env} {t : MPT} {m : Contents} (h : Inv E t m)
    (hl : LogOk E t.store.written) {k : Bytes} (hf : Fits E t.secure k)
    (hm : m (t.keyOf E k) = none)
    (hpre : ∀ k', k' <+: t.keyOf E k → k' ≠ t.keyOf E k → m k' = none) :
    t.contains E k = .ok false := by
  obtain ⟨a, h1, h2, h3, h4⟩ := h
  rw [h1.contains hl (fits_nibs hf), T.has_of_none]
  · rw [h3, hm]
  · intro q r he hr
    cases hq : T.lookup a q with
    | none => rfl
    | some v =>
      exfalso
      obtain ⟨k', rfl⟩ := h4 q v hq
      rw [h3] at hq
      rw [hpre k' (toNibs_prefix.1 ⟨r, he.symm⟩) ?_] at hq
      · simp at hq
      · intro e
        rw [e] at he
        have := List.append_cancel_left ((List.append_nil _).trans he)
        exact hr this.symm

theorem Inv.get_some {E : Env} {t : MPT} {m : Contents} (h : Inv E t m)
    {k w : Bytes} (hf : Fits E t.secure k)
    (hm : m (t.keyOf E k) = some w) : t.get E k = .ok w := by
  obtain ⟨a, h1, h2, h3, h4⟩ := h
  rw [← h3] at hm
  have hne : a ≠ .empty := by rintro rfl; simp [T.lookup] at hm
  rw [h1.get hne (fits_nibs hf)]
  exact T.getT_of_lookup h1.shape hm

/-- `get` of an absent key, when no present key properly extends it. -/
theorem Inv.get_none {E : Env} {t : MPT} {m : Contents} (h : Inv E t m)
    (hl : LogOk E t.store.written) {k : Bytes} (hf : Fits E t.secure k)
    (hm : m (t.keyOf E k) = none)
    (hext : ∀ k', t.keyOf E k <+: k' → k' ≠ t.keyOf E k → m k' = none) :
    ∃ e, t.get E k = .error e := by
  obtain ⟨a, h1, h2, h3, h4⟩ := h
  by_cases hne : a = .empty
  · subst hne; exact h1.get_empty hl k
  · rw [h1.get hne (fits_nibs hf)]
    refine T.getT_of_none h2 hne (by rw [h3, hm]) fun r hr => ?_
    cases hq : T.lookup a (toNibs (t.keyOf E k) ++ r) with
    | none => rfl
    | some v =>
      exfalso
      obtain ⟨k', he⟩ := h4 _ v hq
      rw [he, h3] at hq
      rw [hext k' (toNibs_prefix.1 ⟨r, he⟩) ?_] at hq
      · simp at hq
      · intro e
        rw [e] at he
        have := List.append_cancel_left (he.trans (List.append_nil _).symm)
        exact hr this

theorem eq_of_prefix_len {a b : Bytes} (h : a <+: b) (hl : a.length = b.length) : a = b := h.eq_of_length hl

end Pymt
