import Verif.Lemmas.TrieDelete

/-!
# Tries in which empty values were written

Writing an empty value at a branch clears its value field, so that a branch may be left with a single
child.  This file proves what `insert` and `remove` do to lookups without any assumption on values.
-/

namespace Pymt
namespace T

/-- Non-empty extensions lead to branches, and every branch has a child. -/
def Full : T → Prop
  | empty => True
  | leaf _ _ => True
  | ext p c => p ≠ [] ∧ c.isBranch = true ∧ Full c
  | branch cs _ => (∃ j, cs j ≠ empty) ∧ ∀ i, Full (cs i)

theorem Full.shape {t : T} (h : t.Full) : t.Shape := by
  induction t with
  | empty => trivial
  | leaf p v => trivial
  | ext p c ih => exact ⟨h.1, h.2.1, ih h.2.2⟩
  | branch cs v ih => exact fun i => ih i (h.2 i)

theorem Full.exists_key {t : T} (h : t.Full) (hne : t ≠ empty) : ∃ p v, lookup t p = some v := by
  induction t with
  | empty => exact absurd rfl hne
  | leaf p v => exact ⟨p, v, by simp [lookup]⟩
  | ext p c ih =>
    obtain ⟨q, v, hq⟩ := ih h.2.2 (by rintro rfl; simp [Full, isBranch] at h)
    exact ⟨p ++ q, v, by simpa using hq⟩
  | branch cs v ih =>
    obtain ⟨⟨j, hj⟩, hc⟩ := h
    obtain ⟨q, w, hq⟩ := ih j (hc j) hj
    exact ⟨j :: q, w, by simpa [lookup] using hq⟩

/-- Some key goes on after `p`. -/
def Over (t : T) (p : List Nib) : Prop := ∃ q, q ≠ p ∧ p <+: q ∧ lookup t q ≠ none

theorem Full.over_nil {cs : Nib → T} {v : Bytes} (h : (branch cs v).Full) : Over (branch cs v) [] := by
  obtain ⟨⟨j, hj⟩, hc⟩ := h
  obtain ⟨q, w, hq⟩ := (hc j).exists_key hj
  exact ⟨j :: q, by simp, List.nil_prefix, by simp [lookup, hq]⟩

theorem over_leaf {s p : List Nib} {w : Bytes} (h : s ≠ p) : Over (leaf s w) p ↔ p <+: s := by
  constructor
  · rintro ⟨q, h1, h2, h3⟩
    simp only [lookup] at h3
    split at h3
    · rename_i e; exact e ▸ h2
    · exact absurd rfl h3
  · exact fun hp => ⟨s, h, hp, by simp [lookup]⟩

theorem over_ext {s p : List Nib} {c : T} : Over (ext s c) (s ++ p) ↔ Over c p := by
  constructor
  · rintro ⟨q, h1, ⟨r, rfl⟩, h3⟩
    rw [List.append_assoc, lookup_ext_append] at h3
    refine ⟨p ++ r, fun e => h1 (by rw [List.append_assoc, e]), List.prefix_append _ _, h3⟩
  · rintro ⟨q, h1, h2, h3⟩
    exact ⟨s ++ q, by simpa using h1, (List.prefix_append_right_inj s).2 h2, by simpa using h3⟩

theorem Full.over_split {s p : List Nib} {c : T} (h : (ext s c).Full) (hs : ¬ s <+: p) :
    Over (ext s c) p ↔ p <+: s := by
  constructor
  · rintro ⟨q, h1, h2, h3⟩
    cases hl : lookup (ext s c) q with
    | none => exact absurd hl h3
    | some w =>
      obtain ⟨r, rfl, _⟩ := lookup_ext_some hl
      rcases prefix_total h2 (List.prefix_append s r) with h | h
      · exact h
      · exact absurd h hs
  · intro hp
    obtain ⟨q, w, hq⟩ := h.exists_key (by simp)
    obtain ⟨r, rfl, _⟩ := lookup_ext_some hq
    refine ⟨_, ?_, hp.trans (List.prefix_append _ _), by rw [hq]; simp⟩
    rintro rfl
    exact hs (List.prefix_append _ _)

theorem over_branch {cs : Nib → T} {v : Bytes} {i : Nib} {p : List Nib} :
    Over (branch cs v) (i :: p) ↔ Over (cs i) p := by
  constructor
  · rintro ⟨q, h1, ⟨r, rfl⟩, h3⟩
    exact ⟨p ++ r, fun e => h1 (by rw [List.cons_append, e]), List.prefix_append _ _, by simpa [lookup] using h3⟩
  · rintro ⟨q, h1, h2, h3⟩
    exact ⟨i :: q, by simpa using h1, List.cons_prefix_cons.2 ⟨rfl, h2⟩, by simpa [lookup] using h3⟩

/-! ### Insertion -/

theorem lookup_branch2' {p q : List Nib} {v w : Bytes} (h : Apart p q) (hpq : p ≠ q) (r : List Nib) :
    lookup (branch2 p v q w) r =
      if r = p then (if v = [] ∧ p = [] then none else some v)
      else if r = q then (if w = [] ∧ q = [] then none else some w) else none := by
  rcases p with _ | ⟨i, p⟩ <;> rcases q with _ | ⟨j, q⟩ <;> rcases r with _ | ⟨k, r⟩ <;>
    simp only [branch2, setLeaf, lookup, fset, if_true, if_false] <;>
    try simp_all [lookup]
  · by_cases hk : k = j
    · subst hk; simp [lookup, eq_comm]
    · simp [hk, lookup]
  · by_cases hk : k = i
    · subst hk; simp [lookup, eq_comm]
    · simp [hk, lookup]
  · have hij : i ≠ j := h i j p q rfl rfl
    by_cases hk : k = j
    · subst hk
      simp [lookup, eq_comm, Ne.symm hij]
      intro e; exact absurd e hij
    · by_cases hk' : k = i
      · subst hk'
        rw [if_neg hk, if_pos rfl]
        have : ¬ j = k := fun e => hk e.symm
        simp only [lookup, List.cons.injEq, true_and, hk, false_and, if_false]
        by_cases e : p = r
        · simp [e]
        · rw [if_neg e, if_neg (fun e' => e e'.symm)]
      · simp [hk, hk', lookup]

theorem lookup_branchExt' {p q : List Nib} {v : Bytes} {c : T} (h : Apart p q) (hq : q ≠ []) (r : List Nib) :
    lookup (branchExt p v q c) r =
      if r = p then (if v = [] ∧ p = [] then none else some v) else lookup (ext q c) r := by
  by_cases hv : v = [] ∧ p = []
  · obtain ⟨rfl, rfl⟩ := hv
    have h1 := lookup_branchExt (v := [1]) (c := c) h hq (by simp) r
    rcases r with _ | ⟨k, r⟩
    · simp [branchExt, lookup]
    · have h2 : lookup (branchExt [] [] q c) (k :: r) = lookup (branchExt [] [1] q c) (k :: r) := by
        simp only [branchExt, lookup, setLeaf]
      rw [h2, h1]
      simp
  · rw [lookup_branchExt h hq (fun e1 e2 => hv ⟨e2, e1⟩)]
    simp [hv]

theorem lcp_append (p r : List Nib) : lcp p (p ++ r) = p := by
  induction p with
  | nil => cases r <;> simp [lcp]
  | cons i p ih => simp [lcp, ih]

theorem drop_lcp_nil_iff {p q : List Nib} : p.drop (lcp p q).length = [] ↔ p <+: q := by
  constructor
  · exact drop_lcp_nil
  · rintro ⟨r, rfl⟩
    rw [lcp_append]; simp

open Classical in
/-- What `insert` does to lookups: an empty value is not kept at a key that others go on after, and is
dropped when another key goes on after its key. -/
theorem Full.insert_lookup {t : T} (h : t.Full) {v : Bytes} {p : List Nib} (q : List Nib) :
    lookup (insert t p v) q =
      if q = p then (if v = [] ∧ Over t p then none else some v)
      else if lookup t q = some [] ∧ q <+: p then none else lookup t q := by
  induction t generalizing p q with
  | empty =>
    have : ¬ Over empty p := by rintro ⟨q, _, _, h⟩; simp [lookup] at h
    simp only [insert, lookup, eq_comm (a := p), this, and_false, if_false]
    simp
  | leaf s w =>
    rw [insert]
    by_cases hs : s = p
    · subst hs
      have : ¬ Over (leaf s w) s := by
        rintro ⟨q, h1, h2, h3⟩
        simp only [lookup] at h3
        split at h3
        · rename_i e; exact h1 e.symm
        · exact h3 rfl
      simp only [if_true, lookup, eq_comm (a := q), this, and_false, if_false]
      by_cases hq : s = q <;> simp [hq]
    · rw [if_neg hs]
      simp only [lookup_wrapExt]
      obtain ⟨h1, h2⟩ := lcp_drop p s
      have s0 : s.drop (lcp p s).length = [] ↔ s <+: p := by rw [lcp_comm]; exact drop_lcp_nil_iff
      rw [lookup_branch2' (lcp_apart p s) (drop_lcp_ne (Ne.symm hs))]
      simp only [over_leaf hs, drop_lcp_nil_iff, s0]
      by_cases hq : lcp p s <+: q
      · obtain ⟨r, rfl⟩ := hq
        rw [if_pos (List.prefix_append _ _), List.drop_left]
        have e1 := app_eq_iff (r := r) h1
        have e2 := app_eq_iff (r := r) h2
        simp only [lookup, e1, eq_comm (a := s), e2]
        by_cases r1 : r = p.drop (lcp p s).length
        · simp only [r1, if_true]
        · simp only [r1, if_false]
          by_cases r2 : r = s.drop (lcp p s).length
          · simp only [if_pos r2, Option.some.injEq]
            rw [e2.2 r2]
          · simp [if_neg r2]
      · rw [if_neg hq]
        have n1 : q ≠ p := by rintro rfl; exact hq (lcp_prefix_left _ _)
        have n2 : ¬ s = q := by rintro rfl; exact hq (lcp_prefix_right _ _)
        simp [n1, n2, lookup]
  | ext s c ih =>
    rw [insert]
    by_cases hs : s <+: p
    · obtain ⟨p, rfl⟩ := hs
      rw [if_pos (List.prefix_append _ _), List.drop_left, over_ext]
      by_cases hq : s <+: q
      · obtain ⟨q, rfl⟩ := hq
        rw [lookup_ext_append, lookup_ext_append, ih h.2.2 q]
        simp only [List.prefix_append_right_inj, List.append_cancel_left_eq]
      · rw [lookup_ext_none _ hq, lookup_ext_none _ hq, if_neg]
        · simp
        · rintro rfl; exact hq (List.prefix_append _ _)
    · rw [if_neg hs, h.over_split hs]
      simp only [lookup_wrapExt]
      obtain ⟨h1, h2⟩ := lcp_drop p s
      rw [lookup_branchExt' (lcp_apart p s) (drop_lcp_ne_nil hs)]
      simp only [drop_lcp_nil_iff]
      have hno : ¬ (lookup (T.ext s c) q = some [] ∧ q <+: p) := by
        rintro ⟨g1, g2⟩
        obtain ⟨r, rfl, _⟩ := lookup_ext_some g1
        exact hs ((List.prefix_append _ _).trans g2)
      rw [if_neg hno]
      by_cases hq : lcp p s <+: q
      · obtain ⟨r, rfl⟩ := hq
        rw [if_pos (List.prefix_append _ _), List.drop_left]
        have e1 := app_eq_iff (r := r) h1
        simp only [e1]
        by_cases r1 : r = p.drop (lcp p s).length
        · simp only [if_pos r1]
          congr
        · simp only [if_neg r1, lookup]
          have := app_prefix_iff (r := r) h2
          simp only [this]
          split
          · congr 1
            have hl : s.length = (lcp p s).length + (s.drop (lcp p s).length).length := by
              have := congrArg List.length h2
              simpa using this
            rw [hl, List.drop_append]
            simp
          · rfl
      · rw [if_neg hq]
        have n1 : q ≠ p := by rintro rfl; exact hq (lcp_prefix_left _ _)
        rw [if_neg n1, lookup_ext_none]
        intro hsq; exact hq ((lcp_prefix_right p s).trans hsq)
  | branch cs w ih =>
    rcases p with _ | ⟨i, p⟩ <;> rcases q with _ | ⟨j, q⟩
    · simp [insert, lookup, h.over_nil]
    · simp [insert, lookup]
    · simp only [insert, lookup]
      by_cases hw : w = [] <;> simp [hw]
    · rw [over_branch]
      simp only [insert, lookup, List.cons_prefix_cons, List.cons.injEq]
      by_cases hj : j = i
      · subst hj; simp [ih j (h.2 j) q]
      · simp [fset_other _ hj, hj]

theorem Full.wrapExt {k : List Nib} {t : T} (hb : t.isBranch = true) (h : t.Full) : (wrapExt k t).Full := by
  unfold T.wrapExt
  split
  · exact h
  · exact ⟨by assumption, hb, h⟩

theorem Full.branch2 {p q : List Nib} {v w : Bytes} (hpq : p ≠ q) : (branch2 p v q w).Full := by
  rcases p with _ | ⟨i, p⟩ <;> rcases q with _ | ⟨j, q⟩
  · exact absurd rfl hpq
  · refine ⟨⟨j, by simp [setLeaf]⟩, fun k => ?_⟩
    simp only [setLeaf, fset]; split <;> trivial
  · refine ⟨⟨i, by simp [setLeaf]⟩, fun k => ?_⟩
    simp only [setLeaf, fset]; split <;> trivial
  · refine ⟨⟨j, by simp [setLeaf]⟩, fun k => ?_⟩
    simp only [setLeaf, fset]; split
    · trivial
    · split <;> trivial

theorem Full.branchExt {p q : List Nib} {v : Bytes} {c : T} (hq : q ≠ [])
    (hb : c.isBranch = true) (hc : c.Full) : (branchExt p v q c).Full := by
  have hce : c ≠ empty := by rintro rfl; simp [isBranch] at hb
  have key : ∀ (cs : Nib → T) j q', q = j :: q' → setExt q c cs j ≠ empty ∧ (setExt q c cs j).Full ∧
      ∀ k, k ≠ j → setExt q c cs k = cs k := by
    rintro cs j q' rfl
    rcases q' with _ | ⟨j', q'⟩ <;> simp only [setExt, fset_same]
    · exact ⟨hce, hc, fun k hk => fset_other _ hk⟩
    · exact ⟨by simp, ⟨by simp, hb, hc⟩, fun k hk => fset_other _ hk⟩
  rcases q with _ | ⟨j, q⟩
  · exact absurd rfl hq
  unfold T.branchExt
  obtain ⟨k1, k2, k3⟩ := key (setLeaf p v fun _ => empty) j q rfl
  refine ⟨⟨j, k1⟩, fun k => ?_⟩
  by_cases hk : k = j
  · subst hk; exact k2
  · rw [k3 k hk]
    cases p with
    | nil => trivial
    | cons i p => simp only [setLeaf, fset]; split <;> trivial

theorem Full.insert {t : T} (h : t.Full) (p : List Nib) (v : Bytes) : (insert t p v).Full := by
  induction t generalizing p with
  | empty => trivial
  | leaf q w =>
    simp only [T.insert]
    split
    · trivial
    · rename_i hs
      exact Full.wrapExt rfl (Full.branch2 (drop_lcp_ne (Ne.symm hs)))
  | ext q c ih =>
    simp only [T.insert]
    split
    · exact ⟨h.1, insert_isBranch h.2.1 _ _, ih h.2.2 _⟩
    · rename_i hs
      exact Full.wrapExt rfl (Full.branchExt (drop_lcp_ne_nil hs) h.2.1 h.2.2)
  | branch cs w ih =>
    obtain ⟨⟨j, hj⟩, hc⟩ := h
    cases p with
    | nil => exact ⟨⟨j, hj⟩, hc⟩
    | cons i p =>
      refine ⟨⟨j, ?_⟩, fun k => ?_⟩
      · simp only [fset]; split
        · exact insert_ne_empty _ _ _
        · exact hj
      · simp only [fset]; split
        · exact ih i (hc i) p
        · exact hc k

/-! ### Deletion -/

theorem fromLast_full {cs : Nib → T} (h : occ cs = 1) (hc : ∀ i, (cs i).Full) :
    (fromLast cs).tree.Full ∧ (fromLast cs).tree ≠ empty ∧ (fromLast cs).Ok ∧
      (∀ t, fromLast cs ≠ .updated t) ∧
      ∀ q, lookup (fromLast cs).tree q = lookup (branch cs []) q := by
  obtain ⟨i, hf, hi⟩ := firstChild_some (cs := cs) (by omega)
  have other : ∀ j, j ≠ i → cs j = empty := fun j hj =>
    Classical.byContradiction fun hne => hj (occ_one_unique h hne hi)
  have look : ∀ (t : T), (∀ r, lookup t (i :: r) = lookup (cs i) r) → (lookup t [] = none) →
      (∀ j r, j ≠ i → lookup t (j :: r) = none) → ∀ q, lookup t q = lookup (branch cs []) q := by
    intro t h1 h2 h3 q
    rcases q with _ | ⟨j, q⟩
    · rw [h2]; simp [lookup]
    · by_cases hj : j = i
      · subst hj; rw [h1]; simp [lookup]
      · rw [h3 j q hj]; simp [lookup, other j hj]
  have hci := hc i
  unfold fromLast
  rw [hf]
  simp only
  cases hcs : cs i with
  | empty => exact absurd hcs hi
  | leaf p v =>
    rw [hcs] at hci
    refine ⟨hci, by simp [DelRes.tree], .inl ⟨v, rfl⟩, by simp, ?_⟩
    apply look
    · intro r; simp [DelRes.tree, lookup, hcs]
    · simp [DelRes.tree, lookup]
    · intro j r hj; simp [DelRes.tree, lookup, Ne.symm hj]
  | ext p c =>
    rw [hcs] at hci
    refine ⟨⟨by simp, hci.2⟩, by simp [DelRes.tree], .inr ⟨c, rfl⟩, by simp, ?_⟩
    apply look
    · intro r; simp [DelRes.tree, lookup, hcs]
    · simp [DelRes.tree, lookup]
    · intro j r hj; simp [DelRes.tree, lookup, Ne.symm hj]
  | branch ds v =>
    rw [hcs] at hci
    refine ⟨⟨by simp, rfl, hci⟩, by simp [DelRes.tree], .inr ⟨_, rfl⟩, by simp, ?_⟩
    apply look
    · intro r
      simp [DelRes.tree, lookup, hcs]
    · simp [DelRes.tree, lookup]
    · intro j r hj; simp [DelRes.tree, lookup, Ne.symm hj]

theorem afterDel_full {cs : Nib → T} {v : Bytes} (hc : ∀ i, (cs i).Full) :
    (afterDel cs v).tree.Full ∧ (afterDel cs v).Ok ∧
      (∀ t, afterDel cs v = .updated t → t.isBranch = true) ∧
      (∀ q, lookup (afterDel cs v).tree q = lookup (branch cs v) q) := by
  unfold afterDel
  by_cases h0 : occ cs = 0
  · by_cases hv : v = []
    · rw [if_pos ⟨h0, hv⟩]
      refine ⟨trivial, trivial, by simp, ?_⟩
      rintro (_ | ⟨j, q⟩) <;> simp [DelRes.tree, lookup, hv, occ_zero.1 h0]
    · rw [if_neg (fun h => hv h.2), if_pos ⟨h0, hv⟩]
      refine ⟨trivial, .inl ⟨v, rfl⟩, by simp, ?_⟩
      rintro (_ | ⟨j, q⟩) <;> simp [DelRes.tree, lookup, hv, occ_zero.1 h0]
  · rw [if_neg (fun h => h0 h.1), if_neg (fun h => h0 h.1)]
    by_cases h1 : occ cs = 1 ∧ v = []
    · rw [if_pos h1]
      obtain ⟨a, b, c, d, e⟩ := fromLast_full h1.1 hc
      refine ⟨a, c, fun t ht => absurd ht (d t), ?_⟩
      rw [h1.2]; exact e
    · rw [if_neg h1]
      refine ⟨⟨occ_pos h0, hc⟩, trivial, ?_, fun q => rfl⟩
      rintro t ht
      simp only [DelRes.updated.injEq] at ht
      rw [← ht]; rfl

theorem mergeExt_full {q sp : List Nib} {c : T} (hq : q ≠ []) (hc : c.Full)
    (hok : (∃ v, c = leaf sp v) ∨ (∃ d, c = ext sp d)) :
    (mergeExt q sp c).Full ∧ mergeExt q sp c ≠ empty ∧
      ∀ r, lookup (mergeExt q sp c) r = lookup (ext q c) r := by
  rcases hok with ⟨v, rfl⟩ | ⟨d, rfl⟩
  · refine ⟨hc, by simp [mergeExt], fun r => ?_⟩
    simp only [mergeExt]
    by_cases hr : q <+: r
    · obtain ⟨r, rfl⟩ := hr
      simp [lookup]
    · rw [lookup_ext_none _ hr]
      simp only [lookup]
      rw [if_neg]
      rintro rfl; exact hr (List.prefix_append _ _)
  · refine ⟨⟨by simp [hq], hc.2⟩, by simp [mergeExt], fun r => ?_⟩
    simp only [mergeExt]
    by_cases hr : q <+: r
    · obtain ⟨r, rfl⟩ := hr
      rw [lookup_ext_append]
      by_cases hs : sp <+: r
      · obtain ⟨r, rfl⟩ := hs
        rw [← List.append_assoc, lookup_ext_append, lookup_ext_append]
      · rw [lookup_ext_none _ hs, lookup_ext_none]
        intro h; exact hs ((List.prefix_append_right_inj q).1 h)
    · rw [lookup_ext_none _ hr, lookup_ext_none]
      intro h; exact hr ((List.prefix_append _ _).trans h)

/-- Deleting a key that is there. -/
theorem Full.remove_some {t : T} (h : t.Full) {p : List Nib} {w : Bytes} (hp : lookup t p = some w) :
    ∃ r, remove t p = .ok r ∧ r.tree.Full ∧ r.Ok ∧
      (∀ t', t.isBranch = true → r = .updated t' → t'.isBranch = true) ∧
      (∀ t', r = .updated t' → t' ≠ empty) ∧
      ∀ q, lookup r.tree q = if q = p then none else lookup t q := by
  induction t generalizing p with
  | empty => simp [lookup] at hp
  | leaf q v =>
    have hpq : p = q := by
      simp only [lookup] at hp
      split at hp <;> simp_all
    subst hpq
    refine ⟨.deleted, by simp [remove], trivial, trivial, by simp, by simp, fun q => ?_⟩
    simp only [DelRes.tree, lookup, eq_comm (a := q)]
    split <;> simp_all
  | ext q c ih =>
    obtain ⟨p, rfl, hp2⟩ := lookup_ext_some hp
    obtain ⟨r, hr, hrc, hok, hbr, hne, hl⟩ := ih h.2.2 hp2
    have look : ∀ t' : T, (∀ s, lookup t' s = lookup (ext q r.tree) s) →
        ∀ s, lookup t' s = if s = q ++ p then none else lookup (ext q c) s := by
      intro t' ht s
      rw [ht]
      by_cases hs : q <+: s
      · obtain ⟨s, rfl⟩ := hs
        simp [hl s]
      · rw [lookup_ext_none _ hs, lookup_ext_none _ hs]; simp
    rw [remove, if_pos (List.prefix_append _ _), List.drop_left, hr]
    cases r with
    | deleted =>
      refine ⟨_, rfl, trivial, trivial, by simp, by simp, look _ fun s => ?_⟩
      simp only [DelRes.tree, lookup]
      split <;> rfl
    | updated c' =>
      exact ⟨_, rfl, ⟨h.1, hbr _ h.2.1 rfl, hrc⟩, trivial, by simp [isBranch],
        by rintro t' ⟨⟩; simp, look _ (fun _ => rfl)⟩
    | useless sp c' =>
      obtain ⟨m1, m2, m3⟩ := mergeExt_full h.1 hrc hok
      exact ⟨_, rfl, m1, trivial, by simp [isBranch],
        by rintro t' ⟨⟩; exact m2, look _ m3⟩
  | branch cs v ih =>
    obtain ⟨hex, hc⟩ := h
    rcases p with _ | ⟨i, p⟩
    · have hv : v ≠ [] := by rintro rfl; simp [lookup] at hp
      rw [remove, if_neg hv]
      obtain ⟨a1, a2, a3, a5⟩ := afterDel_full (v := []) hc
      refine ⟨_, rfl, a1, a2, fun t' _ e => a3 t' e, fun t' e => ?_, fun q => ?_⟩
      · have := a3 t' e; rintro rfl; simp [isBranch] at this
      · rw [a5]
        rcases q with _ | ⟨j, q⟩ <;> simp [lookup]
    · simp only [lookup] at hp
      have hi : cs i ≠ empty := by rintro e; rw [e] at hp; simp [lookup] at hp
      have hie : (cs i).isEmpty = false := by
        cases hh : (cs i).isEmpty
        · rfl
        · exact absurd (isEmpty_iff.1 hh) hi
      obtain ⟨r, hr, hrc, hok, hbr, hne, hl⟩ := ih i (hc i) hp
      rw [remove, hie]
      simp only [Bool.false_eq_true, if_false]
      rw [hr]
      have look : ∀ c', (∀ q, lookup c' q = if q = p then none else lookup (cs i) q) →
          ∀ q, lookup (branch (fset cs i c') v) q =
            if q = i :: p then none else lookup (branch cs v) q := by
        rintro c' hc' (_ | ⟨j, q⟩)
        · simp [lookup]
        · simp only [lookup]
          by_cases hj : j = i
          · subst hj; simp [hc']
          · simp [fset_other _ hj, hj]
      have fullSet : ∀ c', c' ≠ empty → c'.Full → (branch (fset cs i c') v).Full := by
        intro c' hce hcc
        refine ⟨⟨i, by simpa using hce⟩, fun k => ?_⟩
        simp only [fset]; split
        · exact hcc
        · exact hc k
      cases r with
      | deleted =>
        have hce : ∀ k, (fset cs i empty k).Full := by
          intro k; simp only [fset]; split
          · trivial
          · exact hc k
        obtain ⟨a1, a2, a3, a5⟩ := afterDel_full (v := v) hce
        refine ⟨_, rfl, a1, a2, fun t' _ e => a3 t' e, fun t' e => ?_, fun q => ?_⟩
        · have := a3 t' e; rintro rfl; simp [isBranch] at this
        · rw [a5]
          exact look empty (fun q => by rw [← hl q]; simp [DelRes.tree]) q
      | updated c' =>
        refine ⟨_, rfl, fullSet _ (hne _ rfl) hrc, trivial, ?_, ?_, look _ hl⟩
        · rintro t' _ ⟨⟩; rfl
        · rintro t' ⟨⟩; simp
      | useless sp c' =>
        have hce : c' ≠ empty := by
          rcases hok with ⟨w, rfl⟩ | ⟨d, rfl⟩ <;> simp
        refine ⟨_, rfl, fullSet _ hce hrc, trivial, ?_, ?_, look _ hl⟩
        · rintro t' _ ⟨⟩; rfl
        · rintro t' ⟨⟩; simp

/-- Deleting a key that is not there fails. -/
theorem Full.remove_none {t : T} (h : t.Full) (hne : t ≠ empty) {p : List Nib} (hp : lookup t p = none) :
    ∃ e, remove t p = .error e ∧
      (e = .leafPath ∨ e = .extensionPath ∨ e = .branchPath ∨ e = .assertion) := by
  induction t generalizing p with
  | empty => exact absurd rfl hne
  | leaf q v =>
    refine ⟨.leafPath, ?_, by simp⟩
    rw [remove, if_neg]
    rintro rfl; simp [lookup] at hp
  | ext q c ih =>
    by_cases hq : q <+: p
    · obtain ⟨p, rfl⟩ := hq
      rw [lookup_ext_append] at hp
      obtain ⟨e, he, hee⟩ := ih h.2.2 (by rintro rfl; simp [Full, isBranch] at h) hp
      refine ⟨e, ?_, hee⟩
      rw [remove, if_pos (List.prefix_append _ _), List.drop_left, he]
    · exact ⟨_, by rw [remove, if_neg hq], by simp⟩
  | branch cs v ih =>
    rcases p with _ | ⟨i, p⟩
    · have hv : v = [] := by
        simp only [lookup] at hp
        split at hp <;> simp_all
      exact ⟨_, by rw [remove, if_pos hv], by simp⟩
    · rw [remove]
      cases hi : (cs i).isEmpty with
      | true => exact ⟨_, by simp; rfl, by simp⟩
      | false =>
        obtain ⟨e, he, hee⟩ := ih i (h.2 i) (by rintro e; rw [e] at hi; simp [isEmpty] at hi) hp
        exact ⟨e, by simp [he], hee⟩

end T
end Pymt
