import Verif.Spec.YellowPaper
import Verif.Lemmas.Root

/-!
# Canonical tries are the trees of the Yellow Paper
-/

namespace Pymt
namespace YP

/-- The list has the pairs of the trie, each path once. -/
structure Lists (I : Pairs) (a : T) : Prop where
  iff : ∀ q v, (q, v) ∈ I ↔ T.lookup a q = some v
  nodup : (I.map (·.1)).Nodup

theorem lcp_cons_ne {a b : Nib} {p q : List Nib} (h : a ≠ b) : lcp (a :: p) (b :: q) = [] := by
  simp [lcp, h]

/-- A common prefix can be cut off. -/
theorem common_append (p : List Nib) (I : Pairs) (hne : I ≠ []) :
    common (I.map fun e => (p ++ e.1, e.2)) = p ++ common I := by
  have hl : ∀ x y : List Nib, lcp (p ++ x) (p ++ y) = p ++ lcp x y := by
    intro x y
    induction p with
    | nil => rfl
    | cons a p ih => simp [lcp, ih]
  induction I with
  | nil => exact absurd rfl hne
  | cons e I ih =>
    cases I with
    | nil => simp [common]
    | cons e2 I =>
      have := ih (by simp)
      simp only [List.map_cons] at this ⊢
      have hc : ∀ (x y : List Nib × Bytes) (l : Pairs), common (x :: y :: l) = lcp x.1 (common (y :: l)) :=
        fun _ _ _ => rfl
      rw [hc, hc, this, hl]

/-- Everything starts with the common prefix. -/
theorem common_prefix (I : Pairs) : ∀ e ∈ I, common I <+: e.1 := by
  induction I with
  | nil => simp
  | cons e I ih =>
    intro e' he'
    cases I with
    | nil =>
      simp only [List.mem_singleton] at he'
      subst he'; simp [common]
    | cons e2 I =>
      rw [common]
      · rcases List.mem_cons.1 he' with rfl | he'
        · exact lcp_prefix_left _ _
        · exact (lcp_prefix_right _ _).trans (ih e' he')
      · simp

theorem mem_sub {j : Nib} {I : Pairs} {q : List Nib} {v : Bytes} :
    (q, v) ∈ sub j I ↔ (j :: q, v) ∈ I := by
  unfold sub
  rw [List.mem_filterMap]
  constructor
  · rintro ⟨⟨k, w⟩, hm, he⟩
    cases k with
    | nil => simp at he
    | cons i k =>
      simp only at he
      split at he
      · rename_i hij
        simp only [Option.some.injEq, Prod.mk.injEq] at he
        obtain ⟨rfl, rfl⟩ := he
        subst hij; exact hm
      · simp at he
  · intro h
    exact ⟨_, h, by simp⟩

theorem nodup_sub {j : Nib} {I : Pairs} (h : (I.map (·.1)).Nodup) : ((sub j I).map (·.1)).Nodup := by
  induction I with
  | nil => simp [sub]
  | cons e I ih =>
    obtain ⟨k, v⟩ := e
    simp only [List.map_cons, List.nodup_cons] at h
    cases k with
    | nil =>
      have : sub j (([], v) :: I) = sub j I := by simp [sub]
      rw [this]; exact ih h.2
    | cons i k =>
      by_cases hij : i = j
      · subst hij
        have : sub i ((i :: k, v) :: I) = (k, v) :: sub i I := by simp [sub]
        rw [this, List.map_cons, List.nodup_cons]
        refine ⟨fun hm => h.1 ?_, ih h.2⟩
        obtain ⟨⟨k', w⟩, hm', he⟩ := List.mem_map.1 hm
        simp only at he
        subst he
        exact List.mem_map.2 ⟨_, mem_sub.1 hm', rfl⟩
      · have : sub j ((i :: k, v) :: I) = sub j I := by simp [sub, hij]
        rw [this]; exact ih h.2

theorem Lists.two {I : Pairs} {a : T} (h : Lists I a) {p q : List Nib} {v w : Bytes}
    (hp : T.lookup a p = some v) (hq : T.lookup a q = some w) (hne : p ≠ q) :
    ∃ e1 e2 I', I = e1 :: e2 :: I' := by
  have h1 := (h.iff p v).2 hp
  have h2 := (h.iff q w).2 hq
  match I, h1, h2 with
  | [], h1, _ => simp at h1
  | [e], h1, h2 =>
    simp only [List.mem_singleton] at h1 h2
    rw [← h1] at h2
    exact absurd (congrArg Prod.fst h2).symm hne
  | e1 :: e2 :: I', _, _ => exact ⟨e1, e2, I', rfl⟩

/-- The value at a branch. -/
theorem Lists.ended {I : Pairs} {cs : Nib → T} {v : Bytes} (h : Lists I (.branch cs v)) : ended I = v := by
  unfold YP.ended
  cases hf : I.find? (fun e => e.1 == []) with
  | some e =>
    obtain ⟨q, w⟩ := e
    have hq := List.find?_some hf
    simp only [beq_iff_eq] at hq
    subst hq
    have := (h.iff [] w).1 (List.mem_of_find?_eq_some hf)
    simp only [T.lookup] at this
    split at this
    · simp at this
    · simpa using this.symm
  | none =>
    rw [List.find?_eq_none] at hf
    by_cases hv : v = []
    · exact hv.symm
    · have := (h.iff [] v).2 (by simp [T.lookup, hv])
      exact absurd (hf _ this) (by simp)

theorem Lists.common_branch {I : Pairs} {cs : Nib → T} {v : Bytes} (h : Lists I (.branch cs v))
    (hc : (T.branch cs v).Canon) : common I = [] := by
  cases hl : common I with
  | nil => rfl
  | cons i l =>
    obtain ⟨p, w, hp, hne⟩ := hc.diverge i
    have := common_prefix I _ ((h.iff p w).2 hp)
    rw [hl] at this
    obtain ⟨r, hr⟩ := this
    simp only at hr
    rw [← hr] at hne
    simp at hne

/-- The main step: the node of the pairs of a canonical trie is the node of the trie. -/
theorem c_eq_item (E : Env) {a : T} (hc : a.Canon) {I : Pairs} (h : Lists I a) : c E I = T.item E a := by
  induction a generalizing I with
  | empty =>
    have : I = [] := by
      cases I with
      | nil => rfl
      | cons e I =>
        have := (h.iff e.1 e.2).1 (by simp)
        simp [T.lookup] at this
    subst this
    rw [c]; rfl
  | leaf p v =>
    have hm : (p, v) ∈ I := (h.iff p v).2 (by simp [T.lookup])
    have hall : ∀ e ∈ I, e = (p, v) := by
      rintro ⟨q, w⟩ he
      have := (h.iff q w).1 he
      simp only [T.lookup] at this
      split at this
      · rename_i hpq
        simp only [Option.some.injEq] at this
        rw [hpq, this]
      · simp at this
    have : I = [(p, v)] := by
      match I, hm, hall, h.nodup with
      | [e], _, hall, _ => rw [hall e (by simp)]
      | e1 :: e2 :: I', _, hall, hn =>
        have h1 := hall e1 (by simp)
        have h2 := hall e2 (by simp)
        subst h1; subst h2
        simp at hn
    subst this
    rw [c]; rfl
  | ext p t ih =>
    obtain ⟨hpne, hb, ht⟩ := hc
    obtain ⟨cs, v, rfl⟩ := T.isBranch_iff.1 hb
    obtain ⟨q1, w1, hq1⟩ := ht.exists_key (by simp)
    obtain ⟨q2, w2, hq2, hne⟩ := ht.two_keys q1
    obtain ⟨e1, e2, I', he⟩ := h.two (p := p ++ q1) (q := p ++ q2) (v := w1) (w := w2)
      (by simpa using hq1) (by simpa using hq2) (by simpa using hne.symm)
    -- the pairs without the prefix
    let J := I.map fun e => (e.1.drop p.length, e.2)
    have hpre : ∀ e ∈ I, p <+: e.1 := by
      intro e hm
      obtain ⟨r, hr, _⟩ := T.lookup_ext_some ((h.iff e.1 e.2).1 hm)
      exact ⟨r, hr.symm⟩
    have hIJ : I = J.map fun e => (p ++ e.1, e.2) := by
      show I = (I.map fun e => (e.1.drop p.length, e.2)).map fun e => (p ++ e.1, e.2)
      rw [List.map_map]
      conv => lhs; rw [← List.map_id I]
      refine List.map_congr_left fun e hm => ?_
      obtain ⟨r, hr⟩ := hpre e hm
      simp only [id_eq, Function.comp_apply]
      refine Prod.ext ?_ rfl
      simp only
      rw [← hr, List.drop_left]
    have hJ : Lists J (.branch cs v) := by
      constructor
      · intro q w
        constructor
        · intro hm
          obtain ⟨e, he, hq⟩ := List.mem_map.1 hm
          simp only [Prod.mk.injEq] at hq
          obtain ⟨r, hr, hl⟩ := T.lookup_ext_some ((h.iff e.1 e.2).1 he)
          rw [hr, List.drop_left] at hq
          rw [← hq.1, ← hq.2]; exact hl
        · intro hl
          refine List.mem_map.2 ⟨(p ++ q, w), (h.iff _ _).2 (by simpa using hl), by simp⟩
      · have := h.nodup
        rw [hIJ, List.map_map] at this
        have e : ((fun x : List Nib × Bytes => x.1) ∘ fun e : List Nib × Bytes => (p ++ e.1, e.2)) =
          (fun q => p ++ q) ∘ (fun x => x.1) := rfl
        rw [e, ← List.map_map] at this
        exact List.Pairwise.of_map _ (fun a b hne heq => hne (by rw [heq])) this
    have hcom : common I = p := by
      have hJne : J ≠ [] := by
        intro h0
        have h1 := (hJ.iff q1 w1).2 hq1
        rw [h0] at h1; simp at h1
      rw [hIJ, common_append p J hJne, hJ.common_branch ht, List.append_nil]
    have hcE : c E I = .list [.str (hp false p), cap E (c E J)] := by
      subst he
      rw [c]
      rw [dif_pos (by rw [hcom]; exact hpne)]
      rw [hcom]
    rw [hcE, ih ht hJ]
    rfl
  | branch cs v ih =>
    obtain ⟨q1, w1, hq1⟩ := T.Canon.exists_key hc (by simp)
    obtain ⟨q2, w2, hq2, hne⟩ := hc.two_keys q1
    obtain ⟨e1, e2, I', he⟩ := h.two hq1 hq2 hne.symm
    have hcom := h.common_branch hc
    have hsub : ∀ j, Lists (sub j I) (cs j) := fun j => by
      refine ⟨fun q w => ?_, nodup_sub h.nodup⟩
      rw [mem_sub, h.iff]; rfl
    have hend := h.ended
    have hchild : ∀ j, (if hs : sub j I = [] then (Item.str []) else cap E (c E (sub j I))) =
        T.wrap E (T.item E (cs j)) := by
      intro j
      have h1 := ih j (hc.2.2 j) (hsub j)
      by_cases hs : sub j I = []
      · rw [dif_pos hs]
        rw [hs, c] at h1
        rw [← h1]
        have : (Item.encode (.str [])).length < 32 := by decide
        simp [T.wrap, this]
      · rw [dif_neg hs, h1]; rfl
    subst he
    rw [c]
    rw [dif_neg (by rw [hcom]; simp), hend]
    simp only [hchild]
    rfl

end YP
end Pymt
