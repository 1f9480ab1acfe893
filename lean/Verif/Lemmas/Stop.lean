import Verif.Spec.Stop
import Verif.Lemmas.Exclusion
import Verif.Lemmas.DeleteFail

/-!
# Where walks stop, in terms of contents
-/

namespace Pymt
namespace T

/-- The points of `Spec/Stop.lean` on an abstract trie. -/
def ThruT (a : T) (b : List Nib) : Prop := ∃ q, lookup a (b ++ q) ≠ none

def ForkT (a : T) (b : List Nib) : Prop :=
  ∃ q1 q2, lookup a (b ++ q1) ≠ none ∧ lookup a (b ++ q2) ≠ none ∧ q1 ≠ q2 ∧
    ∀ i, ¬ ([i] <+: q1 ∧ [i] <+: q2)

def KnotT (a : T) (b : List Nib) : Prop :=
  ThruT a b ∧ (b = [] ∨ ForkT a b ∨ ∃ c i, b = c ++ [i] ∧ ForkT a c)

theorem head_prefix {i : Nib} {q : List Nib} : [i] <+: q ↔ q.head? = some i := by
  cases q <;> simp [List.cons_prefix_cons, eq_comm]

theorem Canon.fork {cs : Nib → T} {v : Bytes} (h : (branch cs v).Canon) : ForkT (branch cs v) [] := by
  obtain ⟨p, w, hp⟩ := h.exists_key (by simp)
  cases hh : p.head? with
  | none =>
    obtain ⟨q, w', hq, hne⟩ := h.two_keys p
    refine ⟨p, q, by simp [hp], by simp [hq], Ne.symm hne, fun i => ?_⟩
    rw [head_prefix, hh]; simp
  | some i =>
    obtain ⟨q, w', hq, hne⟩ := h.diverge i
    refine ⟨p, q, by simp [hp], by simp [hq], ?_, fun j => ?_⟩
    · rintro rfl; exact hne hh
    · rw [head_prefix, head_prefix, hh]
      rintro ⟨h1, h2⟩
      exact hne (h2.trans h1.symm)

theorem leaf_noFork (q : List Nib) (v : Bytes) (s : List Nib) : ¬ ForkT (leaf q v) s := by
  rintro ⟨q1, q2, h1, h2, h3, _⟩
  simp only [lookup] at h1 h2
  split at h1
  · split at h2
    · rename_i e1 e2
      exact h3 (List.append_cancel_left (e1.symm.trans e2))
    · simp at h2
  · simp at h1

theorem ext_noFork {q : List Nib} {c : T} {s : List Nib} (hs : s <+: q) (hne : s ≠ q) : ¬ ForkT (ext q c) s := by
  rintro ⟨q1, q2, h1, h2, _, h4⟩
  obtain ⟨r, rfl⟩ := hs
  cases r with
  | nil => simp at hne
  | cons i r =>
    have : ∀ x, lookup (ext (s ++ i :: r) c) (s ++ x) ≠ none → [i] <+: x := by
      intro x hx
      cases hl : lookup (ext (s ++ i :: r) c) (s ++ x) with
      | none => exact absurd hl hx
      | some w =>
        obtain ⟨y, hy, _⟩ := lookup_ext_some hl
        rw [List.append_assoc] at hy
        rw [List.append_cancel_left hy]
        simp [List.cons_prefix_cons]
    exact h4 i ⟨this _ h1, this _ h2⟩

theorem fork_shift {a x : T} {b : List Nib} (h : ∀ q, lookup a (b ++ q) = lookup x q) (s : List Nib) :
    ForkT a (b ++ s) ↔ ForkT x s := by
  simp only [ForkT, List.append_assoc, h]

theorem thru_shift {a x : T} {b : List Nib} (h : ∀ q, lookup a (b ++ q) = lookup x q) (s : List Nib) :
    ThruT a (b ++ s) ↔ ThruT x s := by
  simp only [ThruT, List.append_assoc, h]

/-- The walk stops at the last knot of the path. -/
theorem seek_stop {a : T} (h : a.Canon) (hne : a ≠ empty) (p : List Nib) :
    ∃ b, p = b ++ (T.seek a p).2 ∧ (∀ q, lookup a (b ++ q) = lookup (T.seek a p).1 q) ∧ KnotT a b ∧
      ∀ b', b' <+: p → KnotT a b' → b' <+: b := by
  have hst := seek_stuck h.shape hne p
  have hsn := seek_ne_empty h.shape hne p
  have hsc := h.seek p
  -- the stop is a knot
  have hk : ∃ b, p = b ++ (T.seek a p).2 ∧ (∀ q, lookup a (b ++ q) = lookup (T.seek a p).1 q) ∧
      (b = [] ∨ ForkT a b ∨ ∃ c i, b = c ++ [i] ∧ ForkT a c) := by
    clear hst hsn hsc
    induction a generalizing p with
    | empty => exact ⟨[], rfl, fun q => rfl, .inl rfl⟩
    | leaf s v => exact ⟨[], rfl, fun q => rfl, .inl rfl⟩
    | ext s c ih =>
      cases p with
      | nil => exact ⟨[], rfl, fun q => rfl, .inl rfl⟩
      | cons i p =>
        rw [T.seek]
        by_cases hs : s <+: i :: p
        · rw [if_pos hs]
          obtain ⟨r, hr⟩ := hs
          rw [← hr, List.drop_left]
          obtain ⟨b, h1, h2, h3⟩ := ih h.2.2 h.shape.child_ne r
          have hsh : ∀ q, lookup (ext s c) (s ++ q) = lookup c q := fun q => lookup_ext_append _ _ _
          refine ⟨s ++ b, by rw [List.append_assoc, ← h1], fun q => ?_, .inr ?_⟩
          · rw [List.append_assoc, lookup_ext_append, h2]
          · rcases h3 with rfl | h3 | ⟨d, j, rfl, h3⟩
            · left
              rw [fork_shift hsh]
              obtain ⟨cs, v, rfl⟩ := isBranch_iff.1 h.2.1
              exact h.2.2.fork
            · left; rwa [fork_shift hsh]
            · right; exact ⟨s ++ d, j, by simp, by rwa [fork_shift hsh]⟩
        · rw [if_neg hs]
          exact ⟨[], rfl, fun q => rfl, .inl rfl⟩
    | branch cs v ih =>
      cases p with
      | nil => exact ⟨[], rfl, fun q => rfl, .inl rfl⟩
      | cons i p =>
        rw [T.seek]
        split
        · exact ⟨[], rfl, fun q => rfl, .inl rfl⟩
        · rename_i he
          obtain ⟨b, h1, h2, h3⟩ := ih i (h.2.2 i) (fun e => he (isEmpty_iff.2 e)) p
          have hsh : ∀ q, lookup (branch cs v) ([i] ++ q) = lookup (cs i) q := fun q => by simp [lookup]
          refine ⟨[i] ++ b, by rw [List.append_assoc, ← h1]; rfl, fun q => ?_, .inr ?_⟩
          · rw [List.append_assoc, hsh, h2]
          · rcases h3 with rfl | h3 | ⟨d, j, rfl, h3⟩
            · right; exact ⟨[], i, by simp, h.fork⟩
            · left; rwa [fork_shift hsh]
            · right; exact ⟨[i] ++ d, j, by simp, by rwa [fork_shift hsh]⟩
  obtain ⟨b, h1, h2, h3⟩ := hk
  refine ⟨b, h1, h2, ⟨?_, h3⟩, fun b' hb' hk' => ?_⟩
  · obtain ⟨q, v, hq⟩ := hsc.exists_key hsn
    exact ⟨q, by rw [h2, hq]; simp⟩
  have hb : b <+: p := ⟨_, h1.symm⟩
  rcases comparable hb' hb with ⟨s, rfl⟩ | ⟨i, s, hs⟩
  case inr => exact ⟨_, hs.symm⟩
  cases s with
  | nil => simp
  | cons i s =>
    exfalso
    have hr : i :: s <+: (T.seek a p).2 := by
      obtain ⟨z, hz⟩ := hb'
      rw [List.append_assoc] at hz
      exact ⟨z, List.append_cancel_left (hz.trans h1)⟩
    generalize T.seek a p = sk at *
    obtain ⟨x, r⟩ := sk
    simp only at h1 h2 hst hsn hsc hr
    obtain ⟨ht, hc⟩ := hk'
    rw [thru_shift h2] at ht
    -- the point before is on the stopping node
    have hc' : ForkT x (i :: s) ∨ ∃ d, (∃ j, i :: s = d ++ [j]) ∧ ForkT x d := by
      rcases hc with hc | hc | ⟨d, j, hd, hc⟩
      · simp at hc
      · left; rwa [fork_shift h2] at hc
      · right
        rcases List.eq_nil_or_concat (i :: s) with h0 | ⟨d', j', hd'⟩
        · simp at h0
        · rw [List.concat_eq_append] at hd'
          rw [hd', ← List.append_assoc] at hd
          obtain ⟨rfl, hj⟩ := List.append_inj' hd rfl
          refine ⟨d', ⟨j', hd'⟩, ?_⟩
          rwa [fork_shift h2] at hc
    cases x with
    | empty => exact absurd rfl hsn
    | leaf q v =>
      rcases hc' with hc' | ⟨d, _, hc'⟩
      · exact leaf_noFork _ _ _ hc'
      · exact leaf_noFork _ _ _ hc'
    | ext q c =>
      rcases hst with rfl | hst
      · simp at hr
      have hsq : i :: s <+: q := by
        obtain ⟨z, hz⟩ := ht
        cases hl : lookup (ext q c) (i :: s ++ z) with
        | none => exact absurd hl hz
        | some w =>
          obtain ⟨y, hy, _⟩ := lookup_ext_some hl
          rcases prefix_total (List.prefix_append (i :: s) z) ⟨y, hy.symm⟩ with hx | hx
          · exact hx
          · exact absurd (hx.trans hr) hst
      have hne' : i :: s ≠ q := by rintro rfl; exact hst hr
      rcases hc' with hc' | ⟨d, ⟨j, hd⟩, hc'⟩
      · exact ext_noFork hsq hne' hc'
      · have hdq : d <+: q := (hd ▸ List.prefix_append d [j] : d <+: i :: s).trans hsq
        refine ext_noFork hdq ?_ hc'
        rintro rfl
        have := hsq.length_le
        rw [hd, List.length_append] at this
        simp only [List.length_singleton] at this
        omega
    | branch cs v =>
      rcases hst with rfl | ⟨j, r', rfl, hj⟩
      · simp at hr
      · obtain ⟨rfl, _⟩ := List.cons_prefix_cons.1 hr
        obtain ⟨z, hz⟩ := ht
        simp [lookup, hj] at hz

/-- The error of a deletion that fails, by the place where the walk stops. -/
def delErr : T → List Nib → Err
  | leaf _ _, _ => .leafPath
  | ext _ _, _ => .extensionPath
  | branch _ _, [] => .assertion
  | branch _ _, _ :: _ => .branchPath
  | empty, _ => .rlpDecoding

theorem remove_err {a : T} (h : a.Canon) (hne : a ≠ empty) {p : List Nib} (hp : lookup a p = none) :
    remove a p = .error (delErr (T.seek a p).1 (T.seek a p).2) := by
  induction a generalizing p with
  | empty => exact absurd rfl hne
  | leaf q v =>
    rw [remove, if_neg]
    · rfl
    · rintro rfl; simp [lookup] at hp
  | ext q c ih =>
    cases p with
    | nil => rw [remove, if_neg (by simpa using h.1)]; rfl
    | cons i p =>
      rw [remove, T.seek]
      by_cases hq : q <+: i :: p
      · rw [if_pos hq, if_pos hq]
        obtain ⟨r, hr⟩ := hq
        rw [← hr, lookup_ext_append] at hp
        rw [← hr, List.drop_left, ih h.2.2 h.shape.child_ne hp]
      · rw [if_neg hq, if_neg hq]; rfl
  | branch cs v ih =>
    rcases p with _ | ⟨i, p⟩
    · have hv : v = [] := by
        simp only [lookup] at hp
        split at hp <;> simp_all
      rw [remove, if_pos hv]; rfl
    · rw [remove, T.seek]
      split
      · rfl
      · rename_i hi
        rw [ih i (h.2.2 i) (fun e => hi (isEmpty_iff.2 e)) hp]

end T

/-! ### Transfer to contents -/

theorem nib_prefix_append {b : List Nib} {k : Bytes} : b <+: toNibs k ↔ ∃ q, toNibs k = b ++ q :=
  ⟨fun ⟨q, h⟩ => ⟨q, h.symm⟩, fun ⟨q, h⟩ => ⟨q, h.symm⟩⟩

section
variable {a : T} {m : Contents} (h3 : ∀ k, T.lookup a (toNibs k) = m k)
  (h4 : ∀ p v, T.lookup a p = some v → ∃ k, p = toNibs k)
include h3 h4

theorem thru_iff (b : List Nib) : T.ThruT a b ↔ Thru m b := by
  constructor
  · rintro ⟨q, hq⟩
    cases hl : T.lookup a (b ++ q) with
    | none => exact absurd hl hq
    | some v =>
      obtain ⟨k, hk⟩ := h4 _ _ hl
      exact ⟨k, by rw [← h3, ← hk, hl]; simp, ⟨q, hk⟩⟩
  · rintro ⟨k, hk, q, hq⟩
    exact ⟨q, by rw [hq, h3]; exact hk⟩

theorem fork_iff (b : List Nib) : T.ForkT a b ↔ Fork m b := by
  constructor
  · rintro ⟨q1, q2, h1, h2, hne, hno⟩
    cases hl1 : T.lookup a (b ++ q1) with
    | none => exact absurd hl1 h1
    | some v1 =>
      cases hl2 : T.lookup a (b ++ q2) with
      | none => exact absurd hl2 h2
      | some v2 =>
        obtain ⟨k1, hk1⟩ := h4 _ _ hl1
        obtain ⟨k2, hk2⟩ := h4 _ _ hl2
        refine ⟨k1, k2, by rw [← h3, ← hk1, hl1]; simp, by rw [← h3, ← hk2, hl2]; simp, ?_, ⟨q1, hk1⟩, ⟨q2, hk2⟩, fun i => ?_⟩
        · rintro rfl
          exact hne (List.append_cancel_left (hk1.trans hk2.symm))
        · rw [← hk1, ← hk2, List.prefix_append_right_inj, List.prefix_append_right_inj]
          exact hno i
  · rintro ⟨k1, k2, h1, h2, hne, ⟨q1, hq1⟩, ⟨q2, hq2⟩, hno⟩
    refine ⟨q1, q2, by rw [hq1, h3]; exact h1, by rw [hq2, h3]; exact h2, ?_, fun i => ?_⟩
    · rintro rfl
      exact hne (toNibs_inj (hq1.symm.trans hq2))
    · have := hno i
      rwa [← hq1, ← hq2, List.prefix_append_right_inj, List.prefix_append_right_inj] at this

theorem knot_iff (b : List Nib) : T.KnotT a b ↔ Knot m b := by
  simp only [T.KnotT, Knot, thru_iff h3 h4, fork_iff h3 h4]

end

theorem Stop.unique {m : Contents} {p b b' : List Nib} (h : Stop m p b) (h' : Stop m p b') : b' = b :=
  (h.2.2 b' h'.1 h'.2.1).eq_of_length_le (h'.2.2 b h.1 h.2.1).length_le

/-- The walk along a path, by where it stops. -/
inductive At (m : Contents) (p b : List Nib) : T × List Nib → Prop where
  | lone {q : List Nib} {v : Bytes} {r : List Nib} (k : Bytes) (hp : p = b ++ r) (hk : toNibs k = b ++ q)
      (hm : m k = some v) (hl : Lone m b k) : At m p b (.leaf q v, r)
  | fork {cs : Nib → T} {v : Bytes} {r : List Nib} (hp : p = b ++ r) (hf : Fork m b)
      (hv : ∀ k, toNibs k = b → m k = if v = [] then none else some v)
      (hk : v ≠ [] → ∃ k, toNibs k = b) : At m p b (.branch cs v, r)
  | run {q : List Nib} {c : T} {r : List Nib} (hp : p = b ++ r) (hf : ¬ Fork m b) (ht : Thru m b)
      (hl : ∀ k, ¬ Lone m b k) : At m p b (.ext q c, r)

theorem at_stop {a : T} {m : Contents} (hc : a.Canon) (hne : a ≠ .empty)
    (h3 : ∀ k, T.lookup a (toNibs k) = m k) (h4 : ∀ p v, T.lookup a p = some v → ∃ k, p = toNibs k)
    (p : List Nib) : ∃ b, Stop m p b ∧ At m p b (T.seek a p) := by
  obtain ⟨b, g1, g2, g3, g4⟩ := T.seek_stop hc hne p
  refine ⟨b, ⟨⟨_, g1.symm⟩, (knot_iff h3 h4 b).1 g3, fun b' hb' hk' => g4 b' hb' ((knot_iff h3 h4 b').2 hk')⟩, ?_⟩
  have hsn := T.seek_ne_empty hc.shape hne p
  have hsc := hc.seek p
  have hf := T.fork_shift g2 []
  rw [List.append_nil, fork_iff h3 h4] at hf
  have ht := (thru_iff h3 h4 b).1 g3.1
  generalize T.seek a p = s at *
  obtain ⟨x, r⟩ := s
  simp only at g1 g2 hsn hsc hf
  cases x with
  | empty => exact absurd rfl hsn
  | leaf q v =>
    have hq : T.lookup a (b ++ q) = some v := by rw [g2]; simp [T.lookup]
    obtain ⟨k, hk⟩ := h4 _ _ hq
    refine .lone k g1 hk.symm (by rw [← h3, ← hk, hq]) ⟨?_, ⟨q, hk⟩, ?_⟩
    · rw [← h3, ← hk, hq]; simp
    · rintro k' hk' ⟨q', hq'⟩
      rw [← h3, ← hq', g2] at hk'
      simp only [T.lookup] at hk'
      split at hk'
      · rename_i e
        subst e
        exact toNibs_inj (hq'.symm.trans hk)
      · simp at hk'
  | ext q c =>
    refine .run g1 ?_ ht fun k hl => ?_
    · rw [hf]
      refine T.ext_noFork ?_ ?_
      · exact List.nil_prefix
      · exact fun e => hsc.1 e.symm
    · obtain ⟨h1, ⟨s, hs⟩, h2⟩ := hl
      obtain ⟨q', w, hq', hne'⟩ := hsc.two_keys' (by simp) (by simp) s
      have hl : T.lookup a (b ++ q') = some w := by rw [g2, hq']
      obtain ⟨k', hk'⟩ := h4 _ _ hl
      have := h2 k' (by rw [← h3, ← hk', hl]; simp) ⟨q', hk'⟩
      subst this
      exact hne' (List.append_cancel_left (hk'.trans hs.symm))
  | branch cs v =>
    have hb : T.lookup a b = if v = [] then none else some v := by
      have := g2 []
      rw [List.append_nil] at this
      rw [this]; simp [T.lookup]
    refine .fork g1 (hf.2 hsc.fork) ?_ ?_
    · intro k hk
      rw [← h3, hk, hb]
    · intro hv
      rw [if_neg hv] at hb
      obtain ⟨k, hk⟩ := h4 _ _ hb
      exact ⟨k, hk.symm⟩

end Pymt
