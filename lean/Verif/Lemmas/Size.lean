import Verif.Lemmas.Bytes
import Verif.Lemmas.Collect
import Verif.Lemmas.Merge

/-!
# How many nodes a trie has
-/

namespace Pymt

/-- A list without repetitions is no longer than one that has all its elements. -/
theorem nodup_length_le {α : Type} {l l' : List α} (hn : l.Nodup) (hs : ∀ a ∈ l, a ∈ l') : l.length ≤ l'.length := by
  induction l generalizing l' with
  | nil => exact Nat.zero_le _
  | cons a l ih =>
    obtain ⟨s, t, rfl⟩ := List.append_of_mem (hs a List.mem_cons_self)
    rw [List.nodup_cons] at hn
    have := ih (l' := s ++ t) hn.2 fun b hb => by
      have := hs b (List.mem_cons_of_mem _ hb)
      rw [List.mem_append, List.mem_cons] at this
      rcases this with h | rfl | h
      · exact List.mem_append_left _ h
      · exact absurd hb hn.1
      · exact List.mem_append_right _ h
    simp only [List.length_append, List.length_cons] at this ⊢
    omega

namespace T

/-- The keys of a trie. -/
def keysOf : T → List (List Nib)
  | empty => []
  | leaf p _ => [p]
  | ext p c => (keysOf c).map (p ++ ·)
  | branch cs v => (if v = [] then [] else [[]]) ++ (List.finRange 16).flatMap fun i => (keysOf (cs i)).map (i :: ·)

/-- The nodes of a trie. -/
def partsOf : T → List T
  | empty => []
  | leaf p v => [leaf p v]
  | ext p c => ext p c :: partsOf c
  | branch cs v => branch cs v :: (List.finRange 16).flatMap fun i => partsOf (cs i)

theorem keysOf_lookup {t : T} {p : List Nib} (h : p ∈ keysOf t) : ∃ v, lookup t p = some v := by
  induction t generalizing p with
  | empty => exact (nomatch h)
  | leaf q v =>
    simp only [keysOf, List.mem_singleton] at h
    subst h
    exact ⟨v, by simp [lookup]⟩
  | ext q c ih =>
    obtain ⟨r, hr, rfl⟩ := List.mem_map.1 h
    obtain ⟨v, hv⟩ := ih hr
    exact ⟨v, by rw [lookup_ext_append]; exact hv⟩
  | branch cs w ih =>
    rcases List.mem_append.1 h with h | h
    · split at h
      · exact (nomatch h)
      · rename_i hw
        rw [List.mem_singleton.1 h]
        exact ⟨w, by simp [lookup, hw]⟩
    · obtain ⟨i, _, h⟩ := List.mem_flatMap.1 h
      obtain ⟨r, hr, rfl⟩ := List.mem_map.1 h
      obtain ⟨v, hv⟩ := ih i hr
      exact ⟨v, hv⟩

theorem keysOf_nodup (t : T) : (keysOf t).Nodup := by
  induction t with
  | empty => exact List.nodup_nil
  | leaf q v => simp [keysOf]
  | ext q c ih => exact List.Pairwise.map _ (fun a b h e => h (List.append_cancel_left e)) ih
  | branch cs w ih =>
    have key : ∀ l : List Nib, l.Nodup → (l.flatMap fun i => (keysOf (cs i)).map (i :: ·)).Nodup := by
      intro l
      induction l with
      | nil => intro _; exact List.nodup_nil
      | cons i l ihl =>
        intro hl
        rw [List.nodup_cons] at hl
        rw [List.flatMap_cons, List.nodup_append]
        refine ⟨List.Pairwise.map _ (fun a b h e => h (by injection e)) (ih i), ihl hl.2, ?_⟩
        intro a ha b hb e
        obtain ⟨r, _, rfl⟩ := List.mem_map.1 ha
        obtain ⟨j, hj, hb⟩ := List.mem_flatMap.1 hb
        obtain ⟨s, _, rfl⟩ := List.mem_map.1 hb
        injection e with e _
        exact hl.1 (e ▸ hj)
    unfold keysOf
    rw [List.nodup_append]
    refine ⟨by split <;> simp, key _ (List.nodup_finRange 16), ?_⟩
    intro a ha b hb e
    obtain ⟨j, hj, hb⟩ := List.mem_flatMap.1 hb
    obtain ⟨s, _, rfl⟩ := List.mem_map.1 hb
    split at ha
    · exact (nomatch ha)
    · rw [List.mem_singleton.1 ha] at e
      exact (nomatch e)

theorem Part.mem {a y : T} {p : List Nib} (h : Part a p y) (hy : y ≠ empty) : y ∈ partsOf a := by
  induction h with
  | refl a =>
    cases a with
    | empty => exact absurd rfl hy
    | leaf => exact List.mem_singleton.2 rfl
    | ext => exact List.mem_cons_self
    | branch => exact List.mem_cons_self
  | ext _ ih => exact List.mem_cons_of_mem _ (ih hy)
  | branch _ _ ih => exact List.mem_cons_of_mem _ (List.mem_flatMap.2 ⟨_, List.mem_finRange _, ih hy⟩)

theorem count_two {α : Type} {q : α → Bool} {l : List α} {a b : α} (ha : a ∈ l) (hb : b ∈ l) (h : a ≠ b)
    (qa : q a = true) (qb : q b = true) : 2 ≤ l.countP q := by
  obtain ⟨s, t, rfl⟩ := List.append_of_mem ha
  have : b ∈ s ++ t := by
    rcases List.mem_append.1 hb with hb | hb
    · exact List.mem_append_left _ hb
    · rcases List.mem_cons.1 hb with rfl | hb
      · exact absurd rfl h
      · exact List.mem_append_right _ hb
  have : 0 < (s ++ t).countP q := List.countP_pos_iff.2 ⟨b, this, qb⟩
  rw [List.countP_append] at this
  rw [List.countP_append, List.countP_cons_of_pos qa]
  omega

/-- A trie with `n` keys has at most `3 n - 2` nodes. -/
theorem Canon.parts {t : T} (h : t.Canon) (hne : t ≠ empty) :
    (partsOf t).length + (if t.isBranch then 3 else 2) ≤ 3 * (keysOf t).length := by
  induction t with
  | empty => exact absurd rfl hne
  | leaf p v => simp [partsOf, keysOf, isBranch]
  | ext p c ih =>
    have := ih h.2.2 (by rintro rfl; simp [Canon, isBranch] at h)
    rw [h.2.1] at this
    simp only [partsOf, keysOf, isBranch, List.length_cons, List.length_map, if_true, Bool.false_eq_true, if_false]
      at this ⊢
    omega
  | branch cs v ih =>
    obtain ⟨⟨j, hj⟩, h2, h3⟩ := h
    have key : ∀ l : List Nib, (l.flatMap fun i => partsOf (cs i)).length + 2 * l.countP (fun i => !(cs i).isEmpty) ≤
        3 * (l.flatMap fun i => (keysOf (cs i)).map (i :: ·)).length := by
      intro l
      induction l with
      | nil => simp
      | cons i l ihl =>
        simp only [List.flatMap_cons, List.length_append, List.length_map]
        by_cases he : cs i = empty
        · rw [List.countP_cons_of_neg (by simp [he, isEmpty])]
          rw [he]
          simp only [partsOf, keysOf, List.length_nil]
          omega
        · have hi := ih i (h3 i) he
          rw [List.countP_cons_of_pos (by cases hc : cs i <;> simp_all [isEmpty])]
          have : (if (cs i).isBranch then 3 else 2) ≥ 2 := by split <;> omega
          omega
    have hk := key (List.finRange 16)
    have q : ∀ i, cs i ≠ empty → (!(cs i).isEmpty) = true := by
      intro i he
      cases hc : cs i <;> simp_all [isEmpty]
    simp only [partsOf, keysOf, isBranch, List.length_cons, List.length_append, if_true]
    by_cases hv : v = []
    · obtain ⟨j', hjj, hj'⟩ := (h2 j).resolve_left fun e => e hv
      have := count_two (q := fun i => !(cs i).isEmpty) (List.mem_finRange j') (List.mem_finRange j) hjj (q j' hj') (q j hj)
      rw [if_pos hv]
      simp only [List.length_nil]
      omega
    · have : 0 < (List.finRange 16).countP (fun i => !(cs i).isEmpty) :=
        List.countP_pos_iff.2 ⟨j, List.mem_finRange j, q j hj⟩
      rw [if_neg hv]
      simp only [List.length_cons, List.length_nil]
      omega

/-- The parts of a trie that is within bounds are. -/
theorem Part.within {N B : Nat} {a y : T} {p : List Nib} (h : Part a p y) (hw : Within N B a) : Within N B y := by
  induction h with
  | refl => exact hw
  | ext _ ih => exact ih hw.ext
  | branch _ _ ih => exact ih (hw.child _)

/-- What a stored trie reaches under a hash is one of its nodes. -/
theorem Holds.reached {E : Env} {t : MPT} {a : T} (h : Holds E t a) (hl : LogOk E t.store.written)
    (hg : GS E t.store.written t.store) {root k v : Bytes} (hr : t.root = some root) (hk : Reaches t.store.kv root k)
    (hv : dget t.store.kv k = some v) :
    a ≠ empty ∧ ∃ y p, y ≠ empty ∧ Part a p y ∧ k = E.keccak (enc E y) ∧ v = enc E y ∧ (enc E y).length < 2 ^ 64 ∧
      32 ≤ (enc E y).length := by
  have hk32 : k.length = 32 := by rw [(h.good k v hv).1]; exact E.keccak_len _
  rcases h.root with ⟨rfl, e⟩ | ⟨hne, e⟩
  · exfalso
    rw [hr] at e
    rcases e with e | e
    · exact (nomatch e)
    · injection e with e
      subst e
      have he : k = emptyHash E := by
        have : ∀ r, Reaches t.store.kv (emptyHash E) r → r = emptyHash E := by
          intro r h'
          induction h' with
          | root => rfl
          | inline _ hl' _ ih => rw [ih, show (emptyHash E).length = 32 from E.keccak_len _] at hl'; omega
          | @hash r w r' _ hl' hw _ ih =>
            rw [ih, hg.noEmpty hl] at hw
            exact (nomatch hw)
        exact this k hk
      rw [he, hg.noEmpty hl] at hv
      exact (nomatch hv)
  · rw [hr] at e
    injection e with e
    subst e
    refine ⟨hne, ?_⟩
    rcases reaches_part h.stored hne hk with rfl | ⟨y, p, hy, hp, rfl⟩
    · simp at hk32
    · refine ⟨y, p, hy, hp, ?_⟩
      have hs := hp.stored h.stored
      rw [ref_of_ne hy] at hk32 hv ⊢
      split at hk32
      · omega
      · rename_i hn
        rw [if_neg hn] at hv ⊢
        rcases hs.here hy with h' | h'
        · exact absurd h' hn
        · rw [h'.1] at hv
          injection hv with hv
          exact ⟨rfl, hv.symm, hs.size hy, by omega⟩

end T
theorem Reaches.trans {d : Dict Bytes} {a b c : Bytes} (h : Reaches d a b) (h' : Reaches d b c) : Reaches d a c := by
  induction h' with
  | root => exact h
  | inline _ hl hm ih => exact .inline ih hl hm
  | hash _ hl hw hm ih => exact .hash ih hl hw hm

/-- Every node of a stored trie can be reached. -/
theorem T.Part.reached {E : Env} {d : Dict Bytes} {a y : T} {p : List Nib} (h : T.Part a p y) (hs : T.Stored E d a)
    (ha : a ≠ .empty) : Reaches d (T.ref E a) (T.ref E y) := by
  have down : ∀ {a c : T}, T.Stored E d a → a ≠ .empty → T.Child a c → Reaches d (T.ref E a) (T.ref E c) := by
    intro a c hs ha hc
    have hm := hc.mentions (E := E) (hs.size ha)
    by_cases hl : (T.enc E a).length < 32
    · have e : T.ref E a = T.enc E a := by rw [T.ref_of_ne ha, if_pos hl]
      exact .inline .root (by rw [e]; exact hl) (by rw [e]; exact hm)
    · have e : T.ref E a = E.keccak (T.enc E a) := by rw [T.ref_of_ne ha, if_neg hl]
      rcases hs.here ha with h' | ⟨h', _⟩
      · exact absurd h' hl
      · exact .hash .root (by rw [e]; exact E.keccak_len _) (by rw [e]; exact h') hm
  induction h with
  | refl => exact .root
  | @ext q p c y h ih =>
    by_cases hc : c = .empty
    · subst hc
      cases h
      exact down hs ha rfl
    · exact (down hs ha rfl).trans (ih hs.2 hc)
  | @branch cs v i p y hne h ih => exact (down hs ha ⟨i, rfl⟩).trans (ih (hs.2 i) hne)

end Pymt
