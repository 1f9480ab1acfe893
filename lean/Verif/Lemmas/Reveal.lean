import Verif.Spec.Reveal
import Verif.Lemmas.Client
import Verif.Lemmas.Collect
import Verif.Lemmas.Bytes

/-!
# What the nodes of a trie tell
-/

namespace Pymt
namespace T

theorem not_tells_nil {q : List Nib} {d : Bytes} : ¬ Tells [] q d := by
  have bad : ∀ n, Node.decode [] ≠ .ok n := by
    intro n h
    have : (match Node.decode [] with | .ok _ => false | .error _ => true) = true := by decide
    rw [h] at this
    simp at this
  have key : ∀ w q d, Tells w q d → w ≠ [] := by
    intro w q d h
    cases h with
    | leaf h => rintro rfl; exact bad _ h
    | value h => rintro rfl; exact bad _ h
    | ext h => rintro rfl; exact bad _ h
    | child h => rintro rfl; exact bad _ h
  exact fun h => key _ _ _ h rfl

theorem trail_tail {y : T} (q : List Nib) : trail y q = y :: (trail y q).tail := by
  obtain ⟨l, hl⟩ := trail_head (t := y) q
  rw [hl]; rfl

/-- An encoded node tells the values at the ends of ways that lead through embedded nodes only. -/
theorem tells_iff {E : Env} {kv : Dict Bytes} {y : T} (hsh : y.Shape) (hs : Stored E kv y) (hne : y ≠ empty)
    {q : List Nib} {d : Bytes} :
    Tells (enc E y) q d ↔ lookup y q = some d ∧ ∀ x ∈ (trail y q).tail, (enc E x).length < 32 := by
  induction y generalizing q with
  | empty => exact absurd rfl hne
  | leaf p v =>
    obtain ⟨n, h1, h2⟩ := decode_enc (E := E) (t := leaf p v) hne (enc_len hs)
    cases n <;> simp only [Rep] at h2
    rename_i np d'
    obtain ⟨g1, rfl, rfl⟩ := h2
    constructor
    · intro h
      cases h with
      | leaf h => 
        rw [h1] at h
        cases h
        refine ⟨by simp [lookup, NibblePath.nibs], ?_⟩
        intro x hx
        cases hq : (toNibs np.data).drop np.offset <;> simp [trail, T.seek, passed, hq] at hx
      | value h => rw [h1] at h; cases h
      | ext h => rw [h1] at h; cases h
      | child h => rw [h1] at h; cases h
    · rintro ⟨h, -⟩
      simp only [lookup] at h
      split at h
      · rename_i e
        subst e
        injection h with h
        subst h
        exact .leaf h1
      · exact (nomatch h)
  | ext s c ih =>
    obtain ⟨n, h1, h2⟩ := decode_enc (E := E) (t := ext s c) hne (enc_len hs)
    cases n <;> simp only [Rep] at h2
    rename_i np r
    obtain ⟨g1, rfl, rfl⟩ := h2
    have hc : c ≠ empty := by rintro rfl; simp [Shape, isBranch] at hsh
    have tr : ∀ q, trail (ext np.nibs c) (np.nibs ++ q) = ext np.nibs c :: trail c q := by
      intro q
      cases hn : np.nibs with
      | nil => exact absurd hn hsh.1
      | cons i r =>
        rw [List.cons_append, trail_ext (by rw [← List.cons_append]; exact List.prefix_append _ _), ← List.cons_append,
          List.drop_left]
    constructor
    · intro h
      cases h with
      | leaf h => rw [h1] at h; cases h
      | value h => rw [h1] at h; cases h
      | @ext _ r p q _ h hl h' =>
        rw [h1] at h
        cases h
        have hl' : (enc E c).length < 32 := by
          rw [ref_of_ne hc] at hl
          split at hl
          · assumption
          · rw [E.keccak_len] at hl; omega
        rw [ref_of_ne hc, if_pos hl'] at h'
        obtain ⟨k1, k2⟩ := (ih hsh.2.2 hs.2 hc).1 h'
        show lookup (ext np.nibs c) (np.nibs ++ q) = _ ∧ _
        refine ⟨by rw [lookup_ext_append, k1], ?_⟩
        show ∀ x ∈ (trail (ext np.nibs c) (np.nibs ++ q)).tail, _
        rw [tr, List.tail_cons, trail_tail]
        intro x hx
        rcases List.mem_cons.1 hx with rfl | hx
        · exact hl'
        · exact k2 x hx
      | child h => rw [h1] at h; cases h
    · rintro ⟨h, h'⟩
      simp only [lookup] at h
      split at h
      · rename_i e
        obtain ⟨q, rfl⟩ := e
        rw [List.drop_left] at h
        rw [tr, List.tail_cons, trail_tail] at h'
        have hl' := h' c (by simp)
        have := (ih hsh.2.2 hs.2 hc).2 ⟨h, fun x hx => h' x (List.mem_cons_of_mem _ hx)⟩
        refine .ext (r := ref E c) h1 ?_ ?_
        · rw [ref_of_ne hc, if_pos hl']; exact hl'
        · rw [ref_of_ne hc, if_pos hl']; exact this
      · exact (nomatch h)
  | branch cs v ih =>
    obtain ⟨n, h1, h2⟩ := decode_enc (E := E) (t := branch cs v) hne (enc_len hs)
    cases n <;> simp only [Rep] at h2
    rename_i bs e
    obtain ⟨rfl, rfl⟩ := h2
    have get : ∀ i : Nib, (refs E cs)[i.val]? = some (ref E (cs i)) := fun i => by simp [refs]
    constructor
    · intro h
      cases h with
      | leaf h => rw [h1] at h; cases h
      | @value _ _ _ h hd =>
        rw [h1] at h
        cases h
        refine ⟨by simp [lookup, hd], by simp [trail]⟩
      | ext h => rw [h1] at h; cases h
      | @child _ r _ _ _ i q h hi hl h' =>
        rw [h1] at h
        cases h
        rw [get] at hi
        injection hi with hi
        subst hi
        have hc : cs i ≠ empty := by
          intro e
          rw [e] at h'
          exact not_tells_nil h'
        have hl' : (enc E (cs i)).length < 32 := by
          rw [ref_of_ne hc] at hl
          split at hl
          · assumption
          · rw [E.keccak_len] at hl; omega
        rw [ref_of_ne hc, if_pos hl'] at h'
        obtain ⟨k1, k2⟩ := (ih i (hsh i) (hs.2 i) hc).1 h'
        refine ⟨by rw [lookup, k1], ?_⟩
        rw [trail_branch (by rwa [ne_eq, isEmpty_iff]), List.tail_cons, trail_tail]
        intro x hx
        rcases List.mem_cons.1 hx with rfl | hx
        · exact hl'
        · exact k2 x hx
    · rintro ⟨h, h'⟩
      cases q with
      | nil =>
        simp only [lookup] at h
        split at h
        · exact (nomatch h)
        · injection h with h
          subst h
          exact .value h1 (by assumption)
      | cons i q =>
        rw [lookup] at h
        have hc : cs i ≠ empty := by
          intro e
          rw [e] at h
          exact (nomatch h)
        rw [trail_branch (by rwa [ne_eq, isEmpty_iff]), List.tail_cons, trail_tail] at h'
        have hl' := h' _ (List.mem_cons_self ..)
        have := (ih i (hsh i) (hs.2 i) hc).2 ⟨h, fun x hx => h' x (List.mem_cons_of_mem _ hx)⟩
        refine .child h1 (get i) ?_ ?_
        · rw [ref_of_ne hc, if_pos hl']; exact hl'
        · rw [ref_of_ne hc, if_pos hl']; exact this

/-- Where the nodes of a walk are. -/
theorem trail_place {E : Env} {kv : Dict Bytes} {a : T} (hsh : a.Shape) (hs : Stored E kv a) (hne : a ≠ empty)
    {p : List Nib} {pre post : List T} {y : T} (h : trail a p = pre ++ y :: post) :
    ∃ s r, p = s ++ r ∧ Part a s y ∧ trail y r = y :: post ∧ ledAlong (pre.map (enc E)) = s.length := by
  induction a generalizing p pre with
  | empty => exact absurd rfl hne
  | leaf q v =>
    have : trail (leaf q v) p = [leaf q v] := by cases p <;> simp [trail, T.seek, passed]
    rw [this] at h
    cases pre with
    | nil =>
      simp only [List.nil_append, List.cons.injEq] at h
      obtain ⟨rfl, h⟩ := h
      exact ⟨[], p, rfl, .refl _, by rw [this, h], rfl⟩
    | cons z pre => simp at h
  | ext q c ih =>
    cases pre with
    | nil =>
      have : y = ext q c := by
        rw [trail_tail] at h
        simp only [List.nil_append, List.cons.injEq] at h
        exact h.1.symm
      subst this
      exact ⟨[], p, rfl, .refl _, h, rfl⟩
    | cons z pre =>
      have hc : c ≠ empty := by rintro rfl; simp [Shape, isBranch] at hsh
      cases p with
      | nil => simp [trail] at h
      | cons i p =>
        by_cases hq : q <+: i :: p
        · rw [trail_ext hq] at h
          simp only [List.cons_append, List.cons.injEq] at h
          obtain ⟨rfl, h⟩ := h
          obtain ⟨s, r, e1, e2, e3, e4⟩ := ih hsh.2.2 hs.2 hc h
          obtain ⟨n, h1, h2⟩ := decode_enc (E := E) (t := ext q c) hne (enc_len hs)
          cases n <;> simp only [Rep] at h2
          rename_i np r'
          obtain ⟨g1, g2, rfl⟩ := h2
          obtain ⟨u, hu⟩ := hq
          refine ⟨q ++ s, r, ?_, .ext e2, e3, ?_⟩
          · rw [← hu, List.drop_left] at e1
            rw [← hu, e1, List.append_assoc]
          · rw [List.map_cons, ledAlong, h1, e4, List.length_append, ← g2]
            rfl
        · simp [trail, passed, T.seek, hq] at h
  | branch cs v ih =>
    cases pre with
    | nil =>
      have : y = branch cs v := by
        rw [trail_tail] at h
        simp only [List.nil_append, List.cons.injEq] at h
        exact h.1.symm
      subst this
      exact ⟨[], p, rfl, .refl _, h, rfl⟩
    | cons z pre =>
      cases p with
      | nil => simp [trail] at h
      | cons i p =>
        by_cases hq : (cs i).isEmpty = true
        · simp [trail, passed, T.seek, hq] at h
        · rw [trail_branch hq] at h
          simp only [List.cons_append, List.cons.injEq] at h
          obtain ⟨rfl, h⟩ := h
          have hc : cs i ≠ empty := by rwa [ne_eq, ← isEmpty_iff]
          obtain ⟨s, r, e1, e2, e3, e4⟩ := ih i (hsh i) (hs.2 i) hc h
          obtain ⟨n, h1, h2⟩ := decode_enc (E := E) (t := branch cs v) hne (enc_len hs)
          cases n <;> simp only [Rep] at h2
          refine ⟨i :: s, r, by rw [e1]; rfl, .branch hc e2, e3, ?_⟩
          rw [List.map_cons, ledAlong, h1, e4, List.length_cons, Nat.add_comm]

/-- Walks with a common beginning see the same nodes on it. -/
theorem part_common {E : Env} {kv : Dict Bytes} {a y : T} {s : List Nib} (h : Part a s y) (hsh : a.Shape)
    (hs : Stored E kv a) : ∃ pre : List T, (∀ r, trail a (s ++ r) = pre ++ trail y r) ∧
      ledAlong (pre.map (enc E)) = s.length := by
  induction h with
  | refl => exact ⟨[], fun r => rfl, rfl⟩
  | @ext q p c y _ ih =>
    obtain ⟨pre, hp, hl⟩ := ih hsh.2.2 hs.2
    obtain ⟨n, h1, h2⟩ := decode_enc (E := E) (t := ext q c) (by simp) (enc_len hs)
    cases n <;> simp only [Rep] at h2
    rename_i np r'
    obtain ⟨g1, g2, rfl⟩ := h2
    refine ⟨T.ext q c :: pre, fun r => ?_, ?_⟩
    · cases hq : q with
      | nil => exact absurd hq hsh.1
      | cons i q' =>
        rw [List.append_assoc, List.cons_append, trail_ext (by rw [← List.cons_append]; exact List.prefix_append _ _),
          ← List.cons_append, List.drop_left, hp]
        rfl
    · rw [List.map_cons, ledAlong, h1, hl, List.length_append, ← g2]
      rfl
  | @branch cs v i p y hne _ ih =>
    obtain ⟨pre, hp, hl⟩ := ih (hsh i) (hs.2 i)
    obtain ⟨n, h1, h2⟩ := decode_enc (E := E) (t := branch cs v) (by simp) (enc_len hs)
    cases n <;> simp only [Rep] at h2
    refine ⟨T.branch cs v :: pre, fun r => ?_, ?_⟩
    · rw [List.cons_append, trail_branch (by rwa [ne_eq, isEmpty_iff]), hp]
      rfl
    · rw [List.map_cons, ledAlong, h1, hl, List.length_cons, Nat.add_comm]

/-- A long value is told by the node that has it, and by no other. -/
theorem tells_long {E : Env} {y : T} (hsh : y.Shape) {q : List Nib} {d : Bytes} (h : lookup y q = some d)
    (hs : ∀ x ∈ (trail y q).tail, (enc E x).length < 32) (hd : 32 ≤ d.length) :
    (∃ cs, y = branch cs d ∧ q = []) ∨ y = leaf q d := by
  have hv := seek_value hsh h
  have hi := (infix_enc E hv).length_le
  have hm : (T.seek y q).1 ∉ (trail y q).tail := fun hm => by
    have := hs _ hm
    omega
  cases y with
  | empty => simp [lookup] at h
  | leaf p v =>
    simp only [lookup] at h
    split at h
    · rename_i e
      subst e
      injection h with h
      subst h
      exact .inr rfl
    · exact (nomatch h)
  | ext s c =>
    exfalso
    cases q with
    | nil => 
      have : s = [] := by
        by_cases e : s <+: []
        · simpa using e
        · rw [lookup_ext_none _ e] at h; exact (nomatch h)
      exact hsh.1 this
    | cons i q =>
      by_cases e : s <+: i :: q
      · apply hm
        rw [trail_ext e, List.tail_cons, T.seek, if_pos e]
        simp [trail]
      · rw [lookup_ext_none _ e] at h; exact (nomatch h)
  | branch cs v =>
    cases q with
    | nil =>
      simp only [lookup] at h
      split at h
      · exact (nomatch h)
      · injection h with h
        subst h
        exact .inl ⟨_, rfl, rfl⟩
    | cons i q =>
      exfalso
      rw [lookup] at h
      have hc : ¬ (cs i).isEmpty = true := by
        rw [isEmpty_iff]
        intro e
        rw [e] at h
        exact (nomatch h)
      apply hm
      rw [trail_branch hc, List.tail_cons, T.seek, if_neg hc]
      simp [trail]

end T
end Pymt
