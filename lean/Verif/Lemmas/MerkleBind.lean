import Verif.Lemmas.Merkle

/-!
# What a Merkle root and an accepted proof establish
-/

namespace Pymt

theorem HashFn.CollFree.mono {H : HashFn} {l l' : List Bytes} (h : H.CollFree l) (hs : ∀ x ∈ l', x ∈ l) :
    H.CollFree l' :=
  fun a ha b hb => h a (hs a ha) b (hs b hb)

namespace MTree

theorem rfcRoot_len (H : HashFn) : ∀ (n : Nat) (l : List Bytes), l.length ≤ n → l ≠ [] →
    (∀ x ∈ l, x.length = H.size) → (rfcRoot H l).length = H.size
  | 0, l, hn, hne, _ => absurd (List.length_eq_zero_iff.mp (by omega)) hne
  | n + 1, l, hn, hne, hl => by
    have h0 := List.length_pos_iff.mpr hne
    by_cases h : 2 ≤ l.length
    · rw [rfcRoot_split H l h, H.hash_len]
    · obtain ⟨a, rfl⟩ := List.length_eq_one_iff.mp (show l.length = 1 by omega)
      exact hl a (by simp)

/-- The strings hashed for a tree of leaves, unfolded once. -/
theorem rfcHashed_fuel (H : HashFn) : ∀ (f g : Nat) (l : List Bytes), l.length ≤ f + 1 → l.length ≤ g + 1 →
    rfcHashed H f l = rfcHashed H g l
  | _, _, [], _, _ => by simp [rfcHashed]
  | _, _, [a], _, _ => by simp [rfcHashed]
  | 0, _, _ :: _ :: _, h, _ => by simp at h
  | _ + 1, 0, _ :: _ :: _, _, h => by simp at h
  | f + 1, g + 1, a :: b :: l, h, h' => by
    unfold rfcHashed
    obtain ⟨_, h1, h2⟩ := splitPoint_spec (a :: b :: l).length (by simp)
    have h3 := splitPoint_pos (a :: b :: l).length (by simp)
    simp only
    rw [rfcHash_fuel H f g _ (by rw [List.length_take]; omega) (by rw [List.length_take]; omega),
      rfcHash_fuel H f g _ (by rw [List.length_drop]; omega) (by rw [List.length_drop]; omega),
      rfcHashed_fuel H f g _ (by rw [List.length_take]; omega) (by rw [List.length_take]; omega),
      rfcHashed_fuel H f g _ (by rw [List.length_drop]; omega) (by rw [List.length_drop]; omega)]

theorem treeStrings_split (H : HashFn) (l : List Bytes) (h : 2 ≤ l.length) :
    treeStrings H l = (rfcRoot H (l.take (splitPoint l.length)) ++ rfcRoot H (l.drop (splitPoint l.length))) ::
      (treeStrings H (l.take (splitPoint l.length)) ++ treeStrings H (l.drop (splitPoint l.length))) := by
  obtain ⟨_, h1, h2⟩ := splitPoint_spec l.length h
  have h3 := splitPoint_pos l.length h
  match l, h with
  | a :: b :: l, h =>
    have e : treeStrings H (a :: b :: l) = rfcHashed H (l.length + 1 + 1) (a :: b :: l) := rfl
    rw [e]
    unfold rfcHashed
    simp only
    have hlen : (a :: b :: l).length = l.length + 2 := rfl
    rw [rfcHash_fuel H _ _ (List.take _ _) (by rw [List.length_take]; omega) (Nat.le_succ _),
      rfcHash_fuel H _ _ (List.drop _ _) (by rw [List.length_drop]; omega) (Nat.le_succ _),
      rfcHashed_fuel H _ _ (List.take _ _) (by rw [List.length_take]; omega) (Nat.le_succ _),
      rfcHashed_fuel H _ _ (List.drop _ _) (by rw [List.length_drop]; omega) (Nat.le_succ _)]
    rfl

theorem append_inj_len {a b c d : Bytes} (h : a ++ b = c ++ d) (hl : a.length = c.length) :
    a = c ∧ b = d := List.append_inj h hl

theorem append_inj_len' {a b c d : Bytes} (h : a ++ b = c ++ d) (hl : b.length = d.length) :
    a = c ∧ b = d := List.append_inj' h hl

/-- Trees of the same number of digest-long leaves with the same root are the same. -/
theorem bind_same (H : HashFn) : ∀ (n : Nat) (l l' : List Bytes), l.length ≤ n → l.length = l'.length →
    (∀ x ∈ l, x.length = H.size) → (∀ x ∈ l', x.length = H.size) →
    H.CollFree (treeStrings H l ++ treeStrings H l') → rfcRoot H l = rfcRoot H l' → l = l'
  | 0, l, l', hn, hl, _, _, _, _ => by
    have h1 := List.length_eq_zero_iff.mp (show l.length = 0 by omega)
    have h2 := List.length_eq_zero_iff.mp (show l'.length = 0 by omega)
    rw [h1, h2]
  | n + 1, l, l', hn, hl, hs, hs', hc, hr => by
    by_cases h : 2 ≤ l.length
    · obtain ⟨_, h1, h2⟩ := splitPoint_spec l.length h
      have h3 := splitPoint_pos l.length h
      have h' : 2 ≤ l'.length := by omega
      rw [rfcRoot_split H l h, rfcRoot_split H l' h', ← hl] at hr
      rw [treeStrings_split H l h, treeStrings_split H l' h', ← hl] at hc
      have heq := hc _ (by simp) _ (by simp) hr
      have len1 := rfcRoot_len H _ (l.take (splitPoint l.length)) (Nat.le_refl _)
        (List.length_pos_iff.mp (by rw [List.length_take]; omega)) (fun x hx => hs x (List.mem_of_mem_take hx))
      have len2 := rfcRoot_len H _ (l'.take (splitPoint l.length)) (Nat.le_refl _)
        (List.length_pos_iff.mp (by rw [List.length_take]; omega)) (fun x hx => hs' x (List.mem_of_mem_take hx))
      obtain ⟨e1, e2⟩ := append_inj_len heq (len1.trans len2.symm)
      have i1 := bind_same H n (l.take (splitPoint l.length)) (l'.take (splitPoint l.length))
        (by rw [List.length_take]; omega) (by simp [List.length_take, hl])
        (fun x hx => hs x (List.mem_of_mem_take hx)) (fun x hx => hs' x (List.mem_of_mem_take hx))
        (hc.mono (by intro x hx; simp at hx ⊢; rcases hx with hx | hx <;> simp [hx])) e1
      have i2 := bind_same H n (l.drop (splitPoint l.length)) (l'.drop (splitPoint l.length))
        (by rw [List.length_drop]; omega) (by simp [List.length_drop, hl])
        (fun x hx => hs x (List.mem_of_mem_drop hx)) (fun x hx => hs' x (List.mem_of_mem_drop hx))
        (hc.mono (by intro x hx; simp at hx ⊢; rcases hx with hx | hx <;> simp [hx])) e2
      rw [← List.take_append_drop (splitPoint l.length) l, ← List.take_append_drop (splitPoint l.length) l',
        i1, i2]
    · by_cases h0 : l.length = 0
      · have h1 := List.length_eq_zero_iff.mp h0
        have h2 := List.length_eq_zero_iff.mp (show l'.length = 0 by omega)
        rw [h1, h2]
      · obtain ⟨a, rfl⟩ := List.length_eq_one_iff.mp (show l.length = 1 by omega)
        obtain ⟨b, rfl⟩ := List.length_eq_one_iff.mp (show l'.length = 1 by omega)
        rw [rfcRoot_one, rfcRoot_one] at hr
        rw [hr]

/-- Trees over hashed values, none of them as long as two digests: the root determines the values. -/
theorem bind_values (H : HashFn) : ∀ (n : Nat) (l l' : List Bytes), l.length ≤ n → l ≠ [] → l' ≠ [] →
    (∀ x ∈ l, x.length ≠ 2 * H.size) → (∀ x ∈ l', x.length ≠ 2 * H.size) →
    H.CollFree (l ++ treeStrings H (l.map H.hash) ++ (l' ++ treeStrings H (l'.map H.hash))) →
    rfcRoot H (l.map H.hash) = rfcRoot H (l'.map H.hash) → l = l'
  | 0, l, l', hn, hne, _, _, _, _, _ => absurd (List.length_eq_zero_iff.mp (by omega)) hne
  | n + 1, l, l', hn, hne, hne', hs, hs', hc, hr => by
    have hlen : ∀ m : List Bytes, ∀ x ∈ m.map H.hash, x.length = H.size := by
      intro m x hx
      obtain ⟨y, _, rfl⟩ := List.mem_map.mp hx
      exact H.hash_len y
    have p := List.length_pos_iff.mpr hne
    have p' := List.length_pos_iff.mpr hne'
    have two : ∀ m : List Bytes, 2 ≤ m.length →
        rfcRoot H (m.map H.hash) = H.hash (rfcRoot H ((m.take (splitPoint m.length)).map H.hash) ++
          rfcRoot H ((m.drop (splitPoint m.length)).map H.hash)) ∧
        (rfcRoot H ((m.take (splitPoint m.length)).map H.hash)).length = H.size ∧
        (rfcRoot H ((m.drop (splitPoint m.length)).map H.hash)).length = H.size ∧
        m.take (splitPoint m.length) ≠ [] ∧ m.drop (splitPoint m.length) ≠ [] ∧
        splitPoint m.length < m.length ∧ 0 < splitPoint m.length ∧
        treeStrings H (m.map H.hash) = (rfcRoot H ((m.take (splitPoint m.length)).map H.hash) ++
          rfcRoot H ((m.drop (splitPoint m.length)).map H.hash)) ::
          (treeStrings H ((m.take (splitPoint m.length)).map H.hash) ++
            treeStrings H ((m.drop (splitPoint m.length)).map H.hash)) := by
      intro m hm
      obtain ⟨_, h1, h2⟩ := splitPoint_spec m.length hm
      have h3 := splitPoint_pos m.length hm
      have n1 : m.take (splitPoint m.length) ≠ [] := List.length_pos_iff.mp (by rw [List.length_take]; omega)
      have n2 : m.drop (splitPoint m.length) ≠ [] := List.length_pos_iff.mp (by rw [List.length_drop]; omega)
      refine ⟨?_, rfcRoot_len H _ _ (Nat.le_refl _) (by simpa using n1) (hlen _),
        rfcRoot_len H _ _ (Nat.le_refl _) (by simpa using n2) (hlen _), n1, n2, h1, h3, ?_⟩
      · rw [rfcRoot_split H _ (by simpa using hm)]
        simp [List.map_take, List.map_drop]
      · rw [treeStrings_split H _ (by simpa using hm)]
        simp [List.map_take, List.map_drop]
    by_cases h : 2 ≤ l.length
    · obtain ⟨a1, a2, a3, a4, a5, a6, a7, a8⟩ := two l h
      by_cases h' : 2 ≤ l'.length
      · obtain ⟨b1, b2, b3, b4, b5, b6, b7, b8⟩ := two l' h'
        rw [a1, b1] at hr
        rw [a8, b8] at hc
        have heq := hc _ (by simp) _ (by simp) hr
        obtain ⟨e1, e2⟩ := append_inj_len heq (a2.trans b2.symm)
        have i1 := bind_values H n _ _ (by rw [List.length_take]; omega) a4 b4
          (fun x hx => hs x (List.mem_of_mem_take hx)) (fun x hx => hs' x (List.mem_of_mem_take hx))
          (hc.mono (by
            intro x hx
            simp only [List.mem_append, List.mem_cons] at hx ⊢
            rcases hx with (hx | hx) | hx | hx
            · exact .inl (.inl (List.mem_of_mem_take hx))
            · exact .inl (.inr (.inr (.inl hx)))
            · exact .inr (.inl (List.mem_of_mem_take hx))
            · exact .inr (.inr (.inr (.inl hx))))) e1
        have i2 := bind_values H n _ _ (by rw [List.length_drop]; omega) a5 b5
          (fun x hx => hs x (List.mem_of_mem_drop hx)) (fun x hx => hs' x (List.mem_of_mem_drop hx))
          (hc.mono (by
            intro x hx
            simp only [List.mem_append, List.mem_cons] at hx ⊢
            rcases hx with (hx | hx) | hx | hx
            · exact .inl (.inl (List.mem_of_mem_drop hx))
            · exact .inl (.inr (.inr (.inr hx)))
            · exact .inr (.inl (List.mem_of_mem_drop hx))
            · exact .inr (.inr (.inr (.inr hx))))) e2
        rw [← List.take_append_drop (splitPoint l.length) l,
          ← List.take_append_drop (splitPoint l'.length) l', i1, i2]
      · obtain ⟨b, rfl⟩ := List.length_eq_one_iff.mp (show l'.length = 1 by omega)
        rw [a1] at hr
        simp only [List.map_cons, List.map_nil, rfcRoot_one] at hr
        rw [a8] at hc
        have heq := hc _ (by simp) b (by simp) hr
        have := hs' b (by simp)
        rw [← heq, List.length_append, a2, a3] at this
        omega
    · obtain ⟨a, rfl⟩ := List.length_eq_one_iff.mp (show l.length = 1 by omega)
      by_cases h' : 2 ≤ l'.length
      · obtain ⟨b1, b2, b3, b4, b5, b6, b7, b8⟩ := two l' h'
        rw [b1] at hr
        simp only [List.map_cons, List.map_nil, rfcRoot_one] at hr
        rw [b8] at hc
        have heq := hc a (by simp) _ (by simp) hr
        have := hs a (by simp)
        rw [heq, List.length_append, b2, b3] at this
        omega
      · obtain ⟨b, rfl⟩ := List.length_eq_one_iff.mp (show l'.length = 1 by omega)
        simp only [List.map_cons, List.map_nil, rfcRoot_one] at hr
        have := hc a (by simp) b (by simp) hr
        rw [this]

/-! ### Proofs -/

/-- One step of checking a proof. -/
theorem foldProof_step (H : HashFn) {side hex : Bytes} {ps : List (Bytes × Bytes)} {h r : Bytes}
    (hf : foldProof H ((side, hex) :: ps) h = .ok r) :
    ∃ s m, fromHex hex = .ok s ∧ (m = s ++ h ∨ m = h ++ s) ∧ foldProof H ps (H.hash m) = .ok r ∧
      proofHashed H ((side, hex) :: ps) h = m :: proofHashed H ps (H.hash m) ∧
      (m = if side = left then s ++ h else h ++ s) := by
  by_cases hl : side = left
  · subst hl
    cases hx : fromHex hex with
    | error e =>
      simp [foldProof, hx, left_ne_right] at hf
    | ok s =>
      refine ⟨s, s ++ h, rfl, .inl rfl, ?_, ?_, by simp⟩
      · simpa [foldProof, hx] using hf
      · simp [proofHashed, hx]
  · by_cases hr : side = right
    · subst hr
      cases hx : fromHex hex with
      | error e => simp [foldProof, hx, left_ne_right.symm] at hf
      | ok s =>
        refine ⟨s, h ++ s, rfl, .inr rfl, ?_, ?_, by simp [left_ne_right.symm]⟩
        · simpa [foldProof, hx, left_ne_right.symm] using hf
        · simp [proofHashed, hx, left_ne_right.symm]
    · simp [foldProof, hl, hr] at hf

/-- The same entries lead from different starting points to different roots. -/
theorem foldProof_inj (H : HashFn) : ∀ (ps : List (Bytes × Bytes)) (x y r : Bytes),
    H.CollFree (proofHashed H ps x ++ proofHashed H ps y) →
    foldProof H ps x = .ok r → foldProof H ps y = .ok r → x = y
  | [], x, y, r, _, hx, hy => by
    simp [foldProof] at hx hy
    rw [hx, hy]
  | (side, hex) :: ps, x, y, r, hc, hx, hy => by
    obtain ⟨s, m, h1, _, h3, h4, h5⟩ := foldProof_step H hx
    obtain ⟨s', m', h1', _, h3', h4', h5'⟩ := foldProof_step H hy
    rw [h1] at h1'
    cases h1'
    rw [h4, h4'] at hc
    have ih := foldProof_inj H ps _ _ r
      (hc.mono (by intro z hz; simp at hz ⊢; rcases hz with hz | hz <;> simp [hz])) h3 h3'
    have := hc m (by simp) m' (by simp) ih
    rw [h5, h5'] at this
    split at this
    · exact List.append_cancel_left this
    · exact List.append_cancel_right this

/-- The values of a node: a hashed value, or the hash of the values of its two children. -/
theorem nodesAt_cases (H : HashFn) : ∀ (d : Nat) (l : List Bytes) (x : Bytes),
    x ∈ rfcNodesAt H d (l.map H.hash) →
    (∃ v ∈ l, x = H.hash v) ∨
      (∃ a b, x = H.hash (a ++ b) ∧ a ++ b ∈ treeStrings H (l.map H.hash) ∧ a.length = H.size ∧ b.length = H.size ∧
        a ∈ rfcNodesAt H (d + 1) (l.map H.hash) ∧ b ∈ rfcNodesAt H (d + 1) (l.map H.hash))
  | 0, l, x, hx => by
    unfold rfcNodesAt at hx
    split at hx
    · simp at hx
    · rename_i h0
      simp only [List.mem_singleton] at hx
      by_cases h : 2 ≤ l.length
      · right
        obtain ⟨_, h1, h2⟩ := splitPoint_spec l.length h
        have h3 := splitPoint_pos l.length h
        have hlen : ∀ m : List Bytes, ∀ x ∈ m.map H.hash, x.length = H.size := by
          intro m x hx
          obtain ⟨y, _, rfl⟩ := List.mem_map.mp hx
          exact H.hash_len y
        have hm : 2 ≤ (l.map H.hash).length := by simpa using h
        have n1 : (l.map H.hash).take (splitPoint (l.map H.hash).length) ≠ [] :=
          List.length_pos_iff.mp (by rw [List.length_take, List.length_map]; omega)
        have n2 : (l.map H.hash).drop (splitPoint (l.map H.hash).length) ≠ [] :=
          List.length_pos_iff.mp (by rw [List.length_drop, List.length_map]; omega)
        refine ⟨_, _, hx.trans (rfcRoot_split H _ hm), ?_, ?_, ?_, ?_, ?_⟩
        · rw [treeStrings_split H _ hm]; simp
        · exact rfcRoot_len H _ _ (Nat.le_refl _) n1 (fun x hx => hlen l x (List.mem_of_mem_take hx))
        · exact rfcRoot_len H _ _ (Nat.le_refl _) n2 (fun x hx => hlen l x (List.mem_of_mem_drop hx))
        · unfold rfcNodesAt
          rw [if_neg (by omega)]
          apply List.mem_append_left
          unfold rfcNodesAt
          rw [if_neg (fun h => n1 (List.length_eq_zero_iff.mp h))]
          simp
        · unfold rfcNodesAt
          rw [if_neg (by omega)]
          apply List.mem_append_right
          unfold rfcNodesAt
          rw [if_neg (fun h => n2 (List.length_eq_zero_iff.mp h))]
          simp
      · left
        simp at h0
        obtain ⟨a, rfl⟩ := List.length_eq_one_iff.mp
          (show l.length = 1 by have := List.length_pos_iff.mpr h0; omega)
        exact ⟨a, by simp, hx⟩
  | d + 1, l, x, hx => by
    unfold rfcNodesAt at hx
    split at hx
    · simp at hx
    · rename_i h
      have hm : 2 ≤ (l.map H.hash).length := by omega
      rw [List.mem_append] at hx
      rcases hx with hx | hx
      · rw [← List.map_take] at hx
        rcases nodesAt_cases H d _ x hx with ⟨v, hv, e⟩ | ⟨a, b, e, e1, e2, e3, e4, e5⟩
        · exact .inl ⟨v, List.mem_of_mem_take hv, e⟩
        · refine .inr ⟨a, b, e, ?_, e2, e3, ?_, ?_⟩
          · rw [treeStrings_split H _ hm, ← List.map_take]
            exact List.mem_cons_of_mem _ (List.mem_append_left _ e1)
          · rw [rfcNodesAt, if_neg h, ← List.map_take]; exact List.mem_append_left _ e4
          · rw [rfcNodesAt, if_neg h, ← List.map_take]; exact List.mem_append_left _ e5
      · rw [← List.map_drop] at hx
        rcases nodesAt_cases H d _ x hx with ⟨v, hv, e⟩ | ⟨a, b, e, e1, e2, e3, e4, e5⟩
        · exact .inl ⟨v, List.mem_of_mem_drop hv, e⟩
        · refine .inr ⟨a, b, e, ?_, e2, e3, ?_, ?_⟩
          · rw [treeStrings_split H _ hm, ← List.map_drop]
            exact List.mem_cons_of_mem _ (List.mem_append_right _ e1)
          · rw [rfcNodesAt, if_neg h, ← List.map_drop]; exact List.mem_append_right _ e4
          · rw [rfcNodesAt, if_neg h, ← List.map_drop]; exact List.mem_append_right _ e5

/-- A proof that leads from a digest-long string to the root starts at a node, at a depth equal to the number of
its entries. -/
theorem foldProof_node (H : HashFn) (l : List Bytes) (hne : l ≠ []) (hs : ∀ v ∈ l, v.length < H.size) :
    ∀ (ps : List (Bytes × Bytes)) (x : Bytes), x.length = H.size →
    H.CollFree (l ++ treeStrings H (l.map H.hash) ++ proofHashed H ps x) →
    foldProof H ps x = .ok (rfcRoot H (l.map H.hash)) → x ∈ rfcNodesAt H ps.length (l.map H.hash)
  | [], x, _, _, hf => by
    simp only [foldProof, Except.ok.injEq] at hf
    rw [List.length_nil, rfcNodesAt, if_neg (by simpa using hne), hf]
    simp
  | (side, hex) :: ps, x, hx, hc, hf => by
    obtain ⟨s, m, h1, h2, h3, h4, h5⟩ := foldProof_step H hf
    rw [h4] at hc
    have ih := foldProof_node H l hne hs ps (H.hash m) (H.hash_len m)
      (hc.mono (by intro z hz; simp at hz ⊢; rcases hz with hz | hz | hz <;> simp [hz])) h3
    rcases nodesAt_cases H _ l _ ih with ⟨v, hv, e⟩ | ⟨a, b, e, e1, e2, e3, e4, e5⟩
    · have := hc m (by simp) v (by simp [hv]) e
      have hl := hs v hv
      rw [← this] at hl
      rcases h2 with rfl | rfl <;> rw [List.length_append] at hl <;> omega
    · have := hc m (by simp) (a ++ b) (by simp [e1]) e
      rcases h2 with rfl | rfl
      · obtain ⟨_, rfl⟩ := append_inj_len' this (hx.trans e3.symm)
        exact e5
      · obtain ⟨rfl, _⟩ := append_inj_len this (hx.trans e2.symm)
        exact e4

theorem splitPoint_pow (k : Nat) : splitPoint (2 ^ (k + 1)) = 2 ^ k := by
  have hp := Nat.two_pow_pos k
  have e : 2 ^ (k + 1) = 2 * 2 ^ k := by rw [Nat.pow_succ]; omega
  obtain ⟨⟨a, ha⟩, h1, h2⟩ := splitPoint_spec (2 ^ (k + 1)) (by omega)
  rw [ha] at h1 h2 ⊢
  congr 1
  exact pow_unique h1 h2 (by omega) (by omega)

/-- In a full tree the nodes at the lowest depth are the leaves. -/
theorem nodesAt_full (H : HashFn) : ∀ (k : Nat) (l : List Bytes), l.length = 2 ^ k → rfcNodesAt H k l = l
  | 0, l, h => by
    obtain ⟨a, rfl⟩ := List.length_eq_one_iff.mp (by simpa using h)
    rfl
  | k + 1, l, h => by
    have hp := Nat.two_pow_pos k
    have e : 2 ^ (k + 1) = 2 * 2 ^ k := by rw [Nat.pow_succ]; omega
    rw [rfcNodesAt, if_neg (by omega), h, splitPoint_pow,
      nodesAt_full H k _ (by rw [List.length_take]; omega),
      nodesAt_full H k _ (by rw [List.length_drop]; omega), List.take_append_drop]

/-! ### Checking never fails on well-formed proofs -/

theorem foldProof_total' (H : HashFn) : ∀ (ps : List (Bytes × Bytes)),
    (∀ e ∈ ps, (e.1 = left ∨ e.1 = right) ∧ utf8Valid e.2 = true ∧ ∃ s, fromHex e.2 = .ok s) →
    ∀ h, ∃ r, foldProof H ps h = .ok r
  | [], _, h => ⟨h, rfl⟩
  | (side, hex) :: ps, he, h => by
    obtain ⟨h1, _, s, hs⟩ := he (side, hex) (by simp)
    have ih := foldProof_total' H ps (fun e hm => he e (by simp [hm]))
    rcases h1 with h1 | h1 <;> dsimp only at h1 hs <;> subst h1
    · obtain ⟨r, hr⟩ := ih (H.hash (s ++ h))
      exact ⟨r, by simpa [foldProof, hs] using hr⟩
    · obtain ⟨r, hr⟩ := ih (H.hash (h ++ s))
      exact ⟨r, by simpa [foldProof, hs, left_ne_right.symm] using hr⟩

theorem entries_valid {ps : List (Bytes × Bytes)} (h : Entries ps) :
    ∀ e ∈ ps, (e.1 = left ∨ e.1 = right) ∧ utf8Valid e.2 = true ∧ ∃ s, fromHex e.2 = .ok s := by
  intro e he
  obtain ⟨s, hs⟩ := h e he
  rcases hs with rfl | rfl
  · exact ⟨.inl rfl, utf8Valid_ascii _ (hexOf_ascii s), s, fromHex_hexOf s⟩
  · exact ⟨.inr rfl, utf8Valid_ascii _ (hexOf_ascii s), s, fromHex_hexOf s⟩

theorem foldProof_total (H : HashFn) (ps : List (Bytes × Bytes)) (h : Entries ps) (x : Bytes) :
    ∃ r, foldProof H ps x = .ok r := foldProof_total' H ps (entries_valid h) x

theorem decodeEntries_valid : ∀ (ps : List (Bytes × Bytes)),
    (∀ e ∈ ps, (e.1 = left ∨ e.1 = right) ∧ utf8Valid e.2 = true ∧ ∃ s, fromHex e.2 = .ok s) →
    decodeEntries ps = .ok ps
  | [], _ => rfl
  | (side, hex) :: ps, he => by
    obtain ⟨h1, h2, _⟩ := he (side, hex) (by simp)
    have ih := decodeEntries_valid ps (fun e hm => he e (by simp [hm]))
    have hl : decodeUtf8 left = .ok left := by decide
    have hr : decodeUtf8 right = .ok right := by decide
    have hx : decodeUtf8 hex = .ok hex := by dsimp only at h2; simp [decodeUtf8, h2]
    rcases h1 with h1 | h1 <;> dsimp only at h1 <;> subst h1 <;> simp [decodeEntries, hl, hr, hx, ih]

theorem decodeEntries_same : ∀ (ps qs : List (Bytes × Bytes)), decodeEntries ps = .ok qs → qs = ps
  | [], qs, h => by simp [decodeEntries] at h; exact h
  | (a, b) :: ps, qs, h => by
    unfold decodeEntries at h
    cases ha : decodeUtf8 a with
    | error e => simp [ha] at h
    | ok a' =>
      cases hb : decodeUtf8 b with
      | error e => simp [ha, hb] at h
      | ok b' =>
        cases hr : decodeEntries ps with
        | error e => simp [ha, hb, hr] at h
        | ok rest =>
          have e1 : a' = a := by unfold decodeUtf8 at ha; split at ha <;> simp at ha; exact ha.symm
          have e2 : b' = b := by unfold decodeUtf8 at hb; split at hb <;> simp at hb; exact hb.symm
          have e3 := decodeEntries_same ps rest hr
          simp [ha, hb, hr] at h
          rw [← h, e1, e2, e3]

theorem decodeUtf8_same {a b : Bytes} (h : decodeUtf8 a = .ok b) : b = a := by
  unfold decodeUtf8 at h
  split at h <;> simp at h
  exact h.symm

/-- What acceptance means on a built tree. -/
theorem accepted (H : HashFn) (secure : Bool) (l : List Bytes) (hne : l ≠ []) (p : Proof (Bytes × Bytes))
    (ha : (verifyPoi H p (built H secure l)).1 = .ok true) :
    p.trieRoot = hexOf (rfcRoot H l) ∧ foldProof H p.proof p.targetKey = .ok (rfcRoot H l) := by
  unfold verifyPoi at ha
  simp only [M.bind_apply, M.lift_apply] at ha
  cases h1 : decodeEntries p.proof with
  | error e => simp [h1] at ha
  | ok es =>
    have := decodeEntries_same _ _ h1
    subst this
    cases h2 : decodeUtf8 p.trieRoot with
    | error e => simp [h1, h2] at ha
    | ok text =>
      have := decodeUtf8_same h2
      subst this
      cases h3 : fromHex p.trieRoot with
      | error e => simp [h1, h2, h3] at ha
      | ok mr =>
        cases h4 : verifyRaw H p.proof p.targetKey mr with
        | error e => cases he : isValueError e <;> simp [h1, h2, h3, h4, he] at ha
        | ok b =>
          cases b with
          | false => simp [h1, h2, h3, h4] at ha
          | true =>
            simp [h1, h2, h3, h4, built_root H secure l hne] at ha
            rw [← ha, fromHex_hexOf] at h3
            cases h3
            refine ⟨ha.symm, ?_⟩
            unfold verifyRaw at h4
            split at h4
            · rename_i h0
              have h0 := List.length_eq_zero_iff.mp h0
              rw [h0]
              simp at h4
              simp [foldProof, h4]
            · cases h5 : foldProof H p.proof p.targetKey with
              | error e => simp [h5] at h4
              | ok h =>
                simp [h5] at h4
                rw [h4]

/-! ### Stale trees -/

theorem run_puts (H : HashFn) : ∀ (vs : List Bytes) (t : MTree),
    run H (vs.map .put) t = { t with leaves := t.leaves ++ vs.map (leafOf H t.secure) }
  | [], t => by simp [run]
  | v :: vs, t => by
    have : run H ((v :: vs).map .put) t = run H (vs.map .put) (exec H (.put v) t) := rfl
    rw [this, run_puts H vs]
    simp [exec, put_apply]

theorem after_stale (H : HashFn) (secure : Bool) (ops more : List MOp) (h : held ops ≠ [])
    (hm : ∀ op ∈ more, op = .root ∨ ∃ v, op = .put v) :
    ∃ l, after H secure (ops ++ [.make] ++ more) = stale H secure ((held ops).map (leafOf H secure)) l := by
  have h0 := after_make H secure ops h
  unfold after at h0 ⊢
  rw [run_append, h0]
  clear h0
  obtain ⟨m, rfl⟩ : ∃ l : List MOp, more = l.reverse := ⟨more.reverse, by simp⟩
  induction m with
  | nil => exact ⟨[], by rw [stale_nil]; rfl⟩
  | cons op m ih =>
    obtain ⟨l, hl⟩ := ih (fun op ho => hm op (by simp at ho ⊢; exact .inl ho))
    rw [List.reverse_cons, run_snoc, hl]
    rcases hm op (by simp) with rfl | ⟨v, rfl⟩
    · refine ⟨l, ?_⟩
      show (root H _).2 = _
      rw [root_apply]
      simp [stale]
    · exact ⟨l ++ [leafOf H secure v], by simp [exec, put_apply, stale]⟩

/-- A tree without values has no levels. -/
theorem after_upper (H : HashFn) (secure : Bool) (ops : List MOp) (h : held ops = []) :
    (after H secure ops).upper = none := by
  obtain ⟨m, rfl⟩ : ∃ l : List MOp, ops = l.reverse := ⟨ops.reverse, by simp⟩
  induction m with
  | nil => rfl
  | cons op m ih =>
    rw [List.reverse_cons, held_append] at h
    have hf := (after_fields H secure m.reverse).2
    unfold after at ih hf ⊢
    rw [List.reverse_cons, run_snoc]
    cases op with
    | put v => simp at h
    | reset => rfl
    | make =>
      simp only at h
      rw [h] at hf
      simp [exec, make, hf, ih h]
    | root =>
      simp only at h
      rw [h] at hf
      show (root H _).2.upper = none
      rw [root_apply]
      split
      · exact ih h
      · simp [make, hf, ih h]

end MTree
end Pymt
