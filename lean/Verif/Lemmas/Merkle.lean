import Verif.Spec.Merkle
import Verif.Lemmas.Store

/-!
# Lemmas on Merkle trees
-/

namespace Pymt

/-! ### Hexadecimal -/

theorem hexVal_hexDigit : ∀ n < 16, hexVal (hexDigit n) = some n := by decide
theorem hexDigit_not_space : ∀ n < 16, isSpace (hexDigit n) = false := by decide
theorem hexDigit_ascii : ∀ n < 16, hexDigit n ≤ 0x7F := by decide

theorem fromHex_hexOf : ∀ b : Bytes, fromHex (hexOf b) = .ok b
  | [] => rfl
  | b :: bs => by
    have h1 : b.toNat / 16 < 16 := by have := b.toNat_lt; omega
    have h2 : b.toNat % 16 < 16 := Nat.mod_lt _ (by omega)
    have hb : UInt8.ofNat (16 * (b.toNat / 16) + b.toNat % 16) = b := by
      rw [Nat.div_add_mod]; simp
    simp [hexOf, fromHex, hexDigit_not_space _ h1, hexVal_hexDigit _ h1, hexVal_hexDigit _ h2,
      fromHex_hexOf bs, hb]

theorem utf8Valid_ascii : ∀ b : Bytes, (∀ x ∈ b, x ≤ 0x7F) → utf8Valid b = true
  | [], _ => rfl
  | x :: xs, h => by
    have hx := h x (by simp)
    unfold utf8Valid
    simp only [hx, if_true]
    exact utf8Valid_ascii xs (fun y hy => h y (by simp [hy]))

theorem hexOf_ascii : ∀ (b : Bytes), ∀ x ∈ hexOf b, x ≤ 0x7F
  | [], x, hx => by simp [hexOf] at hx
  | b :: bs, x, hx => by
    simp only [hexOf, List.mem_cons] at hx
    rcases hx with rfl | rfl | hx
    · exact hexDigit_ascii _ (by have := b.toNat_lt; omega)
    · exact hexDigit_ascii _ (Nat.mod_lt _ (by omega))
    · exact hexOf_ascii bs x hx

theorem decodeUtf8_hexOf (b : Bytes) : decodeUtf8 (hexOf b) = .ok (hexOf b) := by
  simp [decodeUtf8, utf8Valid_ascii _ (hexOf_ascii b)]

theorem hexOf_inj {a b : Bytes} (h : hexOf a = hexOf b) : a = b := by
  have := fromHex_hexOf a
  rw [h, fromHex_hexOf] at this
  exact (Except.ok.inj this).symm

namespace MTree

/-! ### Levels -/

theorem everyOther_cons {α : Type} (b : α) (l : List α) :
    everyOther (b :: l) = b :: everyOther (l.drop 1) := by
  cases l <;> simp [everyOther]

theorem nextLevel_nil (H : HashFn) : nextLevel H [] = [] := rfl

theorem nextLevel_one (H : HashFn) (a : Bytes) : nextLevel H [a] = [a] := rfl

theorem nextLevel_cons (H : HashFn) (a b : Bytes) (l : List Bytes) :
    nextLevel H (a :: b :: l) = H.hash (a ++ b) :: nextLevel H l := by
  unfold nextLevel
  have h2 : (a :: b :: l).length % 2 = l.length % 2 := by simp only [List.length_cons]; omega
  simp only [h2]
  by_cases ho : l.length % 2 = 1
  · obtain ⟨m, hm⟩ : ∃ m, l.length = m + 1 := ⟨l.length - 1, by omega⟩
    simp only [ho, if_true]
    have e : (a :: b :: l).length - 1 = m + 2 := by simp [hm]
    have e' : l.length - 1 = m := by omega
    have hl : l ≠ [] := by intro h; simp [h] at hm
    rw [e, e']
    simp only [List.take_succ_cons, everyOther, List.drop_succ_cons, List.drop_zero, everyOther_cons b,
      List.zip_cons_cons, List.map_cons, List.cons_append]
    have hlast : (a :: b :: l).getLast? = l.getLast? := by
      cases l with
      | nil => exact absurd rfl hl
      | cons c l => simp [List.getLast?_cons_cons]
    rw [hlast]
  · simp only [ho, if_false]
    simp only [List.length_cons, List.take_succ_cons, everyOther, List.drop_succ_cons, List.drop_zero,
      everyOther_cons b, List.zip_cons_cons, List.map_cons]

theorem nextLevel_length (H : HashFn) : ∀ l, (nextLevel H l).length = (l.length + 1) / 2
  | [] => rfl
  | [a] => by rw [nextLevel_one]; simp
  | a :: b :: l => by
    rw [nextLevel_cons]
    simp only [List.length_cons, nextLevel_length H l]
    omega

theorem nextLevel_pair (H : HashFn) : ∀ (l : List Bytes) (j : Nat) (a b : Bytes),
    l[2 * j]? = some a → l[2 * j + 1]? = some b → (nextLevel H l)[j]? = some (H.hash (a ++ b))
  | [], j, a, b, ha, _ => by simp at ha
  | [x], j, a, b, _, hb => by simp at hb
  | x :: y :: l, 0, a, b, ha, hb => by
    rw [nextLevel_cons]
    simp at ha hb
    simp [ha, hb]
  | x :: y :: l, j + 1, a, b, ha, hb => by
    rw [nextLevel_cons]
    have e : 2 * (j + 1) = 2 * j + 1 + 1 := by omega
    rw [e] at ha hb
    simp only [List.getElem?_cons_succ] at ha hb ⊢
    exact nextLevel_pair H l j a b ha hb

theorem nextLevel_solo (H : HashFn) : ∀ (l : List Bytes) (j : Nat) (a : Bytes),
    l[2 * j]? = some a → l[2 * j + 1]? = none → (nextLevel H l)[j]? = some a
  | [], j, a, ha, _ => by simp at ha
  | [x], j, a, ha, _ => by
    cases j with
    | zero => simpa [nextLevel_one] using ha
    | succ j => simp [Nat.mul_add] at ha
  | x :: y :: l, 0, a, ha, hb => by simp at hb
  | x :: y :: l, j + 1, a, ha, hb => by
    rw [nextLevel_cons]
    have e : 2 * (j + 1) = 2 * j + 1 + 1 := by omega
    rw [e] at ha hb
    simp only [List.getElem?_cons_succ] at ha hb ⊢
    exact nextLevel_solo H l j a ha hb

/-- The levels from the leaves up. -/
def climb (H : HashFn) : Nat → List Bytes → List (List Bytes)
  | 0, l => [l]
  | n + 1, l => if l.length > 1 then l :: climb H n (nextLevel H l) else [l]

/-- The single element of the topmost level. -/
def rootVal (H : HashFn) : Nat → List Bytes → Bytes
  | 0, l => l.headD []
  | n + 1, l => if l.length > 1 then rootVal H n (nextLevel H l) else l.headD []

theorem buildLevels_eq (H : HashFn) : ∀ (n : Nat) (l : List Bytes) (rest : List (List Bytes)),
    buildLevels H n (l :: rest) = (climb H n l).reverse ++ rest
  | 0, l, rest => by simp [buildLevels, climb]
  | n + 1, l, rest => by
    unfold buildLevels climb
    by_cases h : l.length > 1
    · simp only [h, if_true]
      rw [buildLevels_eq H n]
      simp
    · simp [h]

theorem climb_head (H : HashFn) (n : Nat) (l : List Bytes) :
    climb H n l = l :: (climb H n l).tail := by
  cases n with
  | zero => rfl
  | succ n =>
    unfold climb
    split <;> simp

theorem climb_ne (H : HashFn) (n : Nat) (l : List Bytes) : climb H n l ≠ [] := by
  rw [climb_head]; simp

theorem climb_last (H : HashFn) : ∀ (n : Nat) (l : List Bytes), l ≠ [] →
    ∃ top, (climb H n l).getLast? = some top ∧ top[0]? = some (rootVal H n l)
  | 0, l, h => by
    refine ⟨l, rfl, ?_⟩
    cases l with
    | nil => exact absurd rfl h
    | cons a l => simp [rootVal]
  | n + 1, l, h => by
    unfold climb rootVal
    by_cases hl : l.length > 1
    · simp only [hl, if_true]
      have hn : nextLevel H l ≠ [] := by
        intro h0
        have := nextLevel_length H l
        rw [h0] at this
        simp at this
        omega
      obtain ⟨top, h1, h2⟩ := climb_last H n _ hn
      refine ⟨top, ?_, h2⟩
      rw [climb_head] at h1 ⊢
      rw [List.getLast?_cons_cons]
      exact h1
    · simp only [hl, if_false]
      refine ⟨l, rfl, ?_⟩
      cases l with
      | nil => exact absurd rfl h
      | cons a l => simp

/-- The levels after `make_tree`. -/
theorem make_levels (H : HashFn) (l : List Bytes) :
    (buildLevels H l.length [l]).dropLast ++ [l] = (climb H l.length l).reverse := by
  rw [buildLevels_eq, List.append_nil]
  rw [climb_head H l.length l, List.reverse_cons, List.dropLast_concat]

/-! ### Proofs -/

theorem climb_dropLast (H : HashFn) (n : Nat) (l : List Bytes) (h : l.length > 1) :
    (climb H (n + 1) l).dropLast = l :: (climb H n (nextLevel H l)).dropLast := by
  have e : climb H (n + 1) l = l :: climb H n (nextLevel H l) := by simp [climb, h]
  rw [e, climb_head H n (nextLevel H l), List.dropLast_cons_cons]

theorem left_ne_right : left ≠ right := by decide

theorem foldProof_left (H : HashFn) (s h : Bytes) (ps : List (Bytes × Bytes)) :
    foldProof H ((left, hexOf s) :: ps) h = foldProof H ps (H.hash (s ++ h)) := by
  simp [foldProof, fromHex_hexOf]

theorem foldProof_right (H : HashFn) (s h : Bytes) (ps : List (Bytes × Bytes)) :
    foldProof H ((right, hexOf s) :: ps) h = foldProof H ps (H.hash (h ++ s)) := by
  simp [foldProof, fromHex_hexOf, left_ne_right.symm]

/-- Entries as `get_proof_of_inclusion` makes them. -/
def Entries (ps : List (Bytes × Bytes)) : Prop :=
  ∀ p ∈ ps, ∃ s, p = (left, hexOf s) ∨ p = (right, hexOf s)

theorem decodeEntries_ok : ∀ ps, Entries ps → decodeEntries ps = .ok ps
  | [], _ => rfl
  | (a, b) :: ps, h => by
    have ht := decodeEntries_ok ps (fun p hp => h p (by simp [hp]))
    obtain ⟨s, hs⟩ := h (a, b) (by simp)
    have h1 : decodeUtf8 left = .ok left := by decide
    have h2 : decodeUtf8 right = .ok right := by decide
    rcases hs with hs | hs <;> cases hs <;>
      simp [decodeEntries, ht, h1, h2, decodeUtf8_hexOf]

theorem proofLoop_ok (H : HashFn) : ∀ (n : Nat) (l : List Bytes) (i : Nat) (x : Bytes), l[i]? = some x →
    l.length ≤ n →
    ∃ ps, proofLoop (climb H n l).dropLast i = .ok ps ∧ Entries ps ∧
      foldProof H ps x = .ok (rootVal H n l)
  | 0, l, i, x, hx, hn => by
    have : l = [] := List.length_eq_zero_iff.mp (by omega)
    simp [this] at hx
  | n + 1, l, i, x, hx, hn => by
    have hi : i < l.length := (List.getElem?_eq_some_iff.mp hx).1
    by_cases hl : l.length > 1
    · rw [climb_dropLast H n l hl]
      have hn' : (nextLevel H l).length ≤ n := by rw [nextLevel_length]; omega
      have hr : rootVal H (n + 1) l = rootVal H n (nextLevel H l) := by simp [rootVal, hl]
      rw [hr]
      by_cases hsolo : i = l.length - 1 ∧ l.length % 2 = 1
      · have he : 2 * (i / 2) = i := by omega
        have hnext := nextLevel_solo H l (i / 2) x (by rw [he]; exact hx)
          (by rw [List.getElem?_eq_none_iff]; omega)
        obtain ⟨ps, h1, h2, h3⟩ := proofLoop_ok H n _ (i / 2) x hnext hn'
        refine ⟨ps, ?_, h2, h3⟩
        rw [proofLoop, if_pos hsolo]
        exact h1
      · by_cases hodd : i % 2 = 1
        · obtain ⟨s, hs⟩ : ∃ s, l[i - 1]? = some s :=
            ⟨l[i - 1]'(by omega), List.getElem?_eq_getElem _⟩
          have hnext := nextLevel_pair H l (i / 2) s x
            (by rw [show 2 * (i / 2) = i - 1 by omega]; exact hs)
            (by rw [show 2 * (i / 2) + 1 = i by omega]; exact hx)
          obtain ⟨ps, h1, h2, h3⟩ := proofLoop_ok H n _ (i / 2) _ hnext hn'
          refine ⟨(left, hexOf s) :: ps, ?_, ?_, ?_⟩
          · rw [proofLoop, if_neg hsolo]
            simp [hodd, pyIndex, hs, h1]
          · intro p hp
            rcases List.mem_cons.mp hp with rfl | hp
            · exact ⟨s, .inl rfl⟩
            · exact h2 p hp
          · rw [foldProof_left]; exact h3
        · have hi1 : i + 1 < l.length := by omega
          obtain ⟨s, hs⟩ : ∃ s, l[i + 1]? = some s :=
            ⟨l[i + 1], List.getElem?_eq_getElem _⟩
          have hnext := nextLevel_pair H l (i / 2) x s
            (by rw [show 2 * (i / 2) = i by omega]; exact hx)
            (by rw [show 2 * (i / 2) + 1 = i + 1 by omega]; exact hs)
          obtain ⟨ps, h1, h2, h3⟩ := proofLoop_ok H n _ (i / 2) _ hnext hn'
          refine ⟨(right, hexOf s) :: ps, ?_, ?_, ?_⟩
          · rw [proofLoop, if_neg hsolo]
            simp [hodd, pyIndex, hs, h1]
          · intro p hp
            rcases List.mem_cons.mp hp with rfl | hp
            · exact ⟨s, .inr rfl⟩
            · exact h2 p hp
          · rw [foldProof_right]; exact h3
    · refine ⟨[], ?_, by simp [Entries], ?_⟩
      · simp [climb, hl, proofLoop]
      · have : i = 0 := by omega
        subst this
        cases l with
        | nil => simp at hx
        | cons a l =>
          simp at hx
          rw [rootVal, if_neg hl]
          simp [foldProof, hx]

/-! ### The recursive definition -/

theorem splitFrom_spec (n : Nat) : ∀ (f k : Nat), (∃ e, k = 2 ^ e) → k < n → n ≤ k * 2 ^ (f + 1) →
    (∃ e, splitFrom f k n = 2 ^ e) ∧ splitFrom f k n < n ∧ n ≤ 2 * splitFrom f k n
  | 0, k, he, hk, hf => by
    simp only [splitFrom]
    exact ⟨he, hk, by simpa [Nat.mul_comm] using hf⟩
  | f + 1, k, ⟨e, he⟩, hk, hf => by
    unfold splitFrom
    by_cases h : 2 * k < n
    · simp only [h, if_true]
      exact splitFrom_spec n f (2 * k) ⟨e + 1, by rw [he, Nat.pow_succ]; omega⟩ h
        (by rw [Nat.pow_succ] at hf; rw [Nat.mul_comm 2 k, Nat.mul_assoc]; rwa [Nat.mul_comm 2]) 
    · simp only [h, if_false]
      exact ⟨⟨e, he⟩, hk, by omega⟩

/-- `splitPoint` is the largest power of two below `n`. -/
theorem splitPoint_spec (n : Nat) (h : 2 ≤ n) :
    (∃ e, splitPoint n = 2 ^ e) ∧ splitPoint n < n ∧ n ≤ 2 * splitPoint n :=
  splitFrom_spec n n 1 ⟨0, rfl⟩ (by omega)
    (by have := @Nat.lt_two_pow_self n; rw [Nat.pow_succ]; omega)

theorem pow_unique {a b n : Nat} (ha : 2 ^ a < n) (ha' : n ≤ 2 * 2 ^ a) (hb : 2 ^ b < n)
    (hb' : n ≤ 2 * 2 ^ b) : a = b := by
  have h1 : 2 ^ a < 2 ^ (b + 1) := by rw [Nat.pow_succ]; omega
  have h2 : 2 ^ b < 2 ^ (a + 1) := by rw [Nat.pow_succ]; omega
  have := (Nat.pow_lt_pow_iff_right (by omega)).mp h1
  have := (Nat.pow_lt_pow_iff_right (by omega)).mp h2
  omega

theorem splitPoint_pos (n : Nat) (h : 2 ≤ n) : 0 < splitPoint n := by
  obtain ⟨⟨e, he⟩, _, _⟩ := splitPoint_spec n h
  rw [he]; exact Nat.two_pow_pos e

theorem splitPoint_half (n : Nat) (h : 3 ≤ n) : splitPoint n = 2 * splitPoint ((n + 1) / 2) := by
  obtain ⟨⟨a, ha⟩, h1, h2⟩ := splitPoint_spec n (by omega)
  obtain ⟨⟨b, hb⟩, h3, h4⟩ := splitPoint_spec ((n + 1) / 2) (by omega)
  rw [ha] at h1 h2 ⊢
  rw [hb] at h3 h4 ⊢
  have hpow : 2 * 2 ^ b = 2 ^ (b + 1) := by rw [Nat.pow_succ]; omega
  rw [hpow]
  congr 1
  apply pow_unique h1 h2
  · rw [← hpow]; omega
  · rw [← hpow]; omega

/-- More fuel changes nothing. -/
theorem rfcHash_fuel (H : HashFn) : ∀ (f g : Nat) (l : List Bytes), l.length ≤ f + 1 → l.length ≤ g + 1 →
    rfcHash H f l = rfcHash H g l
  | _, _, [], _, _ => by simp [rfcHash]
  | _, _, [a], _, _ => by simp [rfcHash]
  | 0, _, _ :: _ :: _, h, _ => by simp at h
  | _ + 1, 0, _ :: _ :: _, _, h => by simp at h
  | f + 1, g + 1, a :: b :: l, h, h' => by
    unfold rfcHash
    obtain ⟨_, h1, h2⟩ := splitPoint_spec (a :: b :: l).length (by simp)
    have h3 := splitPoint_pos (a :: b :: l).length (by simp)
    simp only
    rw [rfcHash_fuel H f g _ (by rw [List.length_take]; omega) (by rw [List.length_take]; omega),
      rfcHash_fuel H f g _ (by rw [List.length_drop]; omega) (by rw [List.length_drop]; omega)]

theorem rfcRoot_one (H : HashFn) (a : Bytes) : rfcRoot H [a] = a := rfl

theorem rfcRoot_split (H : HashFn) (l : List Bytes) (h : 2 ≤ l.length) :
    rfcRoot H l = H.hash (rfcRoot H (l.take (splitPoint l.length)) ++
      rfcRoot H (l.drop (splitPoint l.length))) := by
  obtain ⟨_, h1, h2⟩ := splitPoint_spec l.length h
  have h3 := splitPoint_pos l.length h
  match l, h with
  | a :: b :: l, h =>
    have e : rfcRoot H (a :: b :: l) = rfcHash H (l.length + 1 + 1) (a :: b :: l) := rfl
    rw [e]
    unfold rfcHash
    simp only
    have hlen : (a :: b :: l).length = l.length + 2 := rfl
    rw [rfcHash_fuel H _ _ (List.take _ _) (by rw [List.length_take]; omega) (Nat.le_succ _),
      rfcHash_fuel H _ _ (List.drop _ _) (by rw [List.length_drop]; omega) (Nat.le_succ _)]
    rfl

theorem nextLevel_append (H : HashFn) : ∀ (a b : List Bytes), a.length % 2 = 0 →
    nextLevel H (a ++ b) = nextLevel H a ++ nextLevel H b
  | [], b, _ => by simp [nextLevel_nil]
  | [x], b, h => by simp at h
  | x :: y :: a, b, h => by
    have := nextLevel_append H a b (by simp only [List.length_cons] at h; omega)
    simp [nextLevel_cons, this]

theorem rfcRoot_next (H : HashFn) : ∀ (n : Nat) (l : List Bytes), l.length ≤ n → 2 ≤ l.length →
    rfcRoot H (nextLevel H l) = rfcRoot H l
  | 0, l, h, h' => by omega
  | n + 1, l, h, h' => by
    by_cases h3 : 3 ≤ l.length
    · have hs := splitPoint_half l.length h3
      obtain ⟨_, h1, h2⟩ := splitPoint_spec l.length h'
      have hp := splitPoint_pos l.length h'
      have hnl := nextLevel_length H l
      rw [rfcRoot_split H l h', rfcRoot_split H (nextLevel H l) (by omega), hnl]
      have hsplit : nextLevel H l = nextLevel H (l.take (splitPoint l.length)) ++
          nextLevel H (l.drop (splitPoint l.length)) := by
        rw [← nextLevel_append H _ _ (by rw [List.length_take]; omega), List.take_append_drop]
      have hlen : (nextLevel H (l.take (splitPoint l.length))).length = splitPoint ((l.length + 1) / 2) := by
        rw [nextLevel_length, List.length_take]; omega
      rw [hsplit, ← hlen, List.take_left, List.drop_left]
      have e1 : rfcRoot H (nextLevel H (l.take (splitPoint l.length))) =
          rfcRoot H (l.take (splitPoint l.length)) :=
        rfcRoot_next H n _ (by rw [List.length_take]; omega) (by rw [List.length_take]; omega)
      have e2 : rfcRoot H (nextLevel H (l.drop (splitPoint l.length))) =
          rfcRoot H (l.drop (splitPoint l.length)) := by
        by_cases hb : 2 ≤ (l.drop (splitPoint l.length)).length
        · exact rfcRoot_next H n _ (by rw [List.length_drop]; omega) hb
        · have : (l.drop (splitPoint l.length)).length = 1 := by
            rw [List.length_drop] at hb ⊢; omega
          obtain ⟨x, hx⟩ := List.length_eq_one_iff.mp this
          rw [hx, nextLevel_one]
      rw [e1, e2]
    · have h2 : l.length = 2 := by omega
      obtain ⟨a, b, rfl⟩ : ∃ a b, l = [a, b] := by
        match l, h2 with
        | [a, b], _ => exact ⟨a, b, rfl⟩
      rw [nextLevel_cons, nextLevel_nil, rfcRoot_split H [a, b] h']
      rfl

/-- The root computed level by level is the recursive one. -/
theorem rootVal_rfc (H : HashFn) : ∀ (n : Nat) (l : List Bytes), l ≠ [] → l.length ≤ n →
    rootVal H n l = rfcRoot H l
  | 0, l, h, hn => absurd (List.length_eq_zero_iff.mp (by omega)) h
  | n + 1, l, h, hn => by
    unfold rootVal
    by_cases hl : l.length > 1
    · simp only [hl, if_true]
      have hlen := nextLevel_length H l
      rw [rootVal_rfc H n _ (by intro h0; rw [h0] at hlen; simp at hlen; omega) (by omega)]
      exact rfcRoot_next H _ l (Nat.le_refl _) hl
    · have h0 := List.length_pos_iff.mpr h
      obtain ⟨a, rfl⟩ := List.length_eq_one_iff.mp (show l.length = 1 by omega)
      rfl

/-! ### Objects -/

theorem put_apply (H : HashFn) (v : Bytes) (t : MTree) :
    put H v t = (.ok (), { t with leaves := t.leaves ++ [leafOf H t.secure v] }) := rfl

theorem root_apply (H : HashFn) (t : MTree) :
    root H t = if t.ready then (t.rootRaw, t) else ((make H t).2.rootRaw, (make H t).2) := by
  unfold root
  cases h : t.ready
  · simp [h, make]
  · simp [h]

/-- A tree with the given leaves, just built. -/
def built (H : HashFn) (secure : Bool) (l : List Bytes) : MTree :=
  { secure, leaves := l, upper := some (buildLevels H l.length [l]).dropLast, ready := true }

/-- The same tree after more leaves were added. -/
def stale (H : HashFn) (secure : Bool) (l more : List Bytes) : MTree :=
  { secure, leaves := l ++ more, upper := some (buildLevels H l.length [l]).dropLast, ready := true }

theorem stale_nil (H : HashFn) (secure : Bool) (l : List Bytes) : stale H secure l [] = built H secure l := by
  simp [stale, built]

theorem make_eq (H : HashFn) (t : MTree) (h : t.leaves ≠ []) :
    make H t = (.ok (), built H t.secure t.leaves) := by
  have := List.length_pos_iff.mpr h
  simp [make, built, this]

theorem stale_root (H : HashFn) (secure : Bool) (l more : List Bytes) (h : l ≠ []) :
    (stale H secure l more).rootRaw = .ok (hexOf (rfcRoot H l)) := by
  obtain ⟨top, h1, h2⟩ := climb_last H l.length l h
  rw [rootVal_rfc H _ l h (Nat.le_refl _)] at h2
  have hup : (buildLevels H l.length [l]).dropLast = (climb H l.length l).tail.reverse := by
    rw [buildLevels_eq, List.append_nil, climb_head H l.length l, List.reverse_cons, List.dropLast_concat]
    rfl
  have hlev : (stale H secure l more).levels = some ((climb H l.length l).tail.reverse ++ [l ++ more]) := by
    simp [levels, stale, hup]
  unfold rootRaw
  rw [hlev]
  have hr : (stale H secure l more).ready = true := rfl
  rw [hr]
  simp only
  rw [climb_head H l.length l] at h1
  cases htail : (climb H l.length l).tail with
  | nil =>
    rw [htail] at h1
    simp at h1
    subst h1
    have hl : (l ++ more)[0]? = some (rfcRoot H l) := by
      rw [List.getElem?_append_left (List.length_pos_iff.mpr h)]; exact h2
    simp [pyIndex, hl]
  | cons u us =>
    rw [htail, List.getLast?_cons_cons] at h1
    have hh : ((u :: us).reverse ++ [l ++ more])[0]? = some top := by
      rw [List.getElem?_append_left (by simp), ← List.head?_eq_getElem?, List.head?_reverse]
      exact h1
    simp only [pyIndex, hh, Except.bind_ok', h2, Except.pure_ok']

theorem built_root (H : HashFn) (secure : Bool) (l : List Bytes) (h : l ≠ []) :
    root H (built H secure l) = (.ok (hexOf (rfcRoot H l)), built H secure l) := by
  have := stale_root H secure l [] h
  rw [stale_nil] at this
  rw [root_apply]
  simp [this, show (built H secure l).ready = true from rfl]

theorem built_levels (H : HashFn) (secure : Bool) (l : List Bytes) :
    (built H secure l).levels = some (climb H l.length l).reverse := by
  simp [levels, built, make_levels]

theorem idxOf?_some (l : List Bytes) (x : Bytes) (h : x ∈ l) :
    ∃ i, l.idxOf? x = some i ∧ l[i]? = some x := by
  induction l with
  | nil => simp at h
  | cons a l ih =>
    by_cases ha : a = x
    · exact ⟨0, by simp [List.idxOf?_cons, ha], by simp [ha]⟩
    · obtain ⟨i, h1, h2⟩ := ih (by rcases List.mem_cons.mp h with rfl | h; exact absurd rfl ha; exact h)
      exact ⟨i + 1, by simp [List.idxOf?_cons, ha, h1], by simp [h2]⟩

/-- What `get_proof_of_inclusion` makes of a built tree. -/
theorem built_poi (H : HashFn) (secure : Bool) (l : List Bytes) (now v : Bytes)
    (h : leafOf H secure v ∈ l) :
    ∃ ps, getPoi H now v (built H secure l) = (.ok { type := mtPoi, timestamp := now, targetKey := v, trieRoot := hexOf (rfcRoot H l), proof := ps }, built H secure l) ∧
      Entries ps ∧ foldProof H ps (leafOf H secure v) = .ok (rfcRoot H l) := by
  have hne : l ≠ [] := List.ne_nil_of_mem h
  obtain ⟨i, hi1, hi2⟩ := idxOf?_some l _ h
  obtain ⟨ps, h1, h2, h3⟩ := proofLoop_ok H l.length l i _ hi2 (Nat.le_refl _)
  rw [rootVal_rfc H _ l hne (Nat.le_refl _)] at h3
  refine ⟨ps, ?_, h2, h3⟩
  have hp : (built H secure l).proofRaw H v = .ok ps := by
    unfold proofRaw
    rw [show (built H secure l).leaves = l from rfl, show (built H secure l).secure = secure from rfl, hi1]
    simp only
    rw [built_levels, show (built H secure l).ready = true from rfl]
    simp only [List.reverse_reverse]
    exact h1
  unfold getPoi
  simp [hp, built_root H secure l hne]

/-- Checking a proof whose entries and root are well formed, on a built tree. -/
theorem built_verify (H : HashFn) (secure : Bool) (l : List Bytes) (hne : l ≠ [])
    (ty now v : Bytes) (ps : List (Bytes × Bytes)) (h : Entries ps) :
    verifyPoi H { type := ty, timestamp := now, targetKey := v, trieRoot := hexOf (rfcRoot H l), proof := ps }
      (built H secure l) =
    (match verifyRaw H ps v (rfcRoot H l) with
      | .ok b => .ok b
      | .error e => if isValueError e then .ok false else .error e, built H secure l) := by
  unfold verifyPoi
  simp only [decodeEntries_ok ps h, M.bind_apply, M.lift_apply, decodeUtf8_hexOf, fromHex_hexOf]
  cases hr : verifyRaw H ps v (rfcRoot H l) with
  | error e => cases he : isValueError e <;> simp [he]
  | ok b =>
    cases b
    · simp
    · simp [built_root H secure l hne]

theorem verifyRaw_eq (H : HashFn) (ps : List (Bytes × Bytes)) (v r h : Bytes)
    (hf : foldProof H ps v = .ok h) : verifyRaw H ps v r = .ok (h == r) := by
  unfold verifyRaw
  split
  · rename_i h0
    have := List.length_eq_zero_iff.mp h0
    subst this
    simp [foldProof] at hf
    rw [hf]
  · simp [hf]

/-! ### Histories -/

theorem run_append (H : HashFn) (a b : List MOp) (t : MTree) : run H (a ++ b) t = run H b (run H a t) := by
  simp [run, List.foldl_append]

theorem held_append (a : List MOp) (op : MOp) : held (a ++ [op]) = (match op with
    | .put v => held a ++ [v]
    | .reset => []
    | _ => held a) := by
  cases op <;> simp [held, List.foldl_append]

theorem make_fields (H : HashFn) (t : MTree) :
    (make H t).2.secure = t.secure ∧ (make H t).2.leaves = t.leaves := by
  by_cases h : t.leaves.length > 0 <;> simp [make, h]

theorem root_fields (H : HashFn) (t : MTree) :
    (root H t).2.secure = t.secure ∧ (root H t).2.leaves = t.leaves := by
  rw [root_apply]
  split
  · simp
  · exact make_fields H t

theorem run_snoc (H : HashFn) (a : List MOp) (op : MOp) (t : MTree) :
    run H (a ++ [op]) t = exec H op (run H a t) := by
  rw [run_append]; rfl

/-- The leaves after a history. -/
theorem after_fields (H : HashFn) (secure : Bool) (ops : List MOp) :
    (after H secure ops).secure = secure ∧
      (after H secure ops).leaves = (held ops).map (leafOf H secure) := by
  unfold after
  obtain ⟨l, rfl⟩ : ∃ l : List MOp, ops = l.reverse := ⟨ops.reverse, by simp⟩
  induction l with
  | nil => simp [run, new, held]
  | cons op l ih =>
    rw [List.reverse_cons, run_snoc, held_append]
    cases op with
    | put v => simp [exec, put_apply, ih.1, ih.2]
    | make =>
      obtain ⟨h1, h2⟩ := make_fields H (run H l.reverse (new secure))
      simp [exec, h1, h2, ih.1, ih.2]
    | reset => simp [exec, reset, ih.1]
    | root =>
      obtain ⟨h1, h2⟩ := root_fields H (run H l.reverse (new secure))
      simp [exec, h1, h2, ih.1, ih.2]

/-- A tree that was just built. -/
theorem after_make (H : HashFn) (secure : Bool) (ops : List MOp) (h : held ops ≠ []) :
    after H secure (ops ++ [.make]) = built H secure ((held ops).map (leafOf H secure)) := by
  obtain ⟨h1, h2⟩ := after_fields H secure ops
  unfold after at h1 h2 ⊢
  rw [run_snoc]
  show (make H _).2 = _
  rw [make_eq H _ (by rw [h2]; simpa using h), h1, h2]

theorem held_puts (vs : List Bytes) : held (vs.map .put) = vs := by
  obtain ⟨l, rfl⟩ : ∃ l : List Bytes, vs = l.reverse := ⟨vs.reverse, by simp⟩
  induction l with
  | nil => rfl
  | cons v l ih =>
    rw [List.reverse_cons, List.map_append]
    simp only [List.map_cons, List.map_nil]
    rw [held_append, ih]

theorem after_putAndMake (H : HashFn) (secure : Bool) (vs : List Bytes) (h : vs ≠ []) :
    after H secure (putAndMake vs) = built H secure (vs.map (leafOf H secure)) := by
  unfold putAndMake
  rw [after_make H secure _ (by rw [held_puts]; exact h), held_puts]

end MTree
end Pymt
