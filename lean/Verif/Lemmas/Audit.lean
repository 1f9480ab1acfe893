import Verif.Lemmas.MerkleBind
import Verif.Spec.Audit

/-!
# Audit paths: the loop over the levels gives the recursive path
-/

namespace Pymt.MTree

theorem rfcPathAux_fuel (H : HashFn) : ∀ (f g : Nat) (l : List Bytes) (m : Nat), l.length ≤ f + 1 → l.length ≤ g + 1 →
    rfcPathAux H f l m = rfcPathAux H g l m
  | 0, 0, _, _, _, _ => rfl
  | 0, g + 1, l, m, h, _ => by
    rw [rfcPathAux, rfcPathAux, if_pos (by omega)]
  | f + 1, 0, l, m, _, h => by
    rw [rfcPathAux, rfcPathAux, if_pos (by omega)]
  | f + 1, g + 1, l, m, h, h' => by
    rw [rfcPathAux, rfcPathAux]
    by_cases hl : l.length < 2
    · rw [if_pos hl, if_pos hl]
    · rw [if_neg hl, if_neg hl]
      obtain ⟨_, h1, h2⟩ := splitPoint_spec l.length (by omega)
      have h3 := splitPoint_pos l.length (by omega)
      simp only
      rw [rfcPathAux_fuel H f g (l.take _) m (by rw [List.length_take]; omega) (by rw [List.length_take]; omega),
        rfcPathAux_fuel H f g (l.drop _) _ (by rw [List.length_drop]; omega) (by rw [List.length_drop]; omega)]

theorem rfcPath_short (H : HashFn) (l : List Bytes) (m : Nat) (h : l.length < 2) : rfcPath H l m = [] := by
  unfold rfcPath
  rw [rfcPathAux_fuel H _ 0 l m (by omega) (by omega)]
  rfl

theorem rfcPath_split (H : HashFn) (l : List Bytes) (m : Nat) (h : 2 ≤ l.length) :
    rfcPath H l m =
      if m < splitPoint l.length then
        rfcPath H (l.take (splitPoint l.length)) m ++ [(right, hexOf (rfcRoot H (l.drop (splitPoint l.length))))]
      else
        rfcPath H (l.drop (splitPoint l.length)) (m - splitPoint l.length) ++
          [(left, hexOf (rfcRoot H (l.take (splitPoint l.length))))] := by
  obtain ⟨_, h1, h2⟩ := splitPoint_spec l.length h
  have h3 := splitPoint_pos l.length h
  unfold rfcPath
  rw [rfcPathAux_fuel H l.length (l.length + 1) l m (by omega) (by omega), rfcPathAux, if_neg (by omega)]
  simp only
  rw [rfcPathAux_fuel H l.length (l.take (splitPoint l.length)).length (l.take (splitPoint l.length)) m
      (by rw [List.length_take]; omega) (by omega),
    rfcPathAux_fuel H l.length (l.drop (splitPoint l.length)).length (l.drop (splitPoint l.length)) _
      (by rw [List.length_drop]; omega) (by omega)]

/-- What one level adds to the proof. -/
def stepAt (l : List Bytes) (i : Nat) : List (Bytes × Bytes) :=
  if i = l.length - 1 ∧ l.length % 2 = 1 then []
  else if i % 2 = 1 then (l[i - 1]?.map fun s => (left, hexOf s)).toList
  else (l[i + 1]?.map fun s => (right, hexOf s)).toList

theorem stepAt_take (l : List Bytes) (i k : Nat) (hk : k % 2 = 0) (hi : i < k) (hl : k < l.length) :
    stepAt (l.take k) i = stepAt l i := by
  unfold stepAt
  have c1 : ¬ (i = (l.take k).length - 1 ∧ (l.take k).length % 2 = 1) := by rw [List.length_take]; omega
  have c2 : ¬ (i = l.length - 1 ∧ l.length % 2 = 1) := by omega
  rw [if_neg c1, if_neg c2]
  by_cases h : i % 2 = 1
  · rw [if_pos h, if_pos h, List.getElem?_take_of_lt (by omega)]
  · rw [if_neg h, if_neg h, List.getElem?_take_of_lt (by omega)]

theorem stepAt_drop (l : List Bytes) (i k : Nat) (hk : k % 2 = 0) (hi : k ≤ i) (hl : i < l.length) :
    stepAt (l.drop k) (i - k) = stepAt l i := by
  unfold stepAt
  rw [List.length_drop]
  by_cases h0 : i = l.length - 1 ∧ l.length % 2 = 1
  · rw [if_pos h0, if_pos (by omega)]
  · rw [if_neg h0, if_neg (by omega)]
    by_cases h : i % 2 = 1
    · rw [if_pos h, if_pos (by omega), List.getElem?_drop, show k + (i - k - 1) = i - 1 by omega]
    · rw [if_neg h, if_neg (by omega), List.getElem?_drop, show k + (i - k + 1) = i + 1 by omega]

theorem rfcPath_next (H : HashFn) : ∀ (n : Nat) (l : List Bytes) (i : Nat), l.length ≤ n → 2 ≤ l.length →
    i < l.length → rfcPath H l i = stepAt l i ++ rfcPath H (nextLevel H l) (i / 2)
  | 0, l, i, h, h', _ => by omega
  | n + 1, l, i, h, h', hi => by
    by_cases h3 : 3 ≤ l.length
    · have hs := splitPoint_half l.length h3
      obtain ⟨_, h1, h2⟩ := splitPoint_spec l.length h'
      have hp := splitPoint_pos l.length h'
      have hnl := nextLevel_length H l
      rw [rfcPath_split H l i h', rfcPath_split H (nextLevel H l) (i / 2) (by omega), hnl]
      have hsplit : nextLevel H l = nextLevel H (l.take (splitPoint l.length)) ++
          nextLevel H (l.drop (splitPoint l.length)) := by
        rw [← nextLevel_append H _ _ (by rw [List.length_take]; omega), List.take_append_drop]
      have hlen : (nextLevel H (l.take (splitPoint l.length))).length = splitPoint ((l.length + 1) / 2) := by
        rw [nextLevel_length, List.length_take]; omega
      have e1 : rfcRoot H (nextLevel H (l.take (splitPoint l.length))) =
          rfcRoot H (l.take (splitPoint l.length)) :=
        rfcRoot_next H n _ (by rw [List.length_take]; omega) (by rw [List.length_take]; omega)
      have e2 : rfcRoot H (nextLevel H (l.drop (splitPoint l.length))) =
          rfcRoot H (l.drop (splitPoint l.length)) := by
        by_cases hb : 2 ≤ (l.drop (splitPoint l.length)).length
        · exact rfcRoot_next H n _ (by rw [List.length_drop]; omega) hb
        · have : (l.drop (splitPoint l.length)).length = 1 := by
            rw [List.length_drop] at hb ⊢; omega
          obtain ⟨x, hx⟩ := List.length_eq_one_iff.mp this
          rw [hx, nextLevel_one]
      have ht : (nextLevel H l).take (splitPoint ((l.length + 1) / 2)) =
          nextLevel H (l.take (splitPoint l.length)) := by
        rw [hsplit, ← hlen, List.take_left]
      have hd : (nextLevel H l).drop (splitPoint ((l.length + 1) / 2)) =
          nextLevel H (l.drop (splitPoint l.length)) := by
        rw [hsplit, ← hlen, List.drop_left]
      rw [ht, hd, e1, e2]
      by_cases hik : i < splitPoint l.length
      · rw [if_pos hik, if_pos (by omega),
          rfcPath_next H n _ i (by rw [List.length_take]; omega) (by rw [List.length_take]; omega)
            (by rw [List.length_take]; omega),
          stepAt_take l i _ (by omega) hik h1, List.append_assoc]
      · rw [if_neg hik, if_neg (by omega), ← stepAt_drop l i _ (by omega) (Nat.le_of_not_lt hik) hi]
        by_cases hb : 2 ≤ (l.drop (splitPoint l.length)).length
        · rw [rfcPath_next H n _ (i - splitPoint l.length) (by rw [List.length_drop]; omega) hb
            (by rw [List.length_drop]; omega), List.append_assoc,
            show (i - splitPoint l.length) / 2 = i / 2 - splitPoint ((l.length + 1) / 2) by omega]
        · have hb' : (l.drop (splitPoint l.length)).length = 1 := by
            rw [List.length_drop] at hb ⊢; omega
          obtain ⟨x, hx⟩ := List.length_eq_one_iff.mp hb'
          rw [hx, nextLevel_one, rfcPath_short H [x] _ (by simp), rfcPath_short H [x] _ (by simp)]
          rw [List.length_drop] at hb'
          have : i - splitPoint l.length = 0 := by omega
          rw [this]
          rfl
    · have h2 : l.length = 2 := by omega
      obtain ⟨a, b, rfl⟩ : ∃ a b, l = [a, b] := by
        match l, h2 with
        | [a, b], _ => exact ⟨a, b, rfl⟩
      rw [nextLevel_cons, nextLevel_nil, rfcPath_short H [_] _ (by simp), List.append_nil]
      have : i = 0 ∨ i = 1 := by simp at hi; omega
      rcases this with rfl | rfl
      · rfl
      · rw [rfcPath_split H [a, b] 1 (by simp), show splitPoint [a, b].length = 1 from rfl, if_neg (by omega)]
        simp [stepAt, rfcPath_short, rfcRoot_one]

/-- The loop over the levels of a built tree gives the audit path. -/
theorem proofLoop_path (H : HashFn) : ∀ (n : Nat) (l : List Bytes) (i : Nat), i < l.length → l.length ≤ n →
    proofLoop (climb H n l).dropLast i = .ok (rfcPath H l i)
  | 0, l, i, hi, hn => by omega
  | n + 1, l, i, hi, hn => by
    by_cases hl : l.length > 1
    · rw [climb_dropLast H n l hl, rfcPath_next H _ l i (Nat.le_refl _) hl hi]
      have hnl := nextLevel_length H l
      have ih := proofLoop_path H n (nextLevel H l) (i / 2) (by omega) (by omega)
      rw [proofLoop, stepAt]
      by_cases h0 : i = l.length - 1 ∧ l.length % 2 = 1
      · rw [if_pos h0, if_pos h0, ih]; rfl
      · rw [if_neg h0, if_neg h0, ih]
        by_cases hodd : i % 2 = 1
        · have hs : l[i - 1]? = some (l[i - 1]'(by omega)) := List.getElem?_eq_getElem _
          simp [hodd, pyIndex, hs]
        · have hs : l[i + 1]? = some (l[i + 1]'(by omega)) := List.getElem?_eq_getElem _
          simp [hodd, pyIndex, hs]
    · rw [rfcPath_short H l i (by omega)]
      simp [climb, hl, proofLoop]

theorem idxOf?_first (l : List Bytes) (x : Bytes) (h : x ∈ l) :
    ∃ i, l.idxOf? x = some i ∧ l[i]? = some x ∧ ∀ j < i, l[j]? ≠ some x := by
  induction l with
  | nil => simp at h
  | cons a l ih =>
    by_cases ha : a = x
    · exact ⟨0, by simp [List.idxOf?_cons, ha], by simp [ha], by simp⟩
    · obtain ⟨i, h1, h2, h3⟩ := ih (by rcases List.mem_cons.mp h with rfl | h; exact absurd rfl ha; exact h)
      refine ⟨i + 1, by simp [List.idxOf?_cons, ha, h1], by simp [h2], fun j hj => ?_⟩
      cases j with
      | zero => simpa using ha
      | succ j => simpa using h3 j (by omega)

theorem built_audit (H : HashFn) (secure : Bool) (l : List Bytes) (now v : Bytes) (i : Nat)
    (hi : l[i]? = some (leafOf H secure v)) (hf : ∀ j < i, l[j]? ≠ some (leafOf H secure v)) :
    getPoi H now v (built H secure l) = (.ok { type := mtPoi, timestamp := now, targetKey := v, trieRoot := hexOf (rfcRoot H l), proof := rfcPath H l i }, built H secure l) := by
  have hlt : i < l.length := (List.getElem?_eq_some_iff.mp hi).1
  have hne : l ≠ [] := by rintro rfl; simp at hlt
  obtain ⟨i', h1, h2, h3⟩ := idxOf?_first l _ (List.mem_of_getElem? hi)
  have : i' = i := by
    rcases Nat.lt_trichotomy i' i with h | h | h
    · exact absurd h2 (hf i' h)
    · exact h
    · exact absurd hi (h3 i h)
  subst this
  have hp : (built H secure l).proofRaw H v = .ok (rfcPath H l i') := by
    unfold proofRaw
    rw [show (built H secure l).leaves = l from rfl, show (built H secure l).secure = secure from rfl, h1]
    simp only
    rw [built_levels, show (built H secure l).ready = true from rfl]
    simp only [List.reverse_reverse]
    exact proofLoop_path H _ l _ hlt (Nat.le_refl _)
  unfold getPoi
  simp [hp, built_root H secure l hne]

theorem rfcPath_length_le (H : HashFn) : ∀ (k : Nat) (l : List Bytes) (i : Nat), l.length ≤ 2 ^ k →
    (rfcPath H l i).length ≤ k
  | 0, l, i, h => by rw [rfcPath_short H l i (by simp at h; omega)]; simp
  | k + 1, l, i, h => by
    by_cases hl : l.length < 2
    · rw [rfcPath_short H l i hl]; simp
    · obtain ⟨⟨e, he⟩, h1, h2⟩ := splitPoint_spec l.length (by omega)
      have hp : 2 ^ (k + 1) = 2 * 2 ^ k := by rw [Nat.pow_succ]; omega
      have hek : splitPoint l.length ≤ 2 ^ k := by
        rw [he] at h1 ⊢
        have : 2 ^ e < 2 ^ (k + 1) := by omega
        have := (Nat.pow_lt_pow_iff_right (by omega)).mp this
        exact Nat.pow_le_pow_right (by omega) (by omega)
      rw [rfcPath_split H l i (by omega)]
      split
      · have := rfcPath_length_le H k (l.take (splitPoint l.length)) i (by rw [List.length_take]; omega)
        rw [List.length_append, List.length_singleton]; omega
      · have := rfcPath_length_le H k (l.drop (splitPoint l.length)) (i - splitPoint l.length)
          (by rw [List.length_drop]; omega)
        rw [List.length_append, List.length_singleton]; omega

/-- The leaves of the left, complete subtree have the longest paths. -/
theorem rfcPath_length_full (H : HashFn) : ∀ (k : Nat) (l : List Bytes) (i : Nat), l.length = 2 ^ k → i < l.length →
    (rfcPath H l i).length = k
  | 0, l, i, h, _ => by rw [rfcPath_short H l i (by simp at h; omega)]; simp
  | k + 1, l, i, h, hi => by
    have hp : 2 ^ (k + 1) = 2 * 2 ^ k := by rw [Nat.pow_succ]; omega
    have h0 := Nat.two_pow_pos k
    have hs : splitPoint l.length = 2 ^ k := by rw [h, splitPoint_pow]
    rw [rfcPath_split H l i (by omega), hs]
    split
    · rw [List.length_append, List.length_singleton,
        rfcPath_length_full H k _ i (by rw [List.length_take]; omega) (by rw [List.length_take]; omega)]
    · rw [List.length_append, List.length_singleton,
        rfcPath_length_full H k _ _ (by rw [List.length_drop]; omega) (by rw [List.length_drop]; omega)]

theorem rfcPath_length_left (H : HashFn) (l : List Bytes) (i k : Nat) (hi : i < 2 ^ k) (hk : 2 ^ k < l.length)
    (hk' : l.length ≤ 2 * 2 ^ k) : (rfcPath H l i).length = k + 1 := by
  have h0 := Nat.two_pow_pos k
  obtain ⟨⟨e, he⟩, h1, h2⟩ := splitPoint_spec l.length (by omega)
  rw [he] at h1 h2
  have : e = k := pow_unique h1 h2 hk hk'
  subst this
  rw [rfcPath_split H l i (by omega), he, if_pos hi, List.length_append, List.length_singleton,
    rfcPath_length_full H e _ i (by rw [List.length_take]; omega) (by rw [List.length_take]; omega)]

/-! ### Trees extended after they were built -/

theorem stale_levels (H : HashFn) (secure : Bool) (l more : List Bytes) :
    (stale H secure l more).levels = some ((climb H l.length l).tail.reverse ++ [l ++ more]) := by
  have hup : (buildLevels H l.length [l]).dropLast = (climb H l.length l).tail.reverse := by
    rw [buildLevels_eq, List.append_nil, climb_head H l.length l, List.reverse_cons, List.dropLast_concat]
    rfl
  simp [levels, stale, hup]

theorem stale_root' (H : HashFn) (secure : Bool) (l more : List Bytes) (h : l ≠ []) :
    root H (stale H secure l more) = (.ok (hexOf (rfcRoot H l)), stale H secure l more) := by
  rw [root_apply, if_pos (show (stale H secure l more).ready = true from rfl), stale_root H secure l more h]

theorem stale_verify (H : HashFn) (secure : Bool) (l more : List Bytes) (hne : l ≠ [])
    (ty now v : Bytes) (ps : List (Bytes × Bytes)) (h : Entries ps) :
    verifyPoi H { type := ty, timestamp := now, targetKey := v, trieRoot := hexOf (rfcRoot H l), proof := ps }
      (stale H secure l more) =
    (match verifyRaw H ps v (rfcRoot H l) with
      | .ok b => .ok b
      | .error e => if isValueError e then .ok false else .error e, stale H secure l more) := by
  unfold verifyPoi
  simp only [decodeEntries_ok ps h, M.bind_apply, M.lift_apply, decodeUtf8_hexOf, fromHex_hexOf]
  cases hr : verifyRaw H ps v (rfcRoot H l) with
  | error e => cases he : isValueError e <;> simp [he]
  | ok b =>
    cases b
    · simp
    · simp [stale_root' H secure l more hne]

/-- The levels the loop of an extended tree goes over. -/
theorem stale_upper (H : HashFn) (l more : List Bytes) (h : 1 < l.length) :
    ((climb H l.length l).tail.reverse ++ [l ++ more]).reverse.dropLast =
      (l ++ more) :: (climb H (l.length - 1) (nextLevel H l)).dropLast := by
  obtain ⟨n, hn⟩ : ∃ n, l.length = n + 1 := ⟨l.length - 1, by omega⟩
  have e : climb H l.length l = l :: climb H (l.length - 1) (nextLevel H l) := by
    rw [hn, show n + 1 - 1 = n by omega]; simp [climb, h]
  rw [e, List.tail_cons, List.reverse_append, List.reverse_reverse, List.reverse_singleton, List.singleton_append,
    climb_head H (l.length - 1) (nextLevel H l), List.dropLast_cons_cons]

/-- One round of the loop. -/
theorem proofLoop_step (level : List Bytes) (up : List (List Bytes)) (i : Nat) (hi : i < level.length) :
    proofLoop (level :: up) i = (proofLoop up (i / 2)).map (stepAt level i ++ ·) := by
  rw [proofLoop, stepAt]
  by_cases h0 : i = level.length - 1 ∧ level.length % 2 = 1
  · rw [if_pos h0, if_pos h0]
    cases proofLoop up (i / 2) <;> rfl
  · rw [if_neg h0, if_neg h0]
    by_cases hodd : i % 2 = 1
    · have hs : level[i - 1]? = some (level[i - 1]'(by omega)) := List.getElem?_eq_getElem _
      simp only [hodd, if_true, pyIndex, hs, Except.bind_ok']
      cases proofLoop up (i / 2) <;> rfl
    · have hs : level[i + 1]? = some (level[i + 1]'(by omega)) := List.getElem?_eq_getElem _
      simp only [hodd, if_false, pyIndex, hs, Except.bind_ok']
      cases proofLoop up (i / 2) <;> rfl

/-- Past the end of a level there is no sibling, except one place after the end of an odd level. -/
theorem proofLoop_beyond (level : List Bytes) (up : List (List Bytes)) (i : Nat) (hi : level.length < i) :
    proofLoop (level :: up) i = .error .indexError := by
  rw [proofLoop, if_neg (by omega)]
  have : level[if i % 2 = 1 then i - 1 else i + 1]? = none := by
    rw [List.getElem?_eq_none_iff]; split <;> omega
  simp [pyIndex, this]

theorem stale_proofRaw (H : HashFn) (secure : Bool) (l more : List Bytes) (v : Bytes) (i : Nat)
    (hi : (l ++ more)[i]? = some (leafOf H secure v))
    (hf : ∀ j < i, (l ++ more)[j]? ≠ some (leafOf H secure v)) :
    (stale H secure l more).proofRaw H v =
      proofLoop ((climb H l.length l).tail.reverse ++ [l ++ more]).reverse.dropLast i := by
  obtain ⟨i', h1, h2, h3⟩ := idxOf?_first (l ++ more) _ (List.mem_of_getElem? hi)
  have : i' = i := by
    rcases Nat.lt_trichotomy i' i with h | h | h
    · exact absurd h2 (hf i' h)
    · exact h
    · exact absurd hi (h3 i h)
  subst this
  unfold proofRaw
  rw [show (stale H secure l more).leaves = l ++ more from rfl,
    show (stale H secure l more).secure = secure from rfl, h1]
  simp only
  rw [stale_levels, show (stale H secure l more).ready = true from rfl]

/-- The proof of a leaf that was there when the tree was built. -/
theorem stale_old (H : HashFn) (secure : Bool) (l more : List Bytes) (now v : Bytes) (i : Nat)
    (hi : l[i]? = some (leafOf H secure v)) (hf : ∀ j < i, l[j]? ≠ some (leafOf H secure v)) :
    getPoi H now v (stale H secure l more) = (.ok { type := mtPoi, timestamp := now, targetKey := v, trieRoot := hexOf (rfcRoot H l), proof := if l.length = 1 then [] else stepAt (l ++ more) i ++ rfcPath H (nextLevel H l) (i / 2) }, stale H secure l more) := by
  have hlt : i < l.length := (List.getElem?_eq_some_iff.mp hi).1
  have hne : l ≠ [] := by rintro rfl; simp at hlt
  have hp : (stale H secure l more).proofRaw H v =
      .ok (if l.length = 1 then [] else stepAt (l ++ more) i ++ rfcPath H (nextLevel H l) (i / 2)) := by
    rw [stale_proofRaw H secure l more v i (by rw [List.getElem?_append_left hlt]; exact hi)
      (fun j hj => by rw [List.getElem?_append_left (by omega)]; exact hf j hj)]
    by_cases h1 : l.length = 1
    · obtain ⟨x, rfl⟩ := List.length_eq_one_iff.mp h1
      simp [climb, proofLoop]
    · rw [if_neg h1, stale_upper H l more (by omega), proofLoop_step _ _ _ (by rw [List.length_append]; omega),
        proofLoop_path H _ _ _ (by rw [nextLevel_length]; omega) (by rw [nextLevel_length]; omega)]
      rfl
  unfold getPoi
  simp [hp, stale_root' H secure l more hne]

theorem stepAt_append (l more : List Bytes) (i : Nat) (hi : i < l.length)
    (h : more = [] ∨ i + 1 < l.length ∨ l.length % 2 = 0) : stepAt (l ++ more) i = stepAt l i := by
  rcases h with rfl | h
  · rw [List.append_nil]
  · have c2 : ¬ (i = l.length - 1 ∧ l.length % 2 = 1) := by omega
    have c1 : ¬ (i = (l ++ more).length - 1 ∧ (l ++ more).length % 2 = 1) := by
      rw [List.length_append]
      intro hh
      cases more with
      | nil => exact c2 (by simpa using hh)
      | cons a m => rw [List.length_cons] at hh; omega
    unfold stepAt
    rw [if_neg c1, if_neg c2]
    by_cases ho : i % 2 = 1
    · rw [if_pos ho, if_pos ho, List.getElem?_append_left (by omega)]
    · rw [if_neg ho, if_neg ho, List.getElem?_append_left (by omega)]

/-- A leaf added later, three or more places after the end. -/
theorem stale_new (H : HashFn) (secure : Bool) (l more : List Bytes) (now v : Bytes) (j : Nat) (hl : 3 ≤ l.length)
    (hj : 3 ≤ j) (hi : more[j]? = some (leafOf H secure v)) (hn : leafOf H secure v ∉ l)
    (hf : ∀ k < j, more[k]? ≠ some (leafOf H secure v)) :
    getPoi H now v (stale H secure l more) = (.error .indexError, stale H secure l more) := by
  have hlt : j < more.length := (List.getElem?_eq_some_iff.mp hi).1
  have hp : (stale H secure l more).proofRaw H v = .error .indexError := by
    rw [stale_proofRaw H secure l more v (l.length + j)
      (by rw [List.getElem?_append_right (by omega), Nat.add_sub_cancel_left]; exact hi)
      (fun k hk => by
        by_cases hkl : k < l.length
        · rw [List.getElem?_append_left hkl]
          intro h; exact hn (List.mem_of_getElem? h)
        · rw [List.getElem?_append_right (by omega)]
          exact hf _ (by omega))]
    rw [stale_upper H l more (by omega), proofLoop_step _ _ _ (by rw [List.length_append]; omega)]
    obtain ⟨n, hnn⟩ : ∃ n, l.length - 1 = n + 1 := ⟨l.length - 2, by omega⟩
    rw [hnn, climb_dropLast H n _ (by rw [nextLevel_length]; omega),
      proofLoop_beyond _ _ _ (by rw [nextLevel_length]; omega)]
    rfl
  unfold getPoi
  simp [hp]

/-- The loop started one place after the end of a level. -/
theorem proofLoop_past (H : HashFn) (n : Nat) (l : List Bytes) (h : 1 < l.length) (hn : l.length ≤ n) :
    proofLoop (climb H n l).dropLast l.length =
      if l.length % 2 = 0 then .error .indexError
      else .ok ((l.getLast?.map fun s => (left, hexOf s)).toList ++ rfcPath H l (l.length - 1)) := by
  obtain ⟨m, rfl⟩ : ∃ m, n = m + 1 := ⟨n - 1, by omega⟩
  have hnl := nextLevel_length H l
  rw [climb_dropLast H m l h, proofLoop, if_neg (by omega)]
  by_cases he : l.length % 2 = 0
  · rw [if_pos he]
    have : l[l.length + 1]? = none := by rw [List.getElem?_eq_none_iff]; omega
    simp [he, pyIndex, this]
  · rw [if_neg he]
    have ho : l.length % 2 = 1 := by omega
    have hs : l[l.length - 1]? = some (l[l.length - 1]'(by omega)) := List.getElem?_eq_getElem _
    have hlast : l.getLast? = some (l[l.length - 1]'(by omega)) := by rw [List.getLast?_eq_getElem?, hs]
    have hstep : stepAt l (l.length - 1) = [] := by unfold stepAt; rw [if_pos ⟨rfl, ho⟩]
    rw [rfcPath_next H _ l (l.length - 1) (Nat.le_refl _) (by omega) (by omega), hstep, List.nil_append, hlast,
      show (l.length - 1) / 2 = l.length / 2 by omega]
    have ih := proofLoop_path H m (nextLevel H l) (l.length / 2) (by omega) (by omega)
    simp [ho, pyIndex, hs, ih]

/-- The proof of a leaf added later. -/
theorem stale_later (H : HashFn) (secure : Bool) (l more : List Bytes) (now v : Bytes) (j : Nat) (hl : l ≠ [])
    (hi : more[j]? = some (leafOf H secure v)) (hn : leafOf H secure v ∉ l)
    (hf : ∀ k < j, more[k]? ≠ some (leafOf H secure v)) :
    getPoi H now v (stale H secure l more) =
      ((proofLoop ((climb H l.length l).tail.reverse ++ [l ++ more]).reverse.dropLast (l.length + j)).map
        fun ps => { type := mtPoi, timestamp := now, targetKey := v, trieRoot := hexOf (rfcRoot H l), proof := ps },
        stale H secure l more) := by
  have hp := stale_proofRaw H secure l more v (l.length + j)
      (by rw [List.getElem?_append_right (by omega), Nat.add_sub_cancel_left]; exact hi)
      (fun k hk => by
        by_cases hkl : k < l.length
        · rw [List.getElem?_append_left hkl]
          intro h; exact hn (List.mem_of_getElem? h)
        · rw [List.getElem?_append_right (by omega)]
          exact hf _ (by omega))
  unfold getPoi
  cases hr : proofLoop ((climb H l.length l).tail.reverse ++ [l ++ more]).reverse.dropLast (l.length + j) with
  | error e => rw [hr] at hp; simp only [M.bind_apply, M.get_apply, M.lift_apply, hp]; rfl
  | ok ps =>
    rw [hr] at hp
    simp only [M.bind_apply, M.get_apply, M.lift_apply, hp, stale_root' H secure l more hl]; rfl

theorem entries_path (H : HashFn) (l : List Bytes) (i : Nat) (hi : i < l.length) : Entries (rfcPath H l i) := by
  obtain ⟨ps, h1, h2, _⟩ := proofLoop_ok H l.length l i l[i] (List.getElem?_eq_getElem hi) (Nat.le_refl _)
  rw [proofLoop_path H _ l i hi (Nat.le_refl _)] at h1
  cases h1
  exact h2

theorem fold_path (H : HashFn) (l : List Bytes) (i : Nat) (x : Bytes) (hx : l[i]? = some x) :
    foldProof H (rfcPath H l i) x = .ok (rfcRoot H l) := by
  have hi : i < l.length := (List.getElem?_eq_some_iff.mp hx).1
  obtain ⟨ps, h1, _, h3⟩ := proofLoop_ok H l.length l i x hx (Nat.le_refl _)
  rw [proofLoop_path H _ l i hi (Nat.le_refl _)] at h1
  cases h1
  rw [h3, rootVal_rfc H _ l (by rintro rfl; simp at hi) (Nat.le_refl _)]

theorem after_extended (H : HashFn) (secure : Bool) (ops : List MOp) (vs : List Bytes) (h : held ops ≠ []) :
    after H secure (ops ++ [.make] ++ vs.map .put) =
      stale H secure ((held ops).map (leafOf H secure)) (vs.map (leafOf H secure)) := by
  have h0 := after_make H secure ops h
  unfold after at h0 ⊢
  rw [run_append, h0, run_puts]
  rfl

/-- Before the first `make_tree` there are no proofs. -/
theorem proofRaw_unready (H : HashFn) (t : MTree) (v : Bytes) (h : t.ready = false) :
    t.proofRaw H v = .error .valueError := by
  unfold proofRaw
  rw [h]
  cases List.idxOf? (leafOf H t.secure v) t.leaves <;> rfl

end Pymt.MTree
