import Verif.Model.Timestamps

/-!
# Properties C148 and C149: timestamps
-/

namespace Pymt.Props

/-- **C148** A timestamp can be read back: `from_timstamp_string(get_timestamp_string())` is what
`get_datetime_stamp()` gives at the same time, without the fraction of the second. -/
def C148 : Prop :=
  ∀ (c : Calendar) (now : Moment), now.Proper → 1000 ≤ now.year →
    fromTimestampString c (timestampString c now) = .ok { datetimeStamp c now with micro := 0 }

/-- A moment. -/
def sampleMoment : Moment :=
  { year := 2024, month := 2, day := 29, hour := 23, minute := 5, second := 59, micro := 123456, utc := false }

example : sampleMoment.Proper ∧ 1000 ≤ sampleMoment.year := by decide

/-- Without Django no timestamp can be read, whatever the text is. -/
theorem C148_plain (text : List Nat) : fromTimestampString .plain text = .error .attributeError := rfl

/-- `get_datetime_stamp` is the time on the clock; it is naive except with Django and `USE_TZ`. -/
theorem C148_stamp (c : Calendar) (now : Moment) :
    { datetimeStamp c now with utc := now.utc } = now ∧ ((datetimeStamp c now).utc = true ↔ c = .django true) := by
  refine ⟨rfl, ?_⟩
  cases c with
  | plain => exact ⟨nofun, nofun⟩
  | django u => cases u <;> simp [datetimeStamp, Calendar.aware]

example : datetimeStamp .plain sampleMoment = sampleMoment ∧ datetimeStamp (.django true) sampleMoment ≠ sampleMoment := by decide

/-- The property is false. -/
theorem C148_false : ¬ C148 := by
  intro h
  have := h .plain sampleMoment (by decide) (by decide)
  exact absurd this nofun

theorem digitOf_digit {n : Nat} (h : n < 10) : digitOf (digit n) = some n := by
  simp [digitOf, digit]; omega

theorem orElse_some {α : Type} {a : Option α} {v : α} (b : Option α) (h : a = some v) : (a <|> b) = some v := by
  subst h; rfl

theorem patNum_two {α : Type} {ok2 : Nat → Nat → Bool} {ok1 : Nat → Bool} {k : Nat → List Nat → Option α} {n : Nat}
    {r : List Nat} {v : α} (hn : n < 100) (h2 : ok2 (n / 10) (n % 10) = true) (hk : k n r = some v) :
    patNum ok2 ok1 k (two n ++ r) = some v := by
  have e : 10 * (n / 10) + n % 10 = n := by omega
  simp only [two, List.cons_append, List.nil_append, patNum, digitOf_digit (show n / 10 < 10 by omega),
    digitOf_digit (show n % 10 < 10 by omega), h2, if_true, e]
  exact orElse_some _ hk

theorem patYear_four {α : Type} {k : Nat → List Nat → Option α} {y : Nat} {r : List Nat} (hy : y < 10000) :
    patYear k (two (y / 100) ++ (two (y % 100) ++ r)) = k y r := by
  have e : 1000 * (y / 100 / 10) + 100 * (y / 100 % 10) + 10 * (y % 100 / 10) + y % 100 % 10 = y := by omega
  simp only [two, List.cons_append, List.nil_append, patYear, digitOf_digit (show y / 100 / 10 < 10 by omega),
    digitOf_digit (show y / 100 % 10 < 10 by omega), digitOf_digit (show y % 100 / 10 < 10 by omega),
    digitOf_digit (show y % 100 % 10 < 10 by omega), e]

theorem patSpace_one {α : Type} {k : List Nat → Option α} {x : Nat} {r : List Nat} (hx : ¬ (x = 32 ∨ 9 ≤ x ∧ x ≤ 13)) :
    patSpace k (32 :: x :: r) = k (x :: r) := by
  simp [patSpace, hx]

theorem daysIn_le (y m : Nat) : daysIn y m ≤ 31 := by
  unfold daysIn; split <;> split <;> omega

/-- What the format of an aware moment is read as. -/
theorem matchFormat_format (m : Moment) (h : m.Proper) (hu : m.utc = true) :
    matchFormat m.format = some ({ m with micro := 0 }, []) := by
  obtain ⟨_, hy, hm1, hm2, hd1, hd2, hh, hmi, hs, _⟩ := h
  have := daysIn_le m.year m.month
  have hd3 : m.day ≤ 31 := by omega
  obtain ⟨year, month, day, hour, minute, second, micro, utc⟩ := m
  simp only at *
  subst hu
  simp only [Moment.format, List.append_assoc, if_true]
  unfold matchFormat
  rw [patYear_four (by omega)]
  show patChar 45 _ (45 :: _) = _
  simp only [patChar, if_true]
  refine patNum_two (by omega) (by simp; omega) ?_
  show patChar 45 _ (45 :: _) = _
  simp only [patChar, if_true]
  refine orElse_some _ (patNum_two (by omega) (by simp; omega) ?_)
  show patSpace _ (32 :: digit (hour / 10) :: _) = _
  rw [patSpace_one (by simp [digit]; omega)]
  refine patNum_two (n := hour) (by omega) (by simp; omega) ?_
  show patChar 58 _ (58 :: _) = _
  simp only [patChar, if_true]
  refine patNum_two (n := minute) (by omega) (by simp; omega) ?_
  show patChar 58 _ (58 :: _) = _
  simp only [patChar, if_true]
  refine patNum_two (n := second) (by omega) (by simp; omega) ?_
  rfl

/-- C148 with Django and `USE_TZ`: the timestamp is read back, at every moment of the years with four digits. -/
theorem C148_partial (now : Moment) (h : now.Proper) (_ : 1000 ≤ now.year) :
    fromTimestampString (.django true) (timestampString (.django true) now) =
      .ok { datetimeStamp (.django true) now with micro := 0 } := by
  have hp : { now with utc := true }.Proper := h
  simp only [fromTimestampString, timestampString, Calendar.aware, strptime, matchFormat_format _ hp rfl, datetimeStamp]
  rw [if_pos]
  exact ⟨h.1, h.2.1, h.2.2.1, h.2.2.2.1, h.2.2.2.2.1, h.2.2.2.2.2.1, h.2.2.2.2.2.2.1, h.2.2.2.2.2.2.2.1,
    h.2.2.2.2.2.2.2.2.1, show 0 < 1000000 by decide⟩

-- A leap day, one second before midnight.
example : fromTimestampString (.django true) (timestampString (.django true) sampleMoment) =
    .ok { sampleMoment with micro := 0, utc := true } := by decide +kernel

theorem patNum_none {α : Type} {ok2 : Nat → Nat → Bool} {ok1 : Nat → Bool} {k : Nat → List Nat → Option α} {n : Nat}
    {r : List Nat} (hn : n < 100) (hk : k n r = none) (h1 : ∀ a, k a (digit (n % 10) :: r) = none) :
    patNum ok2 ok1 k (two n ++ r) = none := by
  have e : 10 * (n / 10) + n % 10 = n := by omega
  simp only [two, List.cons_append, List.nil_append, patNum, digitOf_digit (show n / 10 < 10 by omega),
    digitOf_digit (show n % 10 < 10 by omega), e, hk, h1]
  simp

theorem patChar_digit {α : Type} {c n : Nat} {k : List Nat → Option α} {r : List Nat} (hc : c < 48 ∨ 57 < c) (hn : n < 10) :
    patChar c k (digit n :: r) = none := by
  have : digit n ≠ c := by unfold digit; omega
  simp [patChar, this]

theorem patSpace_digit {α : Type} {n : Nat} {k : List Nat → Option α} {r : List Nat} :
    patSpace k (digit n :: r) = none := by
  simp [patSpace, digit]; omega

/-- The format of a naive moment does not match: it has no offset. -/
theorem matchFormat_naive (m : Moment) (h : m.Proper) (hu : m.utc = false) : matchFormat m.format = none := by
  obtain ⟨_, hy, hm1, hm2, hd1, hd2, hh, hmi, hs, _⟩ := h
  have := daysIn_le m.year m.month
  have hd3 : m.day ≤ 31 := by omega
  obtain ⟨year, month, day, hour, minute, second, micro, utc⟩ := m
  simp only at *
  subst hu
  simp only [Moment.format, List.append_assoc, Bool.false_eq_true, if_false]
  unfold matchFormat
  rw [patYear_four (by omega)]
  show patChar 45 _ (45 :: _) = _
  simp only [patChar, if_true]
  refine patNum_none (by omega) ?_ fun _ => patChar_digit (.inl (by decide)) (by omega)
  show patChar 45 _ (45 :: _) = _
  simp only [patChar, if_true]
  have h32 : ∀ (k : List Nat → Option (Moment × List Nat)) r, patChar 32 k (two day ++ r) = none := fun k r =>
    patChar_digit (.inl (by decide)) (by omega)
  simp only [List.append_eq, List.nil_append]
  show (patNum _ _ _ _ <|> patChar 32 _ (two day ++ _)) = none
  rw [h32, patNum_none (by omega) ?_ fun _ => patSpace_digit]
  · rfl
  show patSpace _ (32 :: digit (hour / 10) :: _) = _
  rw [patSpace_one (by simp [digit]; omega)]
  refine patNum_none (n := hour) (by omega) ?_ fun _ => patChar_digit (.inr (by decide)) (by omega)
  show patChar 58 _ (58 :: _) = _
  simp only [patChar, if_true]
  refine patNum_none (n := minute) (by omega) ?_ fun _ => patChar_digit (.inr (by decide)) (by omega)
  show patChar 58 _ (58 :: _) = _
  simp only [patChar, if_true]
  refine patNum_none (n := second) (by omega) ?_ fun _ => patSpace_digit
  rfl

/-- With Django, but without `USE_TZ`, no timestamp can be read back: ValueError at every moment. -/
theorem C148_naive (now : Moment) (h : now.Proper) (_ : 1000 ≤ now.year) :
    fromTimestampString (.django false) (timestampString (.django false) now) = .error .valueError := by
  have hp : { now with utc := false }.Proper := h
  simp only [fromTimestampString, timestampString, Calendar.aware, strptime, matchFormat_naive _ hp rfl]

-- The same leap day.
example : fromTimestampString (.django false) (timestampString (.django false) sampleMoment) = .error .valueError := by
  decide +kernel

/-- One moment is before another on the clock, by whole seconds. -/
def Moment.Before (a b : Moment) : Prop :=
  a.year < b.year ∨ a.year = b.year ∧ (a.month < b.month ∨ a.month = b.month ∧ (a.day < b.day ∨ a.day = b.day ∧
    (a.hour < b.hour ∨ a.hour = b.hour ∧ (a.minute < b.minute ∨ a.minute = b.minute ∧ a.second < b.second))))

theorem two_lt {m n : Nat} (hm : m < 100) (hn : n < 100) (r s : List Nat) :
    two m ++ r < two n ++ s ↔ m < n ∨ m = n ∧ r < s := by
  simp only [two, digit, List.cons_append, List.nil_append, List.cons_lt_cons_iff]
  by_cases h : r < s <;> simp only [h, and_true, and_false, or_false] <;> omega

theorem two_eq {m n : Nat} (hm : m < 100) (hn : n < 100) (r s : List Nat) :
    two m ++ r = two n ++ s ↔ m = n ∧ r = s := by
  simp only [two, digit, List.cons_append, List.nil_append, List.cons.injEq]
  by_cases h : r = s <;> simp only [h, and_true, and_false] <;> omega

theorem one_lt (c : Nat) (r s : List Nat) : [c] ++ r < [c] ++ s ↔ r < s := by
  simp [List.cons_lt_cons_iff]

/-- **C149** Timestamps, compared as texts or bytes, are ordered as what the clock shows, and equal exactly within one
second.  (Whether the clock itself can go back is another question: without `USE_TZ` it shows local time.) -/
theorem C149 (c : Calendar) (a b : Moment) (ha : a.Proper) (hb : b.Proper) (_ : 1000 ≤ a.year) (_ : 1000 ≤ b.year) :
    (timestampString c a < timestampString c b ↔ Moment.Before a b) ∧
    (timestampString c a = timestampString c b ↔ ¬ Moment.Before a b ∧ ¬ Moment.Before b a) := by
  obtain ⟨_, ay, am1, am2, ad1, ad2, ah, ami, as, _⟩ := ha
  obtain ⟨_, b_y, bm1, bm2, bd1, bd2, bh, bmi, bs, _⟩ := hb
  have := daysIn_le a.year a.month
  have := daysIn_le b.year b.month
  have hirr : ∀ l : List Nat, ¬ l < l := fun l => List.lt_irrefl l
  simp only [timestampString, Moment.format, List.append_assoc]
  constructor
  · rw [two_lt (by omega) (by omega), two_lt (by omega) (by omega), one_lt, two_lt (by omega) (by omega), one_lt,
      two_lt (by omega) (by omega), one_lt, two_lt (by omega) (by omega), one_lt, two_lt (by omega) (by omega), one_lt,
      two_lt (by omega) (by omega), iff_false_intro (hirr _), and_false, or_false]
    unfold Moment.Before
    generalize (a.month < b.month ∨ a.month = b.month ∧ _) = later
    by_cases h : later <;> simp only [h, and_true, and_false, or_false] <;> omega
  · rw [two_eq (by omega) (by omega), two_eq (by omega) (by omega), List.append_right_inj, two_eq (by omega) (by omega),
      List.append_right_inj, two_eq (by omega) (by omega), List.append_right_inj, two_eq (by omega) (by omega),
      List.append_right_inj, two_eq (by omega) (by omega), List.append_right_inj, two_eq (by omega) (by omega)]
    unfold Moment.Before
    simp only [and_true, eq_self]
    constructor
    · rintro ⟨h1, h2, h3, h4, h5, h6, h7⟩
      have h1 : a.year = b.year := by omega
      simp [h1, h3, h4, h5, h6, h7]
    · rintro ⟨h1, h2⟩
      have e1 : a.year = b.year := by omega
      simp only [e1, true_and, Nat.lt_irrefl, false_or] at h1 h2
      have e2 : a.month = b.month := by omega
      simp only [e2, true_and, Nat.lt_irrefl, false_or] at h1 h2
      have e3 : a.day = b.day := by omega
      simp only [e3, true_and, Nat.lt_irrefl, false_or] at h1 h2
      have e4 : a.hour = b.hour := by omega
      simp only [e4, true_and, Nat.lt_irrefl, false_or] at h1 h2
      exact ⟨by rw [e1], by rw [e1], e2, e3, e4, by omega, by omega⟩

-- Noon is after eleven, also as a text.
example : let a := { sampleMoment with hour := 11 }
    let b := { sampleMoment with hour := 12, minute := 0 }
    a.Proper ∧ b.Proper ∧ 1000 ≤ a.year ∧ 1000 ≤ b.year ∧ Moment.Before a b ∧
      timestampString .plain a < timestampString .plain b := by unfold Moment.Before; decide +kernel

end Pymt.Props
