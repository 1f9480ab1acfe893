import Verif.Model.Py

/-!
# Timestamps (`/repo/src/pymt/utils/utils.py:10-76`)

Texts are lists of code points.  Only ASCII digits and white space are considered.
-/

namespace Pymt

/-- A `datetime`: what `datetime.now()` returns (`/repo/src/pymt/utils/utils.py:34, 46`).  `utc` says that it is aware with
offset zero; otherwise it is naive.  Other time zones do not occur. -/
structure Moment where
  year : Nat
  month : Nat
  day : Nat
  hour : Nat
  minute : Nat
  second : Nat
  micro : Nat
  utc : Bool
  deriving DecidableEq, Repr

/-- What the name `datetime` means in the module, `/repo/src/pymt/utils/utils.py:10-14`: the class of the standard library,
or the module `django.utils.timezone`, with its setting `USE_TZ`. -/
inductive Calendar where
  | plain
  | django (useTz : Bool)
  deriving DecidableEq, Repr

/-- Whether `datetime.now()` is aware: only Django with `USE_TZ` gives a `datetime` in UTC
(`/repo/src/pymt/utils/utils.py:12-14, 34`). -/
def Calendar.aware : Calendar → Bool
  | .plain => false
  | .django useTz => useTz

/-- The digit `n` (`%Y`, `%m`, ... of `/repo/src/pymt/utils/utils.py:21`). -/
def digit (n : Nat) : Nat := 48 + n

/-- A number below 100 with two digits (`%m`, `%d`, `%H`, `%M`, `%S` of `/repo/src/pymt/utils/utils.py:21`). -/
def two (n : Nat) : List Nat := [digit (n / 10), digit (n % 10)]

/-- `moment.strftime("%Y-%m-%d %H:%M:%S %z")`, `/repo/src/pymt/utils/utils.py:21, 34`, for years of four digits.  `%z` is empty
for a naive `datetime`, and `+0000` for UTC. -/
def Moment.format (m : Moment) : List Nat :=
  two (m.year / 100) ++ two (m.year % 100) ++ [45] ++ two m.month ++ [45] ++ two m.day ++ [32] ++
    two m.hour ++ [58] ++ two m.minute ++ [58] ++ two m.second ++ [32] ++
    (if m.utc then [43, 48, 48, 48, 48] else [])

/-- `Utils.get_timestamp_string`, `/repo/src/pymt/utils/utils.py:23-34`, and `Utils.get_timestamp`, lines 48-59 (the same as
bytes): `now` is what the clock shows. -/
def timestampString (c : Calendar) (now : Moment) : List Nat := { now with utc := c.aware }.format

/-- `Utils.get_datetime_stamp`, `/repo/src/pymt/utils/utils.py:36-46`. -/
def datetimeStamp (c : Calendar) (now : Moment) : Moment := { now with utc := c.aware }

/-! ### `strptime`

A pattern is a function that takes what comes after it as its argument and tries its alternatives in order, as the
regular expression of `_strptime` does. -/

/-- One character (`-`, `:` of `/repo/src/pymt/utils/utils.py:21`). -/
def patChar {α : Type} (c : Nat) (k : List Nat → Option α) : List Nat → Option α
  | [] => none
  | x :: r => if x = c then k r else none

/-- White space in the format (`/repo/src/pymt/utils/utils.py:21`) stands for `\s+`. -/
def patSpace {α : Type} (k : List Nat → Option α) : List Nat → Option α
  | [] => none
  | x :: r => if x = 32 ∨ 9 ≤ x ∧ x ≤ 13 then patSpace k r <|> k r else none

/-- The value of a digit.  `strptime`, used in `/repo/src/pymt/utils/utils.py:76`. -/
def digitOf (c : Nat) : Option Nat := if 48 ≤ c ∧ c ≤ 57 then some (c - 48) else none

/-- Two digits that `ok2` allows, or else one digit that `ok1` allows: `%m`, `%H`, `%M`, `%S` of
`/repo/src/pymt/utils/utils.py:21`. -/
def patNum {α : Type} (ok2 : Nat → Nat → Bool) (ok1 : Nat → Bool) (k : Nat → List Nat → Option α) : List Nat → Option α
  | [] => none
  | x :: r =>
    match digitOf x with
    | none => none
    | some a =>
      (match r with
      | [] => none
      | y :: r' =>
        match digitOf y with
        | none => none
        | some b => if ok2 a b then k (10 * a + b) r' else none) <|>
      (if ok1 a then k a r else none)

/-- `%Y` of `/repo/src/pymt/utils/utils.py:21`: `\d\d\d\d`. -/
def patYear {α : Type} (k : Nat → List Nat → Option α) : List Nat → Option α
  | a :: b :: c :: d :: r =>
    match digitOf a, digitOf b, digitOf c, digitOf d with
    | some a, some b, some c, some d => k (1000 * a + 100 * b + 10 * c + d) r
    | _, _, _, _ => none
  | _ => none

/-- `%m`: `1[0-2]|0[1-9]|[1-9]`.  `strptime`, used in `/repo/src/pymt/utils/utils.py:76`. -/
def patMonth {α : Type} : (Nat → List Nat → Option α) → List Nat → Option α :=
  patNum (fun a b => a = 1 ∧ b ≤ 2 ∨ a = 0 ∧ 1 ≤ b) (fun a => 1 ≤ a)

/-- `%d`: `3[0-1]|[1-2]\d|0[1-9]|[1-9]| [1-9]`.  `strptime`, used in `/repo/src/pymt/utils/utils.py:76`. -/
def patDay {α : Type} (k : Nat → List Nat → Option α) (s : List Nat) : Option α :=
  patNum (fun a b => a = 3 ∧ b ≤ 1 ∨ a = 1 ∨ a = 2 ∨ a = 0 ∧ 1 ≤ b) (fun a => 1 ≤ a) k s <|>
  patChar 32 (patNum (fun _ _ => false) (fun a => 1 ≤ a) k) s

/-- `%H`: `2[0-3]|[0-1]\d|\d`.  `strptime`, used in `/repo/src/pymt/utils/utils.py:76`. -/
def patHour {α : Type} : (Nat → List Nat → Option α) → List Nat → Option α :=
  patNum (fun a b => a = 2 ∧ b ≤ 3 ∨ a ≤ 1) (fun _ => true)

/-- `%M`: `[0-5]\d|\d`.  `strptime`, used in `/repo/src/pymt/utils/utils.py:76`. -/
def patMinute {α : Type} : (Nat → List Nat → Option α) → List Nat → Option α :=
  patNum (fun a _ => a ≤ 5) (fun _ => true)

/-- `%S`: `6[0-1]|[0-5]\d|\d`.  `strptime`, used in `/repo/src/pymt/utils/utils.py:76`. -/
def patSecond {α : Type} : (Nat → List Nat → Option α) → List Nat → Option α :=
  patNum (fun a b => a = 6 ∧ b ≤ 1 ∨ a ≤ 5) (fun _ => true)

/-- `%z` of `/repo/src/pymt/utils/utils.py:21`.  Simplification: only `+0000` and `Z` are read; `_strptime` also knows other
offsets, with colons and seconds. -/
def patZone {α : Type} (k : List Nat → Option α) : List Nat → Option α
  | 43 :: 48 :: 48 :: 48 :: 48 :: r => k r
  | 90 :: r => k r
  | _ => none

/-- The number of days of a month, for the check of the constructor `datetime(...)`.
`strptime`, used in `/repo/src/pymt/utils/utils.py:76`. -/
def daysIn (year month : Nat) : Nat :=
  if month = 2 then (if year % 4 = 0 ∧ (year % 100 ≠ 0 ∨ year % 400 = 0) then 29 else 28)
  else if month = 4 ∨ month = 6 ∨ month = 9 ∨ month = 11 then 30 else 31

/-- A `datetime` object has these values in its fields; otherwise the constructor raises ValueError.
`strptime`, used in `/repo/src/pymt/utils/utils.py:76`. -/
def Moment.Proper (m : Moment) : Prop :=
  1 ≤ m.year ∧ m.year ≤ 9999 ∧ 1 ≤ m.month ∧ m.month ≤ 12 ∧ 1 ≤ m.day ∧ m.day ≤ daysIn m.year m.month ∧
    m.hour < 24 ∧ m.minute < 60 ∧ m.second < 60 ∧ m.micro < 1000000

instance (m : Moment) : Decidable m.Proper := by unfold Moment.Proper; infer_instance

/-- The match of the regular expression for `/repo/src/pymt/utils/utils.py:21`, with the text that is left over. -/
def matchFormat : List Nat → Option (Moment × List Nat) :=
  patYear fun y => patChar 45 <| patMonth fun mo => patChar 45 <| patDay fun d => patSpace <|
    patHour fun h => patChar 58 <| patMinute fun mi => patChar 58 <| patSecond fun s => patSpace <|
      patZone fun r => some ({ year := y, month := mo, day := d, hour := h, minute := mi, second := s, micro := 0, utc := true }, r)

/-- `datetime.strptime(text, "%Y-%m-%d %H:%M:%S %z")`, `/repo/src/pymt/utils/utils.py:21, 76`: ValueError when the format does
not match, something is left over, or there is no such day. -/
def strptime (text : List Nat) : Py Moment :=
  match matchFormat text with
  | some (m, []) => if m.Proper then .ok m else .error .valueError
  | _ => .error .valueError

/-- `Utils.from_timstamp_string`, `/repo/src/pymt/utils/utils.py:61-76`.  Without Django `datetime` is the class, which has no
attribute `datetime`. -/
def fromTimestampString (c : Calendar) (text : List Nat) : Py Moment :=
  match c with
  | .plain => .error .attributeError
  | .django _ => strptime text

end Pymt
