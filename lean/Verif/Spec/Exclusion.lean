import Verif.Spec.Nibbles
import Verif.Model.Py

/-!
# Where an absent key leaves the present ones

`P e` says that `e` is the path (key, or hash of the key in secure mode) of a present key, `V e v` that
its value is `v`.  An absent path `e` agrees with present ones for some nibbles and then leaves them.
The cases below are disjoint only by accident; they are conditions on contents, not on tries.
-/

namespace Pymt

/-- Some beginning of `e` is shared with exactly one present path, and `e` is not an end of that path. -/
def Alone (P : Bytes → Prop) (e : Bytes) : Prop :=
  ∃ e1, P e1 ∧ ¬ e <:+ e1 ∧ ∃ a, a <+: toNibs e ∧ a <+: toNibs e1 ∧
    ∀ e2, P e2 → a <+: toNibs e2 → e2 = e1

/-- `e` leaves the present paths at a point where these diverge from each other (with two different
next nibbles) and where none of them ends. -/
def Gap (P : Bytes → Prop) (e : Bytes) : Prop :=
  ∃ a, a <+: toNibs e ∧
    (∃ i j e1 e2, i ≠ j ∧ P e1 ∧ P e2 ∧ a ++ [i] <+: toNibs e1 ∧ a ++ [j] <+: toNibs e2) ∧
    (∀ e1, P e1 → toNibs e1 ≠ a) ∧
    ∀ i, a ++ [i] <+: toNibs e → ∀ e1, P e1 → ¬ a ++ [i] <+: toNibs e1

/-- `e` is a proper beginning of at least two present paths and ends right after a point where
another present path has left them (or is empty). -/
def Stem (P : Bytes → Prop) (e : Bytes) : Prop :=
  (∃ e1 e2, P e1 ∧ P e2 ∧ e1 ≠ e2 ∧ e <+: e1 ∧ e <+: e2) ∧
  (e = [] ∨ ∃ a i, toNibs e = a ++ [i] ∧ ∃ e3, P e3 ∧ a <+: toNibs e3 ∧ ¬ e <+: e3)

/-- `e` leaves at least two present paths where these go on together, some present path has left
before, and what is left of these paths and a value of theirs make at least 30 bytes. -/
def Skip (P : Bytes → Prop) (V : Bytes → Bytes → Prop) (e : Bytes) : Prop :=
  ∃ a i, a ++ [i] <+: toNibs e ∧ (∀ e1, P e1 → ¬ a ++ [i] <+: toNibs e1) ∧
    (∃ e1 e2, P e1 ∧ P e2 ∧ e1 ≠ e2 ∧ a <+: toNibs e1 ∧ a <+: toNibs e2) ∧
    (∃ j, ∀ e1, P e1 → a <+: toNibs e1 → a ++ [j] <+: toNibs e1) ∧
    (∃ e3, P e3 ∧ ¬ a <+: toNibs e3) ∧
    ∃ e1 v, V e1 v ∧ a <+: toNibs e1 ∧ 60 ≤ 2 * e1.length - a.length + 2 * v.length

end Pymt
