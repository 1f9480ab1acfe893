import Verif.Spec.Stop
import Verif.Spec.Toy

/-!
# Deciding the conditions of `Spec/Stop.lean` for concrete contents

Only used for the concrete cases shown beside theorems.
-/

namespace Pymt

/-- The paths of present keys. -/
def pathsOf (E : Env) (secure : Bool) (ops : List Op) : List Bytes :=
  (pairs (ops.map (Op.mapKey (effective E secure)))).map (·.1)

theorem mem_pathsOf {E : Env} {secure : Bool} {ops : List Op} {e : Bytes} :
    pathContents E secure ops e ≠ none ↔ e ∈ pathsOf E secure ops := by
  simp only [pathsOf, List.mem_map, pathContents]
  constructor
  · intro h
    cases hc : contents (ops.map (Op.mapKey (effective E secure))) e with
    | none => exact absurd hc h
    | some v => exact ⟨(e, v), mem_pairs.2 hc, rfl⟩
  · rintro ⟨⟨e', v⟩, h, rfl⟩
    rw [mem_pairs.1 h]; simp

def thruB (l : List Bytes) (b : List Nib) : Bool := l.any fun e => decide (b <+: toNibs e)

def forkB (l : List Bytes) (b : List Nib) : Bool :=
  l.any fun e1 => l.any fun e2 => decide (e1 ≠ e2) && decide (b <+: toNibs e1) && decide (b <+: toNibs e2) &&
    (List.finRange 16).all fun i => !(decide (b ++ [i] <+: toNibs e1) && decide (b ++ [i] <+: toNibs e2))

def knotB (l : List Bytes) (b : List Nib) : Bool := thruB l b && (b == [] || forkB l b || forkB l b.dropLast)

def stopB (l : List Bytes) (p b : List Nib) : Bool :=
  decide (b <+: p) && knotB l b && (List.range (p.length + 1)).all fun n => !knotB l (p.take n) || decide (p.take n <+: b)

def loneB (l : List Bytes) (b : List Nib) (k : Bytes) : Bool :=
  decide (k ∈ l) && decide (b <+: toNibs k) && l.all fun k' => !decide (b <+: toNibs k') || decide (k' = k)

section
variable {m : Contents} {l : List Bytes} (hl : ∀ e, m e ≠ none ↔ e ∈ l)
include hl

theorem thru_dec (b : List Nib) : Thru m b ↔ thruB l b = true := by
  simp only [Thru, hl, thruB, List.any_eq_true, decide_eq_true_eq]

theorem fork_dec (b : List Nib) : Fork m b ↔ forkB l b = true := by
  simp only [Fork, hl, forkB, List.any_eq_true, decide_eq_true_eq, Bool.and_eq_true, List.all_eq_true,
    Bool.not_eq_eq_eq_not, Bool.not_true, ← Bool.not_eq_true]
  constructor
  · rintro ⟨k1, k2, h1, h2, h3, h4, h5, h6⟩
    exact ⟨k1, h1, k2, h2, ⟨⟨h3, h4⟩, h5⟩, fun i _ => h6 i⟩
  · rintro ⟨k1, h1, k2, h2, ⟨⟨h3, h4⟩, h5⟩, h6⟩
    exact ⟨k1, k2, h1, h2, h3, h4, h5, fun i => h6 i (List.mem_finRange i)⟩

theorem lone_dec (b : List Nib) (k : Bytes) : Lone m b k ↔ loneB l b k = true := by
  simp only [Lone, hl, loneB, List.all_eq_true, decide_eq_true_eq, Bool.and_eq_true, Bool.or_eq_true,
    Bool.not_eq_eq_eq_not, Bool.not_true, ← Bool.not_eq_true, and_assoc]
  refine and_congr_right fun _ => and_congr_right fun _ => forall_congr' fun k' => ?_
  constructor
  · intro h hk'
    by_cases hb : b <+: toNibs k'
    · exact .inr (h hk' hb)
    · exact .inl hb
  · rintro h hk' hb
    rcases h hk' with h | h
    · exact absurd hb h
    · exact h

theorem knot_dec (b : List Nib) : Knot m b ↔ knotB l b = true := by
  simp only [Knot, thru_dec hl, fork_dec hl, knotB, Bool.and_eq_true, Bool.or_eq_true, beq_iff_eq, or_assoc]
  refine and_congr_right fun _ => ?_
  rcases List.eq_nil_or_concat b with rfl | ⟨c, i, rfl⟩
  · simp
  · rw [List.concat_eq_append, List.dropLast_concat]
    refine or_congr_right (or_congr_right ?_)
    constructor
    · rintro ⟨c', i', h, hf⟩
      obtain ⟨rfl, _⟩ := List.append_inj' h rfl
      exact hf
    · exact fun hf => ⟨c, i, rfl, hf⟩

theorem stop_dec {p b : List Nib} (h : stopB l p b = true) : Stop m p b := by
  simp only [stopB, Bool.and_eq_true, decide_eq_true_eq, List.all_eq_true, Bool.or_eq_true,
    Bool.not_eq_eq_eq_not, Bool.not_true, ← Bool.not_eq_true] at h
  obtain ⟨⟨h1, h2⟩, h3⟩ := h
  refine ⟨h1, (knot_dec hl b).2 h2, fun b' hb' hk => ?_⟩
  have := h3 b'.length (by rw [List.mem_range]; exact Nat.lt_succ_of_le hb'.length_le)
  rw [← List.prefix_iff_eq_take.1 hb'] at this
  rcases this with h | h
  · exact absurd ((knot_dec hl b').1 hk) h
  · exact h

end

end Pymt
