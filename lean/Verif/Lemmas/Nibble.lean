import Verif.Model.NibblePath
import Verif.Spec.Nibbles

/-! # `NibblePath` against nibble lists -/

namespace Pymt

/-! ### Except -/

@[simp] theorem Except.bind_ok' {ε α β : Type} (a : α) (f : α → Except ε β) :
    (Except.ok a >>= f) = f a := rfl

@[simp] theorem Except.bind_error' {ε α β : Type} (e : ε) (f : α → Except ε β) :
    (Except.error e >>= f) = Except.error e := rfl

@[simp] theorem Except.pure_ok' {ε α : Type} (a : α) : (pure a : Except ε α) = Except.ok a := rfl

/-! ### Lists of nibbles -/

theorem byteNibs_length (b : UInt8) : (byteNibs b).length = 2 := rfl

theorem toNibs_nil : toNibs [] = [] := rfl

theorem toNibs_cons (b : UInt8) (d : Bytes) : toNibs (b :: d) = byteNibs b ++ toNibs d := by
  simp [toNibs]

theorem toNibs_append (a b : Bytes) : toNibs (a ++ b) = toNibs a ++ toNibs b := by
  simp [toNibs]

theorem toNibs_length (d : Bytes) : (toNibs d).length = d.length * 2 := by
  induction d with
  | nil => rfl
  | cons b d ih => rw [toNibs_cons, List.length_append, byteNibs_length, ih, List.length_cons]; omega

theorem toNibs_get (d : Bytes) (i : Nat) :
    (toNibs d)[i]? = (d[i / 2]?).map fun b =>
      if i % 2 = 0 then (⟨b.toNat / 16, by have := b.toNat_lt; omega⟩ : Nib)
      else ⟨b.toNat % 16, by omega⟩ := by
  induction d generalizing i with
  | nil => simp [toNibs]
  | cons b d ih =>
    rw [toNibs_cons]
    match i with
    | 0 => simp [byteNibs]
    | 1 => simp [byteNibs]
    | i + 2 =>
      rw [List.getElem?_append_right (by simp [byteNibs])]
      simp only [byteNibs_length, Nat.add_sub_cancel]
      rw [ih, show (i + 2) / 2 = i / 2 + 1 by omega, show (i + 2) % 2 = i % 2 by omega]
      simp

theorem byteNibs_pack (a b : Nib) : byteNibs (UInt8.ofNat (a.val * 16 + b.val)) = [a, b] := by
  have ha := a.isLt
  have hb := b.isLt
  have h : (UInt8.ofNat (a.val * 16 + b.val)).toNat = a.val * 16 + b.val := by
    simp [UInt8.toNat_ofNat']; omega
  simp only [byteNibs, h]
  congr 1
  · apply Fin.ext; simp; omega
  · congr 1; apply Fin.ext; simp

theorem toNibs_pack (q : List Nib) (h : q.length % 2 = 0) : toNibs (pack q) = q := by
  match q with
  | [] => rfl
  | [a] => simp at h
  | a :: b :: q =>
    rw [pack, toNibs_cons, byteNibs_pack, toNibs_pack q (by simp at h; omega)]
    rfl

theorem pack_toNibs (d : Bytes) : pack (toNibs d) = d := by
  induction d with
  | nil => rfl
  | cons b d ih =>
    rw [toNibs_cons]
    simp only [byteNibs, List.cons_append, List.nil_append, pack, ih]
    congr 1
    have : b.toNat / 16 * 16 + b.toNat % 16 = b.toNat := by omega
    rw [this]
    simp

theorem toNibs_inj {a b : Bytes} (h : toNibs a = toNibs b) : a = b := by
  rw [← pack_toNibs a, h, pack_toNibs]

theorem pack_length (q : List Nib) : (pack q).length = q.length / 2 := by
  match q with
  | [] => rfl
  | [a] => simp [pack]
  | a :: b :: q => rw [pack, List.length_cons, pack_length q]; simp; omega

theorem hp_toNibs (leaf : Bool) (q : List Nib) :
    toNibs (hp leaf q) =
      if q.length % 2 = 1 then (if leaf then 3 else 1) :: q
      else (if leaf then 2 else 0) :: 0 :: q := by
  unfold hp
  split
  · rw [toNibs_pack _ (by simp; omega)]
  · rw [toNibs_pack _ (by simp; omega)]

theorem hp_ne_nil (leaf : Bool) (q : List Nib) : hp leaf q ≠ [] := by
  intro h
  have := hp_toNibs leaf q
  rw [h] at this
  split at this <;> simp [toNibs_nil] at this

/-- The hex-prefix encoding is injective. -/
theorem hp_inj {l l' : Bool} {q q' : List Nib} (h : hp l q = hp l' q') : l = l' ∧ q = q' := by
  have h1 := hp_toNibs l q
  have h2 := hp_toNibs l' q'
  rw [h, h2] at h1
  by_cases a : q.length % 2 = 1 <;> by_cases b : q'.length % 2 = 1 <;>
    simp only [a, b, if_true, if_false] at h1 <;> cases l <;> cases l' <;> simp at h1 ⊢ <;>
    first | exact h1.symm | (exfalso; revert h1; decide)

theorem lcp_prefix_left (p q : List Nib) : lcp p q <+: p := by
  induction p generalizing q with
  | nil => simp [lcp]
  | cons a p ih =>
    cases q with
    | nil => simp [lcp]
    | cons b q =>
      rw [lcp]
      split
      · exact (List.cons_prefix_cons).2 ⟨rfl, ih q⟩
      · exact List.nil_prefix

theorem lcp_comm (p q : List Nib) : lcp p q = lcp q p := by
  induction p generalizing q with
  | nil => cases q <;> simp [lcp]
  | cons a p ih =>
    cases q with
    | nil => simp [lcp]
    | cons b q =>
      rw [lcp, lcp]
      by_cases h : a = b
      · subst h; simp [ih]
      · have h' : ¬ b = a := fun e => h e.symm
        simp [h, h']

theorem lcp_prefix_right (p q : List Nib) : lcp p q <+: q := lcp_comm p q ▸ lcp_prefix_left q p

/-- After cutting the longest common prefix, the rests do not start with the same nibble. -/
theorem lcp_drop (p q : List Nib) :
    p = lcp p q ++ p.drop (lcp p q).length ∧ q = lcp p q ++ q.drop (lcp p q).length := by
  exact ⟨(List.prefix_iff_eq_append.1 (lcp_prefix_left p q)).symm,
    (List.prefix_iff_eq_append.1 (lcp_prefix_right p q)).symm⟩

theorem lcp_maximal (p q : List Nib) (a b : Nib) (p' q' : List Nib)
    (hp : p.drop (lcp p q).length = a :: p') (hq : q.drop (lcp p q).length = b :: q') : a ≠ b := by
  induction p generalizing q with
  | nil => simp at hp
  | cons x p ih =>
    cases q with
    | nil => simp at hq
    | cons y q =>
      rw [lcp] at hp hq
      by_cases h : x = y
      · simp only [h, if_true, List.length_cons, List.drop_succ_cons] at hp hq
        exact ih q hp hq
      · simp only [h, if_false, List.length_nil, List.drop_zero, List.cons.injEq] at hp hq
        rw [← hp.1, ← hq.1]; exact h

/-! ### `NibblePath` -/

namespace NibblePath

/-- The nibble sequence a path object stands for. -/
def nibs (p : NibblePath) : List Nib := (toNibs p.data).drop p.offset

/-- The offset does not exceed the data (otherwise `len` raises). -/
def WF (p : NibblePath) : Prop := p.offset ≤ p.data.length * 2

theorem nibs_length (p : NibblePath) : p.nibs.length = p.data.length * 2 - p.offset := by
  simp [nibs, toNibs_length]

theorem len_spec {p : NibblePath} (h : p.WF) : p.len = .ok p.nibs.length := by
  rw [len, if_pos (show p.offset ≤ p.data.length * 2 from h), nibs_length]

theorem at_spec (p : NibblePath) (i : Nat) :
    p.nibbleAt i = match p.nibs[i]? with
      | some n => .ok n.val
      | none => .error .indexError := by
  unfold nibbleAt nibs
  simp only
  rw [List.getElem?_drop, Nat.add_comm i, toNibs_get]
  cases p.data[(p.offset + i) / 2]? with
  | none => rfl
  | some b =>
    simp only [Option.map_some]
    by_cases h : (p.offset + i) % 2 = 0
    · simp [h, Nat.shiftRight_eq_div_pow]
    · simp only [h, if_false]
      have := Nat.and_two_pow_sub_one_eq_mod b.toNat 4
      simp at this
      rw [this]

theorem at_get {p : NibblePath} {i : Nat} (h : i < p.nibs.length) : p.nibbleAt i = .ok (p.nibs[i]).val := by
  rw [at_spec, List.getElem?_eq_getElem h]

theorem at_zero {p : NibblePath} {n : Nib} {q : List Nib} (h : p.nibs = n :: q) :
    p.nibbleAt 0 = .ok n.val := by
  rw [at_spec, h]; rfl

theorem WF_bytes (b : Bytes) : (NibblePath.mk b 0).WF := by simp [WF]

theorem nibs_bytes (b : Bytes) : (NibblePath.mk b 0).nibs = toNibs b := by simp [nibs]

theorem consume_nibs (p : NibblePath) (n : Nat) : (p.consume n).nibs = p.nibs.drop n := by
  simp [consume, nibs, Nat.add_comm]

theorem consume_WF {p : NibblePath} {n : Nat} (hp : p.WF) (h : n ≤ p.nibs.length) :
    (p.consume n).WF := by
  rw [nibs_length] at h
  unfold WF consume at *
  simp; omega

theorem sameFrom_spec (p q : NibblePath) (i k : Nat) (hp : i + k ≤ p.nibs.length)
    (hq : i + k ≤ q.nibs.length) :
    sameFrom p q i k = .ok (decide ((p.nibs.drop i).take k = (q.nibs.drop i).take k)) := by
  induction k generalizing i with
  | zero => simp [sameFrom]
  | succ k ih =>
    rw [sameFrom, at_get (by omega), at_get (by omega)]
    simp only [Except.bind_ok', Except.pure_ok']
    rw [List.drop_eq_getElem_cons (by omega : i < p.nibs.length),
      List.drop_eq_getElem_cons (by omega : i < q.nibs.length)]
    simp only [List.take_succ_cons, List.cons.injEq]
    by_cases h : p.nibs[i] = q.nibs[i]
    · rw [if_neg (by simp [h]), ih _ (by omega) (by omega)]
      simp [h]
    · rw [if_pos (by simpa [Fin.ext_iff] using h)]
      simp [h]

theorem eq_spec {p q : NibblePath} (hp : p.WF) (hq : q.WF) :
    p.eq q = .ok (decide (p.nibs = q.nibs)) := by
  rw [NibblePath.eq, len_spec hp, len_spec hq]
  simp only [Except.bind_ok', Except.pure_ok']
  by_cases h : p.nibs.length = q.nibs.length
  · rw [if_neg (by simp [h]), sameFrom_spec p q 0 _ (by omega) (by omega)]
    simp only [List.drop_zero, List.take_length]
    rw [h, List.take_length]
  · rw [if_pos h]
    have : p.nibs ≠ q.nibs := fun e => h (by rw [e])
    simp [this]

theorem startsWith_spec {p q : NibblePath} (hp : p.WF) (hq : q.WF) :
    p.startsWith q = .ok (decide (q.nibs <+: p.nibs)) := by
  rw [startsWith, len_spec hp, len_spec hq]
  simp only [Except.bind_ok', Except.pure_ok']
  by_cases h : q.nibs.length > p.nibs.length
  · rw [if_pos h]
    have : ¬ q.nibs <+: p.nibs := fun e => by have := e.length_le; omega
    simp [this]
  · rw [if_neg h, sameFrom_spec p q 0 _ (by omega) (by omega)]
    simp only [List.drop_zero, List.take_length]
    congr 1
    apply decide_eq_decide.2
    rw [List.prefix_iff_eq_take]
    exact eq_comm

/-- `at_` reads the nibble list `q`. -/
def Reads (at_ : Nat → Py Nat) (q : List Nib) : Prop :=
  ∀ i (h : i < q.length), at_ i = .ok (q[i]).val

theorem reads_at (p : NibblePath) : Reads p.nibbleAt p.nibs := fun _ h => at_get h

theorem Reads.take {at_ : Nat → Py Nat} {q : List Nib} (h : Reads at_ q) (n : Nat) :
    Reads at_ (q.take n) := by
  intro i hi
  rw [List.length_take] at hi
  rw [h i (by omega)]
  simp

theorem packFrom_spec {at_ : Nat → Py Nat} {q : List Nib} (h : Reads at_ q) (pos k : Nat)
    (hk : pos + 2 * k = q.length) : packFrom at_ pos k = .ok (pack (q.drop pos)) := by
  induction k generalizing pos with
  | zero =>
    rw [packFrom, List.drop_eq_nil_of_le (by omega)]
    rfl
  | succ k ih =>
    rw [packFrom, h pos (by omega), h (pos + 1) (by omega)]
    simp only [Except.bind_ok', Except.pure_ok']
    rw [ih (pos + 2) (by omega)]
    simp only [Except.bind_ok']
    rw [List.drop_eq_getElem_cons (by omega : pos < q.length),
      List.drop_eq_getElem_cons (by omega : pos + 1 < q.length), pack]

theorem createNew_spec {at_ : Nat → Py Nat} {q : List Nib} (h : Reads at_ q) :
    ∃ r : NibblePath, createNew at_ q.length = .ok r ∧ r.WF ∧ r.nibs = q := by
  unfold createNew
  split
  · next ho =>
    have h0 : 0 < q.length := by omega
    rw [h 0 h0, packFrom_spec h 1 _ (by omega)]
    refine ⟨_, rfl, ?_, ?_⟩
    · simp [WF]; omega
    · cases q with
      | nil => simp at h0
      | cons a q =>
        simp only [List.length_cons] at ho
        simp only [nibs, toNibs_cons, List.getElem_cons_zero, List.drop_succ_cons, List.drop_zero]
        rw [toNibs_pack q (by omega)]
        have := byteNibs_pack 0 a
        simp at this
        rw [this]
        rfl
  · next ho =>
    rw [packFrom_spec h 0 _ (by omega)]
    refine ⟨_, rfl, by simp [WF], ?_⟩
    simp only [nibs, List.drop_zero]
    rw [toNibs_pack q (by omega)]

theorem commonFrom_spec (p q : NibblePath) (i k : Nat)
    (hk : i + k = min p.nibs.length q.nibs.length) :
    commonFrom p q i k = .ok (lcp (p.nibs.drop i) (q.nibs.drop i)).length := by
  induction k generalizing i with
  | zero =>
    rw [commonFrom]
    have : p.nibs.drop i = [] ∨ q.nibs.drop i = [] := by
      rw [List.drop_eq_nil_iff, List.drop_eq_nil_iff]; omega
    rcases this with h | h <;> rw [h] <;> simp [lcp]
  | succ k ih =>
    have h1 : i < p.nibs.length := by omega
    have h2 : i < q.nibs.length := by omega
    rw [commonFrom, at_get h1, at_get h2]
    simp only [Except.bind_ok', Except.pure_ok']
    rw [List.drop_eq_getElem_cons h1, List.drop_eq_getElem_cons h2, lcp]
    by_cases h : p.nibs[i] = q.nibs[i]
    · rw [if_neg (by simp [h]), ih _ (by omega), if_pos h]
      simp
    · rw [if_pos (by simpa [Fin.ext_iff] using h), if_neg h]
      simp

theorem commonPrefix_spec {p q : NibblePath} (hp : p.WF) (hq : q.WF) :
    ∃ r : NibblePath, p.commonPrefix q = .ok r ∧ r.WF ∧ r.nibs = lcp p.nibs q.nibs := by
  rw [commonPrefix, len_spec hp, len_spec hq]
  simp only [Except.bind_ok']
  rw [commonFrom_spec p q 0 _ (by omega)]
  simp only [Except.bind_ok', List.drop_zero]
  have hpre := lcp_prefix_left p.nibs q.nibs
  have htake := List.prefix_iff_eq_take.1 hpre
  have hr : Reads p.nibbleAt (lcp p.nibs q.nibs) := by
    rw [htake]; exact (reads_at p).take _
  exact createNew_spec hr

theorem encode_spec {p : NibblePath} (hp : p.WF) (leaf : Bool) :
    p.encode leaf = .ok (Pymt.hp leaf p.nibs) := by
  rw [encode, len_spec hp]
  simp only [Except.bind_ok', Except.pure_ok']
  unfold Pymt.hp
  by_cases ho : p.nibs.length % 2 = 1
  · rw [if_pos ho, if_pos ho]
    have h0 : 0 < p.nibs.length := by omega
    rw [packFrom_spec (reads_at p) 1 _ (by omega), at_get h0]
    simp only [Except.bind_ok', Except.ok.injEq]
    revert h0
    generalize p.nibs = q
    intro h0
    cases q with
    | nil => simp at h0
    | cons a q =>
      rw [pack]
      simp only [List.getElem_cons_zero, List.drop_succ_cons, List.drop_zero, List.cons.injEq, and_true]
      congr 1
      cases leaf <;> simp <;> omega
  · rw [if_neg ho, if_neg ho, packFrom_spec (reads_at p) 0 _ (by omega)]
    simp only [Except.bind_ok', List.drop_zero, Except.ok.injEq]
    rw [pack]
    cases leaf <;> rfl

theorem decodeWithType_spec (leaf : Bool) (q : List Nib) :
    ∃ r : NibblePath, decodeWithType (Pymt.hp leaf q) = .ok (r, leaf) ∧ r.WF ∧ r.nibs = q := by
  have hn := hp_toNibs leaf q
  cases hb : Pymt.hp leaf q with
  | nil => exact absurd hb (hp_ne_nil leaf q)
  | cons b0 rest =>
    rw [hb, toNibs_cons] at hn
    have hlt : b0.toNat < 256 := b0.toNat_lt
    by_cases ho : q.length % 2 = 1
    · rw [if_pos ho] at hn
      simp only [byteNibs, List.cons_append, List.nil_append, List.cons.injEq] at hn
      obtain ⟨h1, h2⟩ := hn
      have hodd : b0.toNat &&& 0x10 = 0x10 := by
        have h1' : b0.toNat / 16 = if leaf then 3 else 1 := by
          have := congrArg Fin.val h1
          cases leaf <;> exact this
        have : ∀ n : Fin 256, (n.val / 16 = if leaf then 3 else 1) → n.val &&& 0x10 = 0x10 := by
          cases leaf <;> decide +kernel
        exact this ⟨b0.toNat, hlt⟩ h1'
      have hleaf : (b0.toNat &&& 0x20 == 0x20) = leaf := by
        have h1' : b0.toNat / 16 = if leaf then 3 else 1 := by
          have := congrArg Fin.val h1
          cases leaf <;> exact this
        have : ∀ n : Fin 256, (n.val / 16 = if leaf then 3 else 1) →
            (n.val &&& 0x20 == 0x20) = leaf := by
          cases leaf <;> decide +kernel
        exact this ⟨b0.toNat, hlt⟩ h1'
      refine ⟨⟨b0 :: rest, 1⟩, ?_, by simp [WF]; omega, ?_⟩
      · simp only [decodeWithType, hodd, hleaf]; rfl
      · simp only [nibs, toNibs_cons, byteNibs, List.cons_append, List.nil_append,
          List.drop_succ_cons, List.drop_zero]
        exact h2
    · rw [if_neg ho] at hn
      simp only [byteNibs, List.cons_append, List.nil_append, List.cons.injEq] at hn
      obtain ⟨h1, h2, h3⟩ := hn
      have h1' : b0.toNat / 16 = if leaf then 2 else 0 := by
        have := congrArg Fin.val h1
        cases leaf <;> exact this
      have heven : (b0.toNat &&& 0x10 == 0x10) = false := by
        have : ∀ n : Fin 256, (n.val / 16 = if leaf then 2 else 0) →
            (n.val &&& 0x10 == 0x10) = false := by
          cases leaf <;> decide +kernel
        exact this ⟨b0.toNat, hlt⟩ h1'
      have hleaf : (b0.toNat &&& 0x20 == 0x20) = leaf := by
        have : ∀ n : Fin 256, (n.val / 16 = if leaf then 2 else 0) →
            (n.val &&& 0x20 == 0x20) = leaf := by
          cases leaf <;> decide +kernel
        exact this ⟨b0.toNat, hlt⟩ h1'
      refine ⟨⟨b0 :: rest, 2⟩, ?_, by simp [WF]; omega, ?_⟩
      · simp only [decodeWithType, heven, hleaf]; rfl
      · simp only [nibs, toNibs_cons, byteNibs, List.cons_append, List.nil_append,
          List.drop_succ_cons, List.drop_zero]
        exact h3

theorem combine_spec {p q : NibblePath} (hp : p.WF) (hq : q.WF) :
    ∃ r : NibblePath, p.combine q = .ok r ∧ r.WF ∧ r.nibs = p.nibs ++ q.nibs := by
  rw [combine, len_spec hp, len_spec hq]
  simp only [Except.bind_ok']
  have hr : Reads (chainedAt p q) (p.nibs ++ q.nibs) := by
    intro i hi
    rw [chainedAt, len_spec hp]
    simp only [Except.bind_ok']
    rw [List.length_append] at hi
    split
    · next h => rw [at_get h, List.getElem_append_left h]
    · next h =>
      rw [at_get (by omega), List.getElem_append_right (by omega)]
  have := createNew_spec hr
  rwa [List.length_append] at this

end NibblePath
end Pymt
