import Verif.Model.Equality
import Verif.Lemmas.MerkleBind

/-!
# Lemmas on `int(s, 16)` and `repr`
-/

namespace Pymt

/-! ### `int(s, 16)` -/

/-- The bytes that can occur in a string `int(s, 16)` accepts: white space, `+ - _ x X` and hexadecimal digits. -/
def intByte (c : UInt8) : Bool :=
  isSpace c || c == 43 || c == 45 || c == 95 || c == 120 || c == 88 || (hexVal c).isSome

theorem all_space {s : Bytes} (h : s.dropWhile isSpace = []) : ∀ c ∈ s, isSpace c = true := by
  induction s with
  | nil => simp
  | cons a s ih =>
    simp only [List.dropWhile_cons] at h
    split at h
    · next ha =>
      intro c hc
      rcases List.mem_cons.mp hc with rfl | hc
      · exact ha
      · exact ih h c hc
    · cases h

theorem mem_dropWhile_or {s : Bytes} {c : UInt8} (h : c ∈ s) : isSpace c = true ∨ c ∈ s.dropWhile isSpace := by
  induction s with
  | nil => cases h
  | cons a s ih =>
    simp only [List.dropWhile_cons]
    split
    · next ha =>
      rcases List.mem_cons.mp h with rfl | h
      · exact .inl ha
      · exact ih h
    · exact .inr h

theorem mem_dropSign {s : Bytes} {c : UInt8} (h : c ∈ s) : c = 43 ∨ c = 45 ∨ c ∈ (dropSign s).2 := by
  unfold dropSign
  split
  · rcases List.mem_cons.mp h with h | h
    · exact .inl h
    · exact .inr (.inr h)
  · rcases List.mem_cons.mp h with h | h
    · exact .inr (.inl h)
    · exact .inr (.inr h)
  · exact .inr (.inr h)

theorem mem_dropPrefix {s : Bytes} {c : UInt8} (h : c ∈ s) :
    c = 48 ∨ c = 120 ∨ c = 88 ∨ c = 95 ∨ c ∈ dropPrefix s := by
  unfold dropPrefix
  split
  · simp only [List.mem_cons] at h
    rcases h with h | h | h | h <;> simp [h]
  · simp only [List.mem_cons] at h
    rcases h with h | h | h | h <;> simp [h]
  · simp only [List.mem_cons] at h
    rcases h with h | h | h <;> simp [h]
  · simp only [List.mem_cons] at h
    rcases h with h | h | h <;> simp [h]
  · exact .inr (.inr (.inr (.inr h)))

theorem mem_scan16 : ∀ (s : Bytes) (u : Bool) (acc n : Nat) (rest : Bytes) (c : UInt8),
    scan16 u acc s = some (n, rest) → c ∈ s → c = 95 ∨ (hexVal c).isSome = true ∨ c ∈ rest
  | [], _, _, _, _, _, _, hc => by cases hc
  | a :: s, u, acc, n, rest, c, h, hc => by
    unfold scan16 at h
    split at h
    · next ha =>
      split at h
      · cases h
      · rcases List.mem_cons.mp hc with rfl | hc
        · exact .inl ha
        · exact mem_scan16 s _ _ _ _ c h hc
    · split at h
      · next d hd =>
        rcases List.mem_cons.mp hc with rfl | hc
        · exact .inr (.inl (by simp [hd]))
        · exact mem_scan16 s _ _ _ _ c h hc
      · split at h
        · cases h
        · cases h
          exact .inr (.inr hc)

/-- Only strings over a small alphabet are accepted. -/
theorem parseInt16_bytes {s : Bytes} {n : Int} (h : parseInt16 s = .ok n) : ∀ c ∈ s, intByte c = true := by
  intro c hc
  unfold parseInt16 at h
  simp only at h
  rcases mem_dropWhile_or hc with hs | hc
  · simp [intByte, hs]
  rcases mem_dropSign hc with hs | hs | hc
  · simp [intByte, hs]
  · simp [intByte, hs]
  rcases mem_dropPrefix hc with hs | hs | hs | hs | hc
  · subst hs; rfl
  · simp [intByte, hs]
  · simp [intByte, hs]
  · simp [intByte, hs]
  split at h
  · cases h
  · next a as hp =>
    rw [hp] at hc
    split at h
    · cases h
    · next d hd =>
      rcases List.mem_cons.mp hc with rfl | hc
      · simp [intByte, hd]
      split at h
      · cases h
      · next m rest hm =>
        split at h
        · next hw =>
          rcases mem_scan16 _ _ _ _ _ _ hm hc with hs | hs | hs
          · simp [intByte, hs]
          · simp [intByte, hs]
          · simp [intByte, all_space hw c hs]
        · cases h

/-- The number with the given big-endian digits to base 256. -/
def beVal : Nat → Bytes → Nat
  | acc, [] => acc
  | acc, b :: bs => beVal (256 * acc + b.toNat) bs

theorem scan16_hexOf : ∀ (b : Bytes) (acc : Nat), scan16 false acc (hexOf b) = some (beVal acc b, [])
  | [], acc => rfl
  | b :: bs, acc => by
    have h1 : b.toNat / 16 < 16 := by have := b.toNat_lt; omega
    have h2 : b.toNat % 16 < 16 := Nat.mod_lt _ (by decide)
    have hne : ∀ n < 16, hexDigit n ≠ 95 := by decide
    simp only [hexOf, scan16, hne _ h1, hne _ h2, if_false, hexVal_hexDigit _ h1, hexVal_hexDigit _ h2]
    rw [scan16_hexOf bs, beVal]
    congr 3
    omega

theorem parseInt16_hexOf (b : Bytes) (h : b ≠ []) : parseInt16 (hexOf b) = .ok (beVal 0 b : Nat) := by
  obtain ⟨a, bs, rfl⟩ : ∃ a bs, b = a :: bs := by
    cases b with
    | nil => exact absurd rfl h
    | cons a bs => exact ⟨a, bs, rfl⟩
  have h1 : a.toNat / 16 < 16 := by have := a.toNat_lt; omega
  have h2 : a.toNat % 16 < 16 := Nat.mod_lt _ (by decide)
  have hsp := hexDigit_not_space _ h1
  have hsign : ∀ n < 16, hexDigit n ≠ 43 ∧ hexDigit n ≠ 45 ∧ hexDigit n ≠ 120 ∧ hexDigit n ≠ 88 := by decide
  obtain ⟨s1, s2, _, _⟩ := hsign _ h1
  obtain ⟨_, _, s3, s4⟩ := hsign _ h2
  unfold parseInt16
  have e1 : (hexOf (a :: bs)).dropWhile isSpace = hexOf (a :: bs) := by
    simp [hexOf, List.dropWhile_cons, hsp]
  have e2 : dropSign (hexOf (a :: bs)) = (false, hexOf (a :: bs)) := by
    unfold dropSign
    split
    · next heq => simp only [hexOf, List.cons.injEq] at heq; exact absurd heq.1 s1
    · next heq => simp only [hexOf, List.cons.injEq] at heq; exact absurd heq.1 s2
    · rfl
  have e3 : dropPrefix (hexOf (a :: bs)) = hexOf (a :: bs) := by
    unfold dropPrefix
    split
    · next heq => simp only [hexOf, List.cons.injEq] at heq; exact absurd heq.2.1 s3
    · next heq => simp only [hexOf, List.cons.injEq] at heq; exact absurd heq.2.1 s4
    · next heq => simp only [hexOf, List.cons.injEq] at heq; exact absurd heq.2.1 s3
    · next heq => simp only [hexOf, List.cons.injEq] at heq; exact absurd heq.2.1 s4
    · rfl
  have e4 := scan16_hexOf (a :: bs) 0
  have hne : ∀ n < 16, hexDigit n ≠ 95 := by decide
  simp only [hexOf, scan16, hne _ h1, if_false, hexVal_hexDigit _ h1] at e4
  rw [e1, e2]
  simp only [e3]
  simp only [hexOf, hexVal_hexDigit _ h1]
  simp only [Nat.mul_zero, Nat.zero_add] at e4
  unfold scan16
  rw [if_neg (hne _ h2)]
  rw [if_neg (hne _ h2)] at e4
  rw [e4]
  simp

theorem parseInt16_nil : parseInt16 [] = .error .valueError := rfl

theorem beVal_eq (b : Bytes) : ∀ acc, beVal acc b = acc * 256 ^ b.length + beVal 0 b := by
  induction b with
  | nil => intro acc; simp [beVal]
  | cons x xs ih =>
    intro acc
    rw [beVal, ih, beVal, ih (256 * 0 + x.toNat)]
    simp only [List.length_cons, Nat.pow_succ]
    rw [Nat.add_mul, Nat.mul_comm 256 acc, Nat.mul_assoc, Nat.mul_comm 256, Nat.mul_zero, Nat.zero_add]
    omega

theorem beVal_lt (b : Bytes) : beVal 0 b < 256 ^ b.length := by
  induction b with
  | nil => simp [beVal]
  | cons x xs ih =>
    rw [beVal, beVal_eq]
    have := x.toNat_lt
    simp only [List.length_cons, Nat.pow_succ]
    have h2 : (256 * 0 + x.toNat) * 256 ^ xs.length ≤ 255 * 256 ^ xs.length := Nat.mul_le_mul_right _ (by omega)
    omega

theorem beVal_inj : ∀ {a b : Bytes}, a.length = b.length → beVal 0 a = beVal 0 b → a = b
  | [], [], _, _ => rfl
  | [], _ :: _, h, _ => by cases h
  | _ :: _, [], h, _ => by cases h
  | x :: xs, y :: ys, hl, h => by
    simp only [List.length_cons, Nat.add_right_cancel_iff] at hl
    rw [beVal, beVal, beVal_eq xs, beVal_eq ys, hl] at h
    have h1 := beVal_lt xs
    have h2 := beVal_lt ys
    rw [hl] at h1
    simp only [Nat.mul_zero, Nat.zero_add] at h
    have hx : x.toNat = y.toNat := by
      have e1 : (x.toNat * 256 ^ ys.length + beVal 0 xs) / 256 ^ ys.length = x.toNat := by
        rw [Nat.mul_comm, Nat.mul_add_div (Nat.pow_pos (by decide)), Nat.div_eq_of_lt h1, Nat.add_zero]
      have e2 : (y.toNat * 256 ^ ys.length + beVal 0 ys) / 256 ^ ys.length = y.toNat := by
        rw [Nat.mul_comm, Nat.mul_add_div (Nat.pow_pos (by decide)), Nat.div_eq_of_lt h2, Nat.add_zero]
      rw [← e1, h, e2]
    rw [hx] at h
    rw [UInt8.toNat_inj.mp hx, beVal_inj hl (by omega)]

/-! ### `repr` -/

/-- Reads a value back off the front of a string. -/
def Delimited {α : Type} (f : α → Bytes) : Prop := ∀ a b r r', f a ++ r = f b ++ r' → a = b ∧ r = r'

/-- Undoes `reprByte`. -/
def unescape : Bytes → Option (UInt8 × Bytes)
  | 92 :: c :: rest =>
    if c = 120 then
      match rest with
      | h :: l :: rest =>
        match hexVal h, hexVal l with
        | some x, some y => some (UInt8.ofNat (16 * x + y), rest)
        | _, _ => none
      | _ => none
    else if c = 116 then some (9, rest)
    else if c = 110 then some (10, rest)
    else if c = 114 then some (13, rest)
    else some (c, rest)
  | c :: rest => some (c, rest)
  | [] => none

theorem unescape_repr (q c : UInt8) (hq : q = 39 ∨ q = 34) (r : Bytes) :
    unescape (reprByte q c ++ r) = some (c, r) := by
  unfold reprByte
  have h1 : c.toNat / 16 < 16 := by have := c.toNat_lt; omega
  have h2 : c.toNat % 16 < 16 := Nat.mod_lt _ (by decide)
  split
  · next h =>
    have : c ≠ 120 ∧ c ≠ 116 ∧ c ≠ 110 ∧ c ≠ 114 := by
      rcases h with rfl | rfl
      · rcases hq with rfl | rfl <;> decide
      · decide
    simp [unescape, this]
  · next h =>
    split
    · next h => subst h; rfl
    · split
      · next h => subst h; rfl
      · split
        · next h => subst h; rfl
        · split
          · have hb : UInt8.ofNat (16 * (c.toNat / 16) + c.toNat % 16) = c := by
              rw [Nat.div_add_mod]; simp
            simp [unescape, hexVal_hexDigit _ h1, hexVal_hexDigit _ h2, hb]
          · have : c ≠ 92 := fun hc => h (.inr hc)
            unfold unescape
            split
            · next heq => simp only [List.cons_append, List.cons.injEq] at heq; exact absurd heq.1 this
            · next heq => simp only [List.cons_append, List.nil_append, List.cons.injEq] at heq; simp [heq.1, heq.2]
            · next heq => simp at heq

theorem reprByte_head (q c : UInt8) (hq : q = 39 ∨ q = 34) : ∃ x xs, reprByte q c = x :: xs ∧ x ≠ q := by
  unfold reprByte
  have h92 : (92 : UInt8) ≠ q := by rcases hq with rfl | rfl <;> decide
  split
  · exact ⟨_, _, rfl, h92⟩
  · next h =>
    split
    · exact ⟨_, _, rfl, h92⟩
    · split
      · exact ⟨_, _, rfl, h92⟩
      · split
        · exact ⟨_, _, rfl, h92⟩
        · split
          · exact ⟨_, _, rfl, h92⟩
          · exact ⟨_, _, rfl, fun hc => h (.inl hc)⟩

theorem flatRepr_inj (q : UInt8) (hq : q = 39 ∨ q = 34) : ∀ (a b r r' : Bytes),
    a.flatMap (reprByte q) ++ q :: r = b.flatMap (reprByte q) ++ q :: r' → a = b ∧ r = r'
  | [], [], r, r', h => by simpa using h
  | [], y :: ys, r, r', h => by
    obtain ⟨x, xs, e, hx⟩ := reprByte_head q y hq
    simp [e] at h
    exact absurd h.1.symm hx
  | x :: xs, [], r, r', h => by
    obtain ⟨y, ys, e, hy⟩ := reprByte_head q x hq
    simp [e] at h
    exact absurd h.1 hy
  | x :: xs, y :: ys, r, r', h => by
    simp only [List.flatMap_cons, List.append_assoc] at h
    have e1 := unescape_repr q x hq (xs.flatMap (reprByte q) ++ q :: r)
    rw [h, unescape_repr q y hq] at e1
    simp only [Option.some.injEq, Prod.mk.injEq] at e1
    obtain ⟨rfl, e2⟩ := e1
    obtain ⟨rfl, rfl⟩ := flatRepr_inj q hq xs ys r r' e2.symm
    exact ⟨rfl, rfl⟩

theorem delimited_bytes : Delimited reprBytes := by
  intro a b r r' h
  unfold reprBytes at h
  simp only [List.cons_append, List.append_assoc, List.cons.injEq, List.nil_append, true_and] at h
  obtain ⟨hq, h⟩ := h
  rw [← hq] at h
  refine flatRepr_inj _ ?_ a b r r' h
  split
  · exact .inr rfl
  · exact .inl rfl

theorem reprRest_inj {α : Type} {f : α → Bytes} (hf : Delimited f) : ∀ (a b : List α) (r r' : Bytes),
    reprRest f a ++ r = reprRest f b ++ r' → a = b ∧ r = r'
  | [], [], r, r', h => by simpa [reprRest] using h
  | [], y :: ys, r, r', h => by simp [reprRest] at h
  | x :: xs, [], r, r', h => by simp [reprRest] at h
  | x :: xs, y :: ys, r, r', h => by
    simp only [reprRest, List.cons_append, List.append_assoc, List.cons.injEq, true_and] at h
    obtain ⟨rfl, h'⟩ := hf _ _ _ _ h
    obtain ⟨rfl, rfl⟩ := reprRest_inj hf xs ys r r' h'
    exact ⟨rfl, rfl⟩

theorem delimited_tuple {α : Type} {f : α → Bytes} (hf : Delimited f)
    (hh : ∀ a, ∃ x xs, f a = x :: xs ∧ x ≠ 41) : Delimited (reprTuple f) := by
  intro a b r r' h
  match a, b with
  | [], [] => simpa [reprTuple] using h
  | [], [y] =>
    obtain ⟨x, xs, e, hx⟩ := hh y
    simp [reprTuple, e] at h
    exact absurd h.1.symm hx
  | [], y :: z :: zs =>
    obtain ⟨x, xs, e, hx⟩ := hh y
    simp [reprTuple, e] at h
    exact absurd h.1.symm hx
  | [y], [] =>
    obtain ⟨x, xs, e, hx⟩ := hh y
    simp [reprTuple, e] at h
    exact absurd h.1 hx
  | y :: z :: zs, [] =>
    obtain ⟨x, xs, e, hx⟩ := hh y
    simp [reprTuple, e] at h
    exact absurd h.1 hx
  | [x], [y] =>
    simp only [reprTuple, List.cons_append, List.append_assoc, List.cons.injEq, true_and] at h
    obtain ⟨rfl, h⟩ := hf _ _ _ _ h
    simpa using h
  | [x], y :: z :: zs =>
    simp only [reprTuple, List.cons_append, List.append_assoc, List.cons.injEq, true_and] at h
    obtain ⟨rfl, h⟩ := hf _ _ _ _ h
    simp [reprRest] at h
  | y :: z :: zs, [x] =>
    simp only [reprTuple, List.cons_append, List.append_assoc, List.cons.injEq, true_and] at h
    obtain ⟨rfl, h⟩ := hf _ _ _ _ h
    simp [reprRest] at h
  | x :: x' :: xs, y :: y' :: ys =>
    simp only [reprTuple, List.cons_append, List.append_assoc, List.cons.injEq, true_and] at h
    obtain ⟨rfl, h'⟩ := hf _ _ _ _ h
    obtain ⟨e, rfl⟩ := reprRest_inj hf _ _ _ _ h'
    exact ⟨by rw [e], rfl⟩

theorem reprBytes_head (b : Bytes) : ∃ x xs, reprBytes b = x :: xs ∧ x ≠ 41 := ⟨_, _, rfl, by decide⟩

theorem reprTuple_head {α : Type} (f : α → Bytes) : ∀ l, ∃ xs, reprTuple f l = 40 :: xs
  | [] => ⟨_, rfl⟩
  | [_] => ⟨_, rfl⟩
  | _ :: _ :: _ => ⟨_, rfl⟩

theorem delimited_entry : Delimited reprEntry := by
  intro a b r r' h
  match a, b with
  | .bytes a, .bytes b =>
    obtain ⟨rfl, rfl⟩ := delimited_bytes a b r r' h
    exact ⟨rfl, rfl⟩
  | .tuple a, .tuple b =>
    obtain ⟨rfl, rfl⟩ := delimited_tuple delimited_bytes reprBytes_head a b r r' h
    exact ⟨rfl, rfl⟩
  | .bytes a, .tuple b =>
    obtain ⟨xs, e⟩ := reprTuple_head reprBytes b
    simp [reprEntry, e, reprBytes] at h
  | .tuple a, .bytes b =>
    obtain ⟨xs, e⟩ := reprTuple_head reprBytes a
    simp [reprEntry, e, reprBytes] at h

theorem reprEntry_head (e : Entry) : ∃ x xs, reprEntry e = x :: xs ∧ x ≠ 41 := by
  cases e with
  | bytes b => exact reprBytes_head b
  | tuple l =>
    obtain ⟨xs, h⟩ := reprTuple_head reprBytes l
    exact ⟨40, xs, h, by decide⟩

/-- The string that is hashed determines the proof. -/
theorem Proof.dictRepr_inj {p q : Proof Entry} (h : p.dictRepr = q.dictRepr) : p = q := by
  unfold Proof.dictRepr at h
  have h := List.append_cancel_left h
  obtain ⟨e1, h⟩ := delimited_bytes _ _ _ _ h
  have h := List.append_cancel_left h
  obtain ⟨e2, h⟩ := delimited_bytes _ _ _ _ h
  have h := List.append_cancel_left h
  obtain ⟨e3, h⟩ := delimited_bytes _ _ _ _ h
  have h := List.append_cancel_left h
  obtain ⟨e4, h⟩ := delimited_bytes _ _ _ _ h
  have h := List.append_cancel_left h
  obtain ⟨e5, _⟩ := delimited_tuple delimited_entry reprEntry_head _ _ _ _ h
  cases p; cases q
  simp_all

end Pymt
