import Verif.Model.PathText
import Verif.Lemmas.Equality
import Verif.Props.Paths

/-!
# `NibblePath` objects (C165–C167)
-/

namespace Pymt.Props

open PathObj

/-! ### C165: printing paths -/

/-- The claim: every path can be printed, and paths that print the same are equal. -/
def C165 : Prop :=
  (∀ (p q : NibblePath) (x : PathObj), PathObj.commonPrefix p q = .ok x ∨ PathObj.combine p q = .ok x → ∃ s, x.str = .ok s) ∧
  (∀ p q : NibblePath, ∀ s, p.WF → q.WF → (ofPath false p).str = .ok s → (ofPath false q).str = .ok s → p.eq q = .ok true)

/-- **C165** is false: `str` leaves out the offset. -/
theorem C165_false : ¬ C165 := by
  intro h
  have := h.2 ⟨[0x12], 0⟩ ⟨[0x12], 1⟩ _ (by unfold NibblePath.WF; decide) (by unfold NibblePath.WF; decide) rfl rfl
  exact absurd this (by decide)

/-- **C165** (part) Nor can every path be printed: paths that `common_prefix` and `combine` have made have a list of ints for their
data, and `repr` and `str` raise AttributeError. -/
theorem C165_raises_partial (p q : NibblePath) (x : PathObj) (h : PathObj.commonPrefix p q = .ok x ∨ PathObj.combine p q = .ok x) :
    x.repr = .error .attributeError ∧ x.str = .error .attributeError := by
  have hx : x.isList = true := by
    rcases h with h | h
    · unfold PathObj.commonPrefix at h
      cases hr : p.commonPrefix q with
      | error e => rw [hr] at h; exact nomatch h
      | ok r => rw [hr] at h; injection h with h; rw [← h]; rfl
    · unfold PathObj.combine at h
      cases hr : p.combine q with
      | error e => rw [hr] at h; exact nomatch h
      | ok r => rw [hr] at h; injection h with h; rw [← h]; rfl
  unfold PathObj.repr PathObj.str
  rw [hx]
  exact ⟨rfl, rfl⟩

example : PathObj.combine ⟨[0x12], 1⟩ ⟨[0x34], 0⟩ = .ok ⟨true, [2, 0x34], 1⟩ ∧
    PathObj.commonPrefix ⟨[0x12], 0⟩ ⟨[0x13], 0⟩ = .ok ⟨true, [1], 1⟩ := by decide

/-- Undoes `digits`. -/
def undigits (l : Bytes) : Nat := l.foldl (fun n c => 10 * n + (c.toNat - 48)) 0

theorem digits_range (n : Nat) : ∀ c ∈ digits n, 48 ≤ c ∧ c < 58 := by
  intro c hc
  unfold digits at hc
  obtain ⟨d, hd, rfl⟩ := List.mem_map.1 hc
  have := Nat.isDigit_of_mem_toDigits (by decide) (by decide) hd
  simp only [Char.isDigit, Bool.and_eq_true, decide_eq_true_eq] at this
  have h1 : 48 ≤ d.toNat := this.1
  have h2 : d.toNat ≤ 57 := this.2
  constructor
  · rw [UInt8.le_iff_toNat_le]; simp; omega
  · rw [UInt8.lt_iff_toNat_lt]; simp; omega

theorem undigits_digits (n : Nat) : undigits (digits n) = n := by
  have key : ∀ (l : List Char) (i : Nat), (∀ c ∈ l, c.isDigit = true) →
      (l.map fun c => UInt8.ofNat c.toNat).foldl (fun n c => 10 * n + (c.toNat - 48)) i = Nat.ofDigitChars 10 l i := by
    intro l
    induction l with
    | nil => intro i _; simp
    | cons c l ih =>
      intro i h
      rw [List.map_cons, List.foldl_cons, Nat.ofDigitChars_cons, ih _ fun c hc => h c (List.mem_cons_of_mem _ hc)]
      have := h c List.mem_cons_self
      simp only [Char.isDigit, Bool.and_eq_true, decide_eq_true_eq] at this
      have h2 : c.toNat ≤ 57 := this.2
      have e : (UInt8.ofNat c.toNat).toNat = c.toNat := by simp; omega
      rw [e]
      rfl
  unfold undigits digits
  rw [key _ _ fun c hc => Nat.isDigit_of_mem_toDigits (by decide) (by decide) hc, Nat.ofDigitChars_ten_toDigits]

/-- The text of an int tells the int. -/
theorem intText_inj {m n : Int} (h : intText m = intText n) : m = n := by
  have hd : ∀ k (l : Bytes), digits k ≠ 45 :: l := by
    intro k l e
    have := digits_range k 45 (by rw [e]; exact List.mem_cons_self)
    exact absurd this.1 (by decide)
  unfold intText at h
  split at h <;> split at h
  · injection h with _ h
    have := congrArg undigits h
    rw [undigits_digits, undigits_digits] at this
    omega
  · exact absurd h.symm (hd _ _)
  · exact absurd h (hd _ _)
  · have := congrArg undigits h
    rw [undigits_digits, undigits_digits] at this
    omega

/-- Text up to a character that is not in it. -/
theorem cut_inj {c : UInt8} : ∀ (a b r r' : Bytes), c ∉ a → c ∉ b → a ++ c :: r = b ++ c :: r' → a = b ∧ r = r'
  | [], [], r, r', _, _, h => by simpa using h
  | [], y :: ys, r, r', _, hb, h => by
    simp only [List.nil_append, List.cons_append, List.cons.injEq] at h
    exact absurd (h.1 ▸ List.mem_cons_self) hb
  | x :: xs, [], r, r', ha, _, h => by
    simp only [List.nil_append, List.cons_append, List.cons.injEq] at h
    exact absurd (h.1 ▸ List.mem_cons_self) ha
  | x :: xs, y :: ys, r, r', ha, hb, h => by
    simp only [List.cons_append, List.cons.injEq] at h
    obtain ⟨e1, e2⟩ := cut_inj xs ys r r' (fun hc => ha (List.mem_cons_of_mem _ hc)) (fun hc => hb (List.mem_cons_of_mem _ hc)) h.2
    exact ⟨by rw [h.1, e1], e2⟩

theorem hexDigit_ge (n : Nat) (h : n < 16) : 48 ≤ hexDigit n := by
  have : ∀ i : Fin 16, 48 ≤ hexDigit i.val := by decide
  exact this ⟨n, h⟩

theorem hexOf_ge : ∀ (b : Bytes), ∀ x ∈ hexOf b, 48 ≤ x
  | [], x, hx => by simp [hexOf] at hx
  | b :: bs, x, hx => by
    simp only [hexOf, List.mem_cons] at hx
    have := b.toNat_lt
    rcases hx with rfl | rfl | hx
    · exact hexDigit_ge _ (by omega)
    · exact hexDigit_ge _ (by omega)
    · exact hexOf_ge bs x hx

/-- **C165** (part) `repr` tells data and offset of every path that can be printed: paths with the same `repr` are the same. -/
theorem C165_repr_partial (p q : PathObj) (s : Bytes) (hp : p.repr = .ok s) : q.repr = .ok s ↔ p = q := by
  refine ⟨fun hq => ?_, fun h => by rw [← h, hp]⟩
  obtain ⟨pl, pd, po⟩ := p
  obtain ⟨ql, qd, qo⟩ := q
  cases pl with
  | true => exact nomatch hp
  | false =>
    cases ql with
    | true => exact nomatch hq
    | false =>
      simp only [PathObj.repr, Bool.false_eq_true, if_false, Except.ok.injEq] at hp hq
      rw [← hq] at hp
      have h := List.append_cancel_left hp
      have h44 : ∀ d : Bytes, (44 : UInt8) ∉ hexOf d := fun d hc => absurd (hexOf_ge d 44 hc) (by decide)
      obtain ⟨e1, h⟩ := cut_inj _ _ _ _ (h44 pd) (h44 qd) (show hexOf pd ++ 44 :: _ = hexOf qd ++ 44 :: _ from h)
      have h : intText po ++ [62] = intText qo ++ [62] := List.append_cancel_left (as := [32, 79, 102, 102, 115, 101, 116, 58, 32]) h
      rw [hexOf_inj e1, intText_inj (List.append_cancel_right h)]

/-- **C165** (part) `str` tells the data and nothing else. -/
theorem C165_str_partial (p q : PathObj) (s : Bytes) (hp : p.str = .ok s) : q.str = .ok s ↔ q.isList = false ∧ q.data = p.data := by
  obtain ⟨pl, pd, po⟩ := p
  obtain ⟨ql, qd, qo⟩ := q
  cases pl with
  | true => exact nomatch hp
  | false =>
    cases ql with
    | true => exact ⟨fun h => (nomatch h), fun h => (nomatch h.1)⟩
    | false =>
      simp only [PathObj.str, Bool.false_eq_true, if_false, Except.ok.injEq] at hp ⊢
      rw [← hp]
      refine ⟨fun h => ⟨trivial, ?_⟩, fun h => by rw [h.2]⟩
      have h := List.append_cancel_left h
      have h32 : ∀ d : Bytes, (32 : UInt8) ∉ hexOf d := fun d hc => absurd (hexOf_ge d 32 hc) (by decide)
      exact hexOf_inj (cut_inj _ _ _ _ (h32 qd) (h32 pd) (show hexOf qd ++ 32 :: _ = hexOf pd ++ 32 :: _ from h)).1

/-- `<NibblePath: Data: 0x12, Offset: -1>`. -/
example : (⟨false, [0x12], -1⟩ : PathObj).repr = .ok (sData ++ [49, 50] ++ sOffset ++ [45, 49, 62]) := by decide

/-! ### C166: offsets -/

/-- The claim of the documentation (`/repo/src/pymt/utils/nibble_path.py:14-16`): an offset skips so many nibbles at the beginning,
and a negative one so many at the end. -/
def C166 : Prop :=
  ∀ (l : Bool) (data : Bytes) (k : Nat), k ≤ data.length * 2 →
    ((⟨l, data, k⟩ : PathObj).len = .ok (data.length * 2 - k) ∧
      ∀ i : Nat, i < data.length * 2 - k → (⟨l, data, k⟩ : PathObj).nibbleAt i = (⟨l, data, 0⟩ : PathObj).nibbleAt (i + k : Nat)) ∧
    ((⟨l, data, -k⟩ : PathObj).len = .ok (data.length * 2 - k) ∧
      ∀ i : Nat, i < data.length * 2 - k → (⟨l, data, -k⟩ : PathObj).nibbleAt i = (⟨l, data, 0⟩ : PathObj).nibbleAt i)

/-- **C166** is false. -/
theorem C166_false : ¬ C166 := by
  intro h
  have := (h false [0x12] 1 (by decide)).2.1
  exact absurd this (by decide)

/-- **C166** (part) Offsets that are not negative do what the documentation says. -/
theorem C166_partial (l : Bool) (data : Bytes) (k : Nat) (hk : k ≤ data.length * 2) :
    (⟨l, data, k⟩ : PathObj).len = .ok (data.length * 2 - k) ∧
    ∀ i : Nat, (⟨l, data, k⟩ : PathObj).nibbleAt i = (⟨l, data, 0⟩ : PathObj).nibbleAt (i + k : Nat) := by
  constructor
  · simp only [PathObj.len]
    rw [if_neg (by omega)]
    congr 1
    omega
  · intro i
    simp [PathObj.nibbleAt]

/-- **C166** (part) What a negative offset does: the path gets longer instead of shorter.  The last `k` nibbles come first, and then
all nibbles.  When there are not so many, `at(0)` raises IndexError. -/
theorem C166_negative_partial (l : Bool) (data : Bytes) (k : Nat) :
    (⟨l, data, -k⟩ : PathObj).len = .ok (data.length * 2 + k) ∧
    (k ≤ data.length * 2 → ∀ i : Nat, (⟨l, data, -k⟩ : PathObj).nibbleAt i =
      if i < k then (⟨l, data, 0⟩ : PathObj).nibbleAt (data.length * 2 - k + i : Nat) else (⟨l, data, 0⟩ : PathObj).nibbleAt (i - k : Nat)) ∧
    (data.length * 2 < k → (⟨l, data, -k⟩ : PathObj).nibbleAt 0 = .error .indexError) := by
  refine ⟨?_, fun hk i => ?_, fun hk => ?_⟩
  · simp only [PathObj.len]
    rw [if_neg (by omega)]
    congr 1
    omega
  · by_cases h : i < k
    · rw [if_pos h]
      have e1 : ((i : Int) + -(k : Int)).fmod 2 = ((data.length * 2 - k + i : Nat) : Int).fmod 2 := by
        rw [Int.fmod_eq_emod_of_nonneg _ (by decide), Int.fmod_eq_emod_of_nonneg _ (by decide)]
        omega
      have e2 : MTree.pyIndexInt data (((i : Int) + -(k : Int)).fdiv 2) = MTree.pyIndexInt data (((data.length * 2 - k + i : Nat) : Int).fdiv 2) := by
        rw [Int.fdiv_eq_ediv_of_nonneg _ (by decide), Int.fdiv_eq_ediv_of_nonneg _ (by decide)]
        unfold MTree.pyIndexInt
        rw [if_neg (by omega), if_pos (by omega), if_pos (by omega)]
        congr 1
        omega
      simp only [PathObj.nibbleAt, Int.add_zero, e1, e2]
    · rw [if_neg h]
      have e : (i : Int) + -(k : Int) = ((i - k : Nat) : Int) := by omega
      simp only [PathObj.nibbleAt, Int.add_zero, e]
  · have e : MTree.pyIndexInt data ((0 + -(k : Int)).fdiv 2) = .error .indexError := by
      rw [Int.fdiv_eq_ediv_of_nonneg _ (by decide)]
      unfold MTree.pyIndexInt
      rw [if_neg (by omega), if_neg (by omega)]
    simp only [PathObj.nibbleAt, e]
    rfl

/-- `NibblePath(b"\x12\x34", -1)` has the nibbles 4, 1, 2, 3, 4. -/
example : (⟨false, [0x12, 0x34], -1⟩ : PathObj).len = .ok 5 ∧
    (List.range 5).map (fun i => (⟨false, [0x12, 0x34], -1⟩ : PathObj).nibbleAt (i : Nat)) = [.ok 4, .ok 1, .ok 2, .ok 3, .ok 4] := by decide

/-- Paths with offsets that are not negative are the paths of `Model/NibblePath.lean`. -/
theorem C166_same_partial (l : Bool) (p : NibblePath) :
    (ofPath l p).len = p.len ∧ ∀ i : Nat, (ofPath l p).nibbleAt i = p.nibbleAt i := by
  obtain ⟨data, offset⟩ := p
  constructor
  · show (if (data.length : Int) * 2 - (offset : Int) < 0 then (.error .valueError : Py Nat) else .ok ((data.length : Int) * 2 - (offset : Int)).toNat) =
      if offset ≤ data.length * 2 then .ok (data.length * 2 - offset) else .error .valueError
    by_cases h : offset ≤ data.length * 2
    · rw [if_neg (by omega), if_pos h]
      congr 1
      omega
    · rw [if_pos (by omega), if_neg h]
  · intro i
    have e1 : ((i : Int) + (offset : Int)).fdiv 2 = (((i + offset) / 2 : Nat) : Int) := by
      rw [Int.fdiv_eq_ediv_of_nonneg _ (by decide)]; omega
    have e2 : ((i : Int) + (offset : Int)).fmod 2 = (((i + offset) % 2 : Nat) : Int) := by
      rw [Int.fmod_eq_emod_of_nonneg _ (by decide)]; omega
    simp only [PathObj.nibbleAt, NibblePath.nibbleAt, ofPath, e1, e2, MTree.pyIndexInt]
    rw [if_pos (by omega), Int.toNat_natCast]
    unfold pyIndex
    cases data[(i + offset) / 2]? with
    | none => rfl
    | some b =>
      simp only [Except.bind_ok', Except.pure_ok']
      congr 1
      have : (((i + offset) % 2 : Nat) : Int) = 0 ↔ (i + offset) % 2 = 0 := by omega
      simp only [this]

/-! ### C167: `consume` -/

/-- The claim of the documentation (`/repo/src/pymt/utils/nibble_path.py:165-177`): `consume` gives a new path; the old one stays as
it is. -/
def C167 : Prop :=
  ∀ (h : List PathObj) (a : Nat) (n : Int), a < h.length → (consume a n h).2[a]? = h[a]?

/-- **C167** is false. -/
theorem C167_false : ¬ C167 := by
  intro h
  have := h [⟨false, [0x12], 0⟩] 0 1 (by decide)
  exact absurd this (by decide)

/-- **C167** (part) `consume` changes the path and returns this very object: afterwards the path has its nibbles from `n` on.  Other
paths stay as they are. -/
theorem C167_partial (h : List PathObj) (a : Nat) (n : Int) (p : PathObj) (hp : h[a]? = some p) :
    (consume a n h).1 = .ok a ∧
    (∃ p', (consume a n h).2[a]? = some p' ∧ ∀ i, p'.nibbleAt i = p.nibbleAt (i + n)) ∧
    ∀ b, b ≠ a → (consume a n h).2[b]? = h[b]? := by
  refine ⟨rfl, ⟨{ p with offset := p.offset + n }, ?_, fun i => ?_⟩, fun b hb => ?_⟩
  · show (h.modify a _)[a]? = _
    rw [List.getElem?_modify, hp]
    simp
  · have e : i + (p.offset + n) = i + n + p.offset := by omega
    simp only [PathObj.nibbleAt, e]
  · show (h.modify a _)[b]? = _
    rw [List.getElem?_modify]
    simp [Ne.symm hb]

/-- **C167** (part) So a path can be consumed and given back. -/
theorem C167_back_partial (h : List PathObj) (a : Nat) (n : Int) : (consume a (-n) (consume a n h).2).2 = h := by
  show (h.modify a _).modify a _ = h
  rw [List.modify_modify_eq]
  have : (fun p : PathObj => { p with offset := p.offset + -n }) ∘ (fun p : PathObj => { p with offset := p.offset + n }) = id := by
    funext p
    obtain ⟨l, d, o⟩ := p
    have e : o + n + -n = o := by omega
    simp only [Function.comp, e, id]
  rw [this, List.modify_id]

example : (consume 1 3 [⟨false, [0x12], 0⟩, ⟨false, [0x34, 0x56], 0⟩]).2 = [⟨false, [0x12], 0⟩, ⟨false, [0x34, 0x56], 3⟩] := by decide

end Pymt.Props
