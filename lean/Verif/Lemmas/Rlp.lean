import Verif.Model.Rlp

/-! # RLP: round trip and canonicity -/

namespace Pymt

theorem beFix_length (k n : Nat) : (beFix k n).length = k := by
  induction k generalizing n with
  | zero => rfl
  | succ k ih => simp [beFix, ih]

theorem ofBE_append_single (b : Bytes) (x : UInt8) : ofBE (b ++ [x]) = ofBE b * 256 + x.toNat := by
  simp [ofBE, List.foldl_append]

theorem ofBE_beFix (k n : Nat) : ofBE (beFix k n) = n % 256 ^ k := by
  induction k generalizing n with
  | zero => simp [beFix, ofBE, Nat.mod_one]
  | succ k ih =>
    rw [beFix, ofBE_append_single, ih, Nat.pow_succ']
    rw [Nat.mod_mul]
    simp
    omega

theorem ofBE_foldl (b : Bytes) (a : Nat) :
    b.foldl (fun acc x => acc * 256 + x.toNat) a = a * 256 ^ b.length + ofBE b := by
  induction b generalizing a with
  | nil => simp [ofBE]
  | cons x b ih =>
    have h2 : ofBE (x :: b) = x.toNat * 256 ^ b.length + ofBE b := by
      have := ih (0 * 256 + x.toNat)
      rw [Nat.zero_mul, Nat.zero_add] at this
      rw [← this, ofBE, List.foldl_cons, Nat.zero_mul, Nat.zero_add]
    rw [List.foldl_cons, ih, h2, List.length_cons, Nat.pow_succ', Nat.add_mul, Nat.mul_assoc]
    omega

theorem ofBE_cons (x : UInt8) (b : Bytes) : ofBE (x :: b) = x.toNat * 256 ^ b.length + ofBE b := by
  have := ofBE_foldl b x.toNat
  simpa [ofBE] using this

theorem ofBE_lt (b : Bytes) : ofBE b < 256 ^ b.length := by
  induction b with
  | nil => simp [ofBE]
  | cons x b ih =>
    rw [ofBE_cons, List.length_cons, Nat.pow_succ']
    have hx : x.toNat < 256 := x.toNat_lt
    calc x.toNat * 256 ^ b.length + ofBE b < x.toNat * 256 ^ b.length + 256 ^ b.length := by omega
      _ = (x.toNat + 1) * 256 ^ b.length := by rw [Nat.add_mul, Nat.one_mul]
      _ ≤ 256 * 256 ^ b.length := Nat.mul_le_mul_right _ (by omega)

/-- Big-endian strings of the same length are determined by their value. -/
theorem beFix_ofBE (b : Bytes) : beFix b.length (ofBE b) = b := by
  rw [← List.reverse_reverse b]
  induction b.reverse with
  | nil => rfl
  | cons x c ih =>
    rw [List.reverse_cons]
    generalize c.reverse = b at ih ⊢
    have hx : x.toNat < 256 := x.toNat_lt
    rw [List.length_append, List.length_singleton, beFix, ofBE_append_single]
    have h1 : (ofBE b * 256 + x.toNat) / 256 = ofBE b := by omega
    have h2 : (ofBE b * 256 + x.toNat) % 256 = x.toNat := by omega
    rw [h1, h2, ih]
    simp

theorem pow256 (k : Nat) : 256 ^ k = 2 ^ (8 * k) := by
  rw [show (256 : Nat) = 2 ^ 8 from rfl, ← Nat.pow_mul]

theorem lt_pow_bytes (n : Nat) : n < 256 ^ (n.log2 / 8 + 1) := by
  rw [pow256]
  exact Nat.lt_of_lt_of_le Nat.lt_log2_self (Nat.pow_le_pow_right (by decide) (by omega))

theorem pow_bytes_le {n : Nat} (h : n ≠ 0) : 256 ^ (n.log2 / 8) ≤ n := by
  rw [pow256]
  exact Nat.le_trans (Nat.pow_le_pow_right (by decide) (by omega)) (Nat.log2_self_le h)

theorem ofBE_beBytes (n : Nat) : ofBE (beBytes n) = n := by
  rw [beBytes, ofBE_beFix, Nat.mod_eq_of_lt (lt_pow_bytes n)]

theorem beBytes_length (n : Nat) : (beBytes n).length = n.log2 / 8 + 1 := beFix_length _ _

theorem beBytes_length_le {n : Nat} (h : n < 2 ^ 64) : (beBytes n).length ≤ 8 := by
  rw [beBytes_length]
  by_cases h0 : n = 0
  · subst h0; decide
  · have := (Nat.log2_lt h0).2 h
    omega

theorem beBytes_head {n : Nat} (h : n ≠ 0) : (beBytes n).head? ≠ some 0 := by
  intro hh
  cases hb : beBytes n with
  | nil => simp [hb] at hh
  | cons x b =>
    rw [hb] at hh
    simp at hh
    subst hh
    have h1 : ofBE (0 :: b) = n := by rw [← hb, ofBE_beBytes]
    rw [ofBE_cons] at h1
    have h2 := ofBE_lt b
    have h3 : b.length = n.log2 / 8 := by
      have := beBytes_length n
      rw [hb] at this
      simpa using this
    have h4 := pow_bytes_le h
    rw [h3] at h2
    simp at h1
    omega

/-- A big-endian string without leading zero is the minimal one of its value. -/
theorem beBytes_ofBE {b : Bytes} (hne : b ≠ []) (h0 : b.head? ≠ some 0) : beBytes (ofBE b) = b := by
  cases b with
  | nil => exact absurd rfl hne
  | cons x b =>
    have hx : x.toNat ≠ 0 := by
      intro h
      apply h0
      simp
      exact UInt8.toNat_inj.1 h
    have hlt := ofBE_lt (x :: b)
    have hge : 256 ^ b.length ≤ ofBE (x :: b) := by
      rw [ofBE_cons]
      have : 1 * 256 ^ b.length ≤ x.toNat * 256 ^ b.length := Nat.mul_le_mul_right _ (by omega)
      omega
    have hn : ofBE (x :: b) ≠ 0 := by
      have : 0 < 256 ^ b.length := Nat.pow_pos (by decide)
      omega
    have hl : (ofBE (x :: b)).log2 / 8 + 1 = (x :: b).length := by
      rw [pow256] at hlt hge
      have h1 := (Nat.log2_lt hn).2 hlt
      have h2 := (Nat.le_log2 hn).2 hge
      simp at h1 ⊢
      omega
    rw [beBytes, hl, beFix_ofBE]

/-! ### Header -/

theorem takeExact_append (p r : Bytes) : takeExact p.length (p ++ r) = some (p, r) := by
  simp [takeExact]

theorem takeExact_some {n : Nat} {b p r : Bytes} (h : takeExact n b = some (p, r)) :
    p.length = n ∧ p ++ r = b := by
  unfold takeExact at h
  split at h
  · next hle =>
    simp at h
    obtain ⟨rfl, rfl⟩ := h
    simp [hle]
  · simp at h

theorem longBody_eq {p r : Bytes} (h56 : 56 ≤ p.length) :
    longBody (beBytes p.length).length (beBytes p.length ++ (p ++ r)) = some (p, r) := by
  unfold longBody
  rw [takeExact_append]
  simp only
  rw [if_neg (beBytes_head (by omega)), ofBE_beBytes, if_neg (by omega), takeExact_append]

theorem longBody_some {ll : Nat} {b p r : Bytes} (hll : 0 < ll) (h : longBody ll b = some (p, r)) :
    56 ≤ p.length ∧ (beBytes p.length).length = ll ∧ beBytes p.length ++ (p ++ r) = b := by
  unfold longBody at h
  split at h
  · simp at h
  next lb rest' ht =>
    obtain ⟨hl, rfl⟩ := takeExact_some ht
    split at h
    · simp at h
    next h0 =>
      split at h
      · simp at h
      next h56 =>
        obtain ⟨h1, rfl⟩ := takeExact_some h
        have hlb : beBytes p.length = lb := by
          rw [h1]
          exact beBytes_ofBE (by intro hc; subst hc; simp at hl; omega) h0
        exact ⟨by omega, by rw [hlb, hl], by rw [hlb]⟩

theorem lenPrefix_short {o n : Nat} (h : n < 56) : lenPrefix o n = [UInt8.ofNat (o + n)] := by
  simp [lenPrefix, h]

theorem lenPrefix_long {o n : Nat} (h : 56 ≤ n) :
    lenPrefix o n = UInt8.ofNat (o + 55 + (beBytes n).length) :: beBytes n := by
  have : ¬ n < 56 := by omega
  simp [lenPrefix, this]

theorem toNat_ofNat {n : Nat} (h : n < 256) : (UInt8.ofNat n).toNat = n := by
  simp [UInt8.toNat_ofNat']; omega

theorem header_list {p : Bytes} (hp : p.length < 2 ^ 64) (r : Bytes) :
    header (lenPrefix 192 p.length ++ p ++ r) = some (true, p, r) := by
  by_cases h : p.length < 56
  · rw [lenPrefix_short h]
    simp only [List.cons_append, List.nil_append, header]
    rw [toNat_ofNat (by omega), if_neg (by omega), if_neg (by omega), if_neg (by omega),
      if_pos (by omega)]
    rw [show 192 + p.length - 192 = p.length by omega, takeExact_append]
    rfl
  · have h8 := beBytes_length_le hp
    have h56 : 56 ≤ p.length := by omega
    have h1 : 1 ≤ (beBytes p.length).length := by rw [beBytes_length]; omega
    rw [lenPrefix_long h56]
    simp only [List.cons_append, header]
    rw [toNat_ofNat (by omega), if_neg (by omega), if_neg (by omega), if_neg (by omega),
      if_neg (by omega)]
    rw [show 192 + 55 + (beBytes p.length).length - 247 = (beBytes p.length).length by omega,
      List.append_assoc, longBody_eq h56]
    rfl

theorem header_str_aux {p : Bytes} (hp : p.length < 2 ^ 64) (r : Bytes)
    (h1 : ∀ x, p = [x] → 128 ≤ x.toNat) :
    header (lenPrefix 128 p.length ++ p ++ r) = some (false, p, r) := by
  by_cases h : p.length < 56
  · rw [lenPrefix_short h]
    simp only [List.cons_append, List.nil_append, header]
    rw [toNat_ofNat (by omega), if_neg (by omega), if_pos (by omega)]
    rw [show 128 + p.length - 128 = p.length by omega, takeExact_append]
    match p with
    | [] => rfl
    | [x] => have := h1 x rfl; simp; omega
    | _ :: _ :: _ => rfl
  · have h8 := beBytes_length_le hp
    have h56 : 56 ≤ p.length := by omega
    have h1 : 1 ≤ (beBytes p.length).length := by rw [beBytes_length]; omega
    rw [lenPrefix_long h56]
    simp only [List.cons_append, header]
    rw [toNat_ofNat (by omega), if_neg (by omega), if_neg (by omega), if_pos (by omega)]
    rw [show 128 + 55 + (beBytes p.length).length - 183 = (beBytes p.length).length by omega,
      List.append_assoc, longBody_eq h56]
    rfl

theorem header_str {b : Bytes} (hb : b.length < 2 ^ 64) (r : Bytes) :
    header (encStr b ++ r) = some (false, b, r) := by
  match b, hb with
  | [], _ => simpa [encStr] using header_str_aux (p := []) (by decide) r (by simp)
  | [x], _ =>
    by_cases hx : x.toNat < 128
    · simp [encStr, hx, header]
    · have := header_str_aux (p := [x]) (by simp) r (by intro y hy; simp at hy; subst hy; omega)
      simpa [encStr, hx] using this
  | x :: y :: b, hb =>
    have := header_str_aux (p := x :: y :: b) hb r (by simp)
    simpa [encStr] using this

theorem header_inv {b p r : Bytes} {isList : Bool} (h : header b = some (isList, p, r)) :
    b = (if isList then lenPrefix 192 p.length ++ p else encStr p) ++ r := by
  match b with
  | [] => simp [header] at h
  | b0 :: rest =>
    have hlt : b0.toNat < 256 := b0.toNat_lt
    have hb0 : UInt8.ofNat b0.toNat = b0 := by simp
    simp only [header] at h
    split at h
    · next h128 =>
      simp at h
      obtain ⟨rfl, rfl, rfl⟩ := h
      simp [encStr, h128]
    · split at h
      · next h128 h184 =>
        split at h
        · simp at h
        next p' r' ht =>
          obtain ⟨hl, rfl⟩ := takeExact_some ht
          have hpre : lenPrefix 128 p'.length = [b0] := by
            rw [lenPrefix_short (by omega), hl, show 128 + (b0.toNat - 128) = b0.toNat by omega, hb0]
          rcases p' with _ | ⟨x, _ | ⟨y, p''⟩⟩
          rotate_left
          · simp only at h
            split at h
            · simp at h
            next hx =>
              simp at h
              obtain ⟨rfl, rfl, rfl⟩ := h
              simp only [List.length_singleton] at hpre
              simp [encStr, hx, hpre]
          · simp at h
            obtain ⟨rfl, rfl, rfl⟩ := h
            simp only [List.length_cons] at hpre
            simp [encStr, hpre]
          · simp at h
            obtain ⟨rfl, rfl, rfl⟩ := h
            simp only [List.length_nil] at hpre
            simp [encStr, hpre]
      · split at h
        · next h128 h184 h192 =>
          simp only [Option.map_eq_some_iff] at h
          obtain ⟨⟨p', r'⟩, hb, he⟩ := h
          simp at he
          obtain ⟨rfl, rfl, rfl⟩ := he
          obtain ⟨h56, hll, rfl⟩ := longBody_some (by omega) hb
          have : encStr p' = lenPrefix 128 p'.length ++ p' := by
            rcases p' with _ | ⟨x, _ | ⟨y, p''⟩⟩
            · simp at h56
            · simp at h56
            · rfl
          rw [if_neg (by simp), this, lenPrefix_long h56, hll,
            show 128 + 55 + (b0.toNat - 183) = b0.toNat by omega, hb0]
          simp
        · split at h
          · next h128 h184 h192 h248 =>
            simp only [Option.map_eq_some_iff] at h
            obtain ⟨⟨p', r'⟩, hb, he⟩ := h
            simp at he
            obtain ⟨rfl, rfl, rfl⟩ := he
            obtain ⟨hl, rfl⟩ := takeExact_some hb
            rw [if_pos rfl, lenPrefix_short (by omega), hl,
              show 192 + (b0.toNat - 192) = b0.toNat by omega, hb0]
            simp
          · next h128 h184 h192 h248 =>
            simp only [Option.map_eq_some_iff] at h
            obtain ⟨⟨p', r'⟩, hb, he⟩ := h
            simp at he
            obtain ⟨rfl, rfl, rfl⟩ := he
            obtain ⟨h56, hll, rfl⟩ := longBody_some (by omega) hb
            rw [if_pos rfl, lenPrefix_long h56, hll,
              show 192 + 55 + (b0.toNat - 247) = b0.toNat by omega, hb0]
            simp

/-! ### Items -/

theorem lenPrefix_ne_nil (o n : Nat) : lenPrefix o n ≠ [] := by
  unfold lenPrefix; split <;> simp

theorem lenPrefix_length_pos (o n : Nat) : 0 < (lenPrefix o n).length :=
  List.length_pos_iff.2 (lenPrefix_ne_nil o n)

theorem encStr_length_ge (b : Bytes) : b.length ≤ (encStr b).length := by
  match b with
  | [] => simp
  | [x] => simp only [encStr]; split <;> simp
  | _ :: _ :: _ => simp only [encStr]; simp

theorem encStr_length_pos (b : Bytes) : 0 < (encStr b).length := by
  match b with
  | [] => simp only [encStr]; have := lenPrefix_length_pos 128 0; simpa using this
  | [x] => simp only [encStr]; split <;> simp
  | _ :: _ :: _ => simp only [encStr]; simp; omega

theorem Item.encode_length_pos (x : Item) : 0 < x.encode.length := by
  cases x with
  | str b => rw [Item.encode]; exact encStr_length_pos b
  | list l => rw [Item.encode]; have := lenPrefix_length_pos 192 (Item.encodeList l).length; simp; omega

theorem Item.encode_ne_nil (x : Item) : x.encode ≠ [] :=
  List.length_pos_iff.1 x.encode_length_pos

theorem decodeSeq_encodeList (f : Nat) (l : List Item)
    (hf : (Item.encodeList l).length ≤ f) (hs : (Item.encodeList l).length < 2 ^ 64) :
    decodeSeq f (Item.encodeList l) = some l := by
  induction f generalizing l with
  | zero =>
    cases l with
    | nil => simp [Item.encodeList, decodeSeq]
    | cons x xs =>
      rw [Item.encodeList, List.length_append] at hf
      have := x.encode_length_pos
      omega
  | succ f ih =>
    cases l with
    | nil => simp [Item.encodeList, decodeSeq]
    | cons x xs =>
      rw [Item.encodeList, List.length_append] at hf hs
      have hpos := x.encode_length_pos
      rw [Item.encodeList]
      obtain ⟨b, bs, hb⟩ : ∃ b bs, x.encode ++ Item.encodeList xs = b :: bs := by
        cases he : x.encode with
        | nil => exact absurd he x.encode_ne_nil
        | cons b bs => exact ⟨b, bs ++ Item.encodeList xs, rfl⟩
      rw [hb, decodeSeq, ← hb]
      have hxs : decodeSeq f (Item.encodeList xs) = some xs := ih xs (by omega) (by omega)
      cases x with
      | str s =>
        rw [Item.encode] at hf hs ⊢
        have := encStr_length_ge s
        rw [header_str (by omega)]
        simp [hxs]
      | list l' =>
        rw [Item.encode, List.length_append] at hf hs
        have := lenPrefix_length_pos 192 (Item.encodeList l').length
        rw [Item.encode, header_list (by omega)]
        simp [hxs, ih l' (by omega) (by omega)]

theorem encodeList_decodeSeq (f : Nat) (b : Bytes) (l : List Item)
    (h : decodeSeq f b = some l) : Item.encodeList l = b := by
  induction f generalizing b l with
  | zero =>
    cases b with
    | nil => simp [decodeSeq] at h; subst h; simp [Item.encodeList]
    | cons x b => simp [decodeSeq] at h
  | succ f ih =>
    cases b with
    | nil => simp [decodeSeq] at h; subst h; simp [Item.encodeList]
    | cons x b =>
      rw [decodeSeq] at h
      split at h
      · simp at h
      next isList p r hh =>
        have hinv := header_inv hh
        split at h
        · simp at h
        next tl htl =>
          have h1 := ih _ _ htl
          split at h
          · next hl =>
            split at h
            · simp at h
            next l' hl' =>
              simp at h
              subst h
              rw [Item.encodeList, Item.encode, ih _ _ hl', h1, hinv, if_pos hl]
          · next hl =>
            simp at h
            subst h
            rw [Item.encodeList, Item.encode, h1, hinv, if_neg hl]

/-- Decoding an encoding gives the item back. -/
theorem rlpDecode_encode (x : Item) (h : x.encode.length < 2 ^ 64) : rlpDecode x.encode = .ok x := by
  have he : Item.encodeList [x] = x.encode := by simp [Item.encodeList]
  have := decodeSeq_encodeList x.encode.length [x] (by rw [he]; exact Nat.le_refl _) (by rw [he]; exact h)
  rw [he] at this
  rw [rlpDecode, this]

/-- The decoder accepts canonical encodings only. -/
theorem encode_rlpDecode {b : Bytes} {x : Item} (h : rlpDecode b = .ok x) : x.encode = b := by
  unfold rlpDecode at h
  split at h
  · next y hy =>
    simp at h
    subst h
    have := encodeList_decodeSeq _ _ _ hy
    simpa [Item.encodeList] using this
  · simp at h

theorem Item.encode_inj {x y : Item} (hx : x.encode.length < 2 ^ 64) (h : x.encode = y.encode) :
    x = y := by
  have h1 := rlpDecode_encode x hx
  have h2 := rlpDecode_encode y (h ▸ hx)
  rw [h] at h1
  rw [h1] at h2
  simpa using h2

end Pymt
