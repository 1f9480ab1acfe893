import Verif.Lemmas.Decoding

/-!
# Property C70: decoding nodes is strict
-/

namespace Pymt
namespace Props

/-- The full statement of C70: a byte string which `Node.decode` accepts is the encoding of the node it
gives. -/
def C70 : Prop := ∀ (v : Bytes) (n : Node), Node.decode v = .ok n → n.encode = .ok v

/-- C70 is false: the flag byte `0xe0` is read as `0x20`. -/
theorem C70_false : ¬ C70 := by
  intro h
  have := h [0xc3, 0x81, 0xe0, 0x05] (.leaf ⟨[0xe0], 2⟩ [0x05]) (by decide +kernel)
  exact absurd this (by decide +kernel)

/-- Exactly the byte strings which `Node.decode` accepts. -/
theorem C70_accepts (v : Bytes) (hv : v.length < 2 ^ 64) :
    (∃ n, Node.decode v = .ok n) ↔ ∃ l, v = Item.encode (.list l) ∧ NodeLike l := by
  constructor
  · rintro ⟨n, h⟩
    obtain ⟨l, hl, hn⟩ := Node.decode_inv h
    exact ⟨l, (encode_rlpDecode hl).symm, hn⟩
  · rintro ⟨l, rfl, hn⟩
    have hr := rlpDecode_encode _ hv
    rcases hn with ⟨c, p, d, hc, rfl⟩ | ⟨c, p, x, hc, rfl⟩ | ⟨rs, d, h16, rfl⟩
    · obtain ⟨r, _, _, h⟩ := Node.decode_leaf hr hc; exact ⟨_, h⟩
    · obtain ⟨r, _, _, h⟩ := Node.decode_ext hr hc; exact ⟨_, h⟩
    · exact ⟨_, Node.decode_branch h16 hr⟩

/-- C70 in part: exactly the byte strings which `Node.decode` accepts and `encode` gives back: the path is in hex-prefix
form and every reference is nothing, at least 32 bytes, one byte below `0x80`, or a nested item shorter
than 32 bytes.  Missing: the other accepted strings (`C70_accepts`), for which C70 is false. -/
theorem C70_exact_partial (v : Bytes) (hv : v.length < 2 ^ 64) :
    (∃ n, Node.decode v = .ok n ∧ n.encode = .ok v) ↔ ∃ l, v = Item.encode (.list l) ∧ CanonNode l := by
  constructor
  · rintro ⟨n, h, he⟩
    obtain ⟨l, hl, hn⟩ := Node.decode_inv h
    have hvl : Item.encode (.list l) = v := encode_rlpDecode hl
    refine ⟨l, hvl.symm, ?_⟩
    have hmem : ∀ x ∈ l, x.encode.length < 2 ^ 64 := fun x hx => by
      have := encode_le_list hx; rw [hvl] at this; omega
    have hinj : ∀ m, Item.encode (.list m) = v → m = l := fun m hm => by
      have := Item.encode_inj (x := .list m) (y := .list l) (by rw [hm]; exact hv) (hm.trans hvl.symm)
      exact Item.list.inj this
    rcases hn with ⟨c, p, d, hc, rfl⟩ | ⟨c, p, x, hc, rfl⟩ | ⟨rs, d, h16, rfl⟩
    · obtain ⟨r, _, hw, h'⟩ := Node.decode_leaf hl hc
      rw [h'] at h
      cases h
      rw [Node.encode, NibblePath.encode_spec hw] at he
      simp only [Except.bind_ok', Except.pure_ok', Except.ok.injEq] at he
      exact .inl ⟨r.nibs, d, (hinj _ he).symm⟩
    · obtain ⟨r, _, hw, h'⟩ := Node.decode_ext hl hc
      rw [h'] at h
      cases h
      rw [Node.encode, NibblePath.encode_spec hw] at he
      cases hp : prepareForEncoding (prepareForUsage x) with
      | error e => rw [hp] at he; simp at he
      | ok y =>
        rw [hp] at he
        simp only [Except.bind_ok', Except.pure_ok', Except.ok.injEq] at he
        have hm := hinj _ he
        simp only [List.cons.injEq, and_true] at hm
        obtain ⟨hm1, hm2⟩ := hm
        subst hm2
        refine .inr (.inl ⟨r.nibs, y, by rw [hm1], ?_⟩)
        exact (prepare_good (hmem y (by simp))).1 hp
    · rw [Node.decode_branch h16 hl] at h
      cases h
      rw [Node.encode] at he
      cases hp : prepareAll (rs.map prepareForUsage) with
      | error e => rw [hp] at he; simp at he
      | ok ys =>
        rw [hp] at he
        simp only [Except.bind_ok', Except.pure_ok', Except.ok.injEq] at he
        have hm := List.append_cancel_right (hinj _ he)
        subst hm
        refine .inr (.inr ⟨ys, d, h16, rfl, ?_⟩)
        exact (prepareAll_good fun x hx => hmem x (by simp [hx])).1 hp
  · rintro ⟨l, rfl, hn⟩
    have hr := rlpDecode_encode _ hv
    have hmem : ∀ x ∈ l, x.encode.length < 2 ^ 64 := fun x hx => by
      have := encode_le_list hx; omega
    have hleaf : ∀ (b : Bool) (q : List Nib), ∃ c p, hp b q = c :: p ∧
        c.toNat / 32 % 2 = if b then 1 else 0 := by
      intro b q
      obtain ⟨r, hr, _, _⟩ := NibblePath.decodeWithType_spec b q
      cases hb : hp b q with
      | nil => exact absurd hb (hp_ne_nil b q)
      | cons c p =>
        refine ⟨c, p, rfl, ?_⟩
        obtain ⟨r', hr', _⟩ := decodeWithType_cons c p
        rw [hb, hr'] at hr
        simp only [Except.ok.injEq, Prod.mk.injEq] at hr
        have h2 := hr.2
        cases b
        · have := of_decide_eq_false h2; simp; omega
        · exact of_decide_eq_true h2
    rcases hn with ⟨q, d, rfl⟩ | ⟨q, x, rfl, hx⟩ | ⟨rs, d, h16, rfl, hx⟩
    · obtain ⟨c, p, hb, hc⟩ := hleaf true q
      rw [hb] at hr
      obtain ⟨r, hd, hw, h'⟩ := Node.decode_leaf hr hc
      rw [← hb] at hd h'
      refine ⟨_, h', ?_⟩
      obtain ⟨r', hd', _, hn'⟩ := NibblePath.decodeWithType_spec true q
      rw [hd'] at hd
      simp only [Except.ok.injEq, Prod.mk.injEq, and_true] at hd
      subst hd
      rw [Node.encode, NibblePath.encode_spec hw, hn']
      simp
    · obtain ⟨c, p, hb, hc⟩ := hleaf false q
      rw [hb] at hr
      obtain ⟨r, hd, hw, h'⟩ := Node.decode_ext hr hc
      rw [← hb] at hd h'
      refine ⟨_, h', ?_⟩
      obtain ⟨r', hd', _, hn'⟩ := NibblePath.decodeWithType_spec false q
      rw [hd'] at hd
      simp only [Except.ok.injEq, Prod.mk.injEq, and_true] at hd
      subst hd
      rw [Node.encode, NibblePath.encode_spec hw, hn', (prepare_good (hmem x (by simp))).2 hx]
      simp
    · refine ⟨_, Node.decode_branch h16 hr, ?_⟩
      rw [Node.encode, (prepareAll_good fun x h => hmem x (by simp [h])).2 hx]
      simp

/-- What a rejected byte string raises. -/
theorem C70_raises {v : Bytes} {e : Err} (h : Node.decode v = .error e) :
    e = .rlpDecoding ∨ e = .typeError ∨ e = .assertion ∨ e = .indexError := by
  simpa using decode_only v e h

/-- A leaf, an extension with a nested node and an extension with a hash in canonical form. -/
example : CanonNode [.str (hp true [1, 2, 3]), .str [7]] := .inl ⟨_, _, rfl⟩
example : CanonNode [.str (hp false [1, 2]), .list [.str [0x20], .str [7]]] :=
  .inr (.inl ⟨_, _, rfl, by unfold GoodRef; decide +kernel⟩)
example : CanonNode (List.replicate 16 (.str []) ++ [.str [7]]) :=
  .inr (.inr ⟨_, _, rfl, rfl, fun x hx => by rw [List.eq_of_mem_replicate hx]; exact .inl rfl⟩)
/-- An accepted string which is not canonical: a reference of three bytes. -/
example : NodeLike [.str [0x11], .str [1, 2, 3]] ∧ ¬ GoodRef (.str [1, 2, 3]) :=
  ⟨.inr (.inl ⟨0x11, [], _, by decide, rfl⟩), by simp [GoodRef]⟩
/-- One string for each exception. -/
example : Node.decode [0x83] = .error .rlpDecoding ∧ Node.decode [0xc2, 0x31, 0xc0] = .error .typeError ∧
    Node.decode [0xc0] = .error .assertion ∧ Node.decode [0xc2, 0x80, 0x05] = .error .indexError := by
  refine ⟨?_, ?_, ?_, ?_⟩ <;> decide +kernel

end Props
end Pymt
