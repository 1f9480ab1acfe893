import Verif.Spec.Canonical
import Verif.Lemmas.Nibble
import Verif.Lemmas.Rlp
import Verif.Lemmas.Raises
import Verif.Model.Node

/-!
# Exactly which byte strings `Node.decode` accepts, and which of them the encoder gives back
-/

namespace Pymt

theorem encode_le_list {x : Item} {l : List Item} (h : x ∈ l) :
    x.encode.length ≤ (Item.encode (.list l)).length := by
  have : ∀ l : List Item, x ∈ l → x.encode.length ≤ (Item.encodeList l).length := by
    intro l
    induction l with
    | nil => intro h; simp at h
    | cons y l ih =>
      intro h
      rw [Item.encodeList, List.length_append]
      rcases List.mem_cons.1 h with rfl | h
      · omega
      · have := ih h; omega
  have h1 := this l h
  rw [Item.encode]
  simp only [List.length_append]
  omega

/-- Reading a reference and writing it again gives it back exactly for good references. -/
theorem prepare_good {x : Item} (h : x.encode.length < 2 ^ 64) :
    prepareForEncoding (prepareForUsage x) = .ok x ↔ GoodRef x := by
  cases x with
  | list l =>
    show prepareForEncoding (Item.encode (.list l)) = _ ↔ (Item.encode (.list l)).length < 32
    unfold prepareForEncoding
    have hp := Item.encode_length_pos (.list l)
    by_cases hl : (Item.encode (.list l)).length < 32
    · rw [if_pos ⟨hp, hl⟩, rlpDecode_encode _ h]; simp [hl]
    · rw [if_neg (fun h => hl h.2)]; simp [hl]
  | str b =>
    show prepareForEncoding b = _ ↔ (b = [] ∨ 32 ≤ b.length ∨ ∃ c : UInt8, b = [c] ∧ c.toNat < 128)
    unfold prepareForEncoding
    by_cases hb : 0 < b.length ∧ b.length < 32
    · rw [if_pos hb]
      constructor
      · intro hd
        have he := encode_rlpDecode hd
        refine .inr (.inr ?_)
        match b, hb with
        | [c], _ =>
          refine ⟨c, rfl, ?_⟩
          by_cases hc : c.toNat < 128
          · exact hc
          · exfalso
            have h3 := congrArg List.length he
            simp [Item.encode, encStr, hc, lenPrefix] at h3
        | c :: c' :: b', hb =>
          exfalso
          have h3 := congrArg List.length he
          have hlt : (c :: c' :: b').length < 56 := by omega
          simp only [Item.encode, encStr, List.length_append, lenPrefix_short hlt] at h3
          simp at h3
      · rintro (rfl | h32 | ⟨c, rfl, hc⟩)
        · simp at hb
        · omega
        · have := rlpDecode_encode (.str [c]) h
          simpa [Item.encode, encStr, hc] using this
    · rw [if_neg hb]
      have : b = [] ∨ 32 ≤ b.length := by
        by_cases h0 : b = []
        · exact .inl h0
        · have := List.length_pos_iff.2 h0
          exact .inr (by omega)
      rcases this with h | h <;> simp [h]

theorem prepareAll_good {l : List Item} (h : ∀ x ∈ l, x.encode.length < 2 ^ 64) :
    prepareAll (l.map prepareForUsage) = .ok l ↔ ∀ x ∈ l, GoodRef x := by
  induction l with
  | nil => simp [prepareAll]
  | cons x l ih =>
    have ih := ih (fun y hy => h y (List.mem_cons_of_mem _ hy))
    have hx := prepare_good (h x List.mem_cons_self)
    simp only [List.map_cons, prepareAll, List.forall_mem_cons, ← hx, ← ih]
    cases prepareForEncoding (prepareForUsage x) with
    | error e => simp
    | ok i =>
      simp only [Except.bind_ok']
      cases prepareAll (l.map prepareForUsage) with
      | error e => simp
      | ok is => simp

theorem decodeWithType_cons (c : UInt8) (p : Bytes) :
    ∃ r : NibblePath, NibblePath.decodeWithType (c :: p) = .ok (r, decide (c.toNat / 32 % 2 = 1)) ∧ r.WF := by
  have h : ∀ n : Fin 256, (n.val &&& 0x20 == 0x20) = decide (n.val / 32 % 2 = 1) := by decide +kernel
  have h' := h ⟨c.toNat, c.toNat_lt⟩
  simp only at h'
  refine ⟨⟨c :: p, if (c.toNat &&& 0x10 == 0x10) = true then 1 else 2⟩, by simp only [NibblePath.decodeWithType, h'], ?_⟩
  simp only [NibblePath.WF, List.length_cons]
  split <;> omega

namespace Node

theorem decode_leaf {v : Bytes} {c : UInt8} {p d : Bytes} (h : rlpDecode v = .ok (.list [.str (c :: p), .str d]))
    (hc : c.toNat / 32 % 2 = 1) :
    ∃ r : NibblePath, NibblePath.decodeWithType (c :: p) = .ok (r, true) ∧ r.WF ∧
      Node.decode v = .ok (.leaf r d) := by
  obtain ⟨r, hr, hw⟩ := decodeWithType_cons c p
  rw [decide_eq_true hc] at hr
  refine ⟨r, hr, hw, ?_⟩
  rw [Node.decode, h]
  simp [hr, asBytes]

theorem decode_ext {v : Bytes} {c : UInt8} {p : Bytes} {x : Item} (h : rlpDecode v = .ok (.list [.str (c :: p), x]))
    (hc : c.toNat / 32 % 2 = 0) :
    ∃ r : NibblePath, NibblePath.decodeWithType (c :: p) = .ok (r, false) ∧ r.WF ∧
      Node.decode v = .ok (.ext r (prepareForUsage x)) := by
  obtain ⟨r, hr, hw⟩ := decodeWithType_cons c p
  rw [decide_eq_false (by omega)] at hr
  refine ⟨r, hr, hw, ?_⟩
  rw [Node.decode, h]
  simp [hr]

theorem decode_branch {v : Bytes} {rs : List Item} {d : Bytes} (hl : rs.length = 16)
    (h : rlpDecode v = .ok (.list (rs ++ [.str d]))) :
    Node.decode v = .ok (.branch (rs.map prepareForUsage) d) := by
  rw [Node.decode, h]
  simp only [Except.bind_ok', List.length_append, hl, List.length_cons, List.length_nil, if_true]
  rw [List.take_left' hl]
  have : (rs ++ [Item.str d])[16]? = some (.str d) := by
    rw [List.getElem?_append_right (by omega), hl]; rfl
  simp [this, asBytes]

/-- What an accepted byte string looks like. -/
theorem decode_inv {v : Bytes} {n : Node} (h : Node.decode v = .ok n) :
    ∃ l, rlpDecode v = .ok (.list l) ∧ NodeLike l := by
  rw [Node.decode] at h
  cases hd : rlpDecode v with
  | error e => rw [hd] at h; simp at h
  | ok i =>
    rw [hd] at h
    simp only [Except.bind_ok'] at h
    cases i with
    | str b =>
      simp only at h
      split at h <;> simp at h
    | list l =>
      refine ⟨l, rfl, ?_⟩
      simp only at h
      by_cases h17 : l.length = 17
      · right; right
        have hsplit : l = l.take 16 ++ l.drop 16 := (List.take_append_drop 16 l).symm
        have hlen : (l.drop 16).length = 1 := by simp [h17]
        obtain ⟨d, hd'⟩ := List.length_eq_one_iff.1 hlen
        rw [hd'] at hsplit
        have h16 : l[16]? = some d := by
          rw [hsplit, List.getElem?_append_right (by simp [h17])]; simp [h17]
        simp only [h17, if_true, h16] at h
        cases d with
        | list m => simp [asBytes] at h
        | str b => exact ⟨l.take 16, b, by simp [h17], hsplit⟩
      · simp only [h17, if_false] at h
        match l, h with
        | [.str [], d], h => simp [NibblePath.decodeWithType] at h
        | [.str (c :: p), d], h =>
          obtain ⟨r, hr, _⟩ := decodeWithType_cons c p
          by_cases hc : c.toNat / 32 % 2 = 1
          · rw [decide_eq_true hc] at hr
            cases d with
            | list m => simp [hr, asBytes] at h
            | str b => exact .inl ⟨c, p, b, hc, rfl⟩
          · exact .inr (.inl ⟨c, p, d, by omega, rfl⟩)
        | [.list [], d], h => simp at h
        | [.list (_ :: _), d], h => simp at h
        | [], h => simp at h
        | [_], h => simp at h
        | _ :: _ :: _ :: _, h => simp at h

end Node
end Pymt
