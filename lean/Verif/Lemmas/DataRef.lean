import Verif.Model.Empt
import Verif.Lemmas.Rlp
import Verif.Lemmas.Store

/-!
# The codec of `DataReference`
-/

namespace Pymt

theorem lenPrefix_length_le {o n : Nat} (h : n < 2 ^ 64) : (lenPrefix o n).length ≤ 9 := by
  unfold lenPrefix
  split
  · simp
  · have := beBytes_length_le h
    simp only [List.length_cons]
    omega

theorem encStr_length_le {b : Bytes} (h : b.length < 2 ^ 64) : (encStr b).length ≤ b.length + 9 := by
  match b, h with
  | [], _ =>
    have := lenPrefix_length_le (o := 128) (n := 0) (by decide)
    simpa [encStr] using this
  | [x], _ =>
    have := lenPrefix_length_le (o := 128) (n := 1) (by decide)
    simp only [encStr]
    split <;> simp <;> omega
  | a :: b :: l, h =>
    have := lenPrefix_length_le (o := 128) h
    simp only [encStr, List.length_append]
    omega

theorem ofBE_inj {a b : Bytes} (hl : a.length = b.length) (h : ofBE a = ofBE b) : a = b := by
  rw [← beFix_ofBE a, ← beFix_ofBE b, hl, h]

theorem beBytes_ofBE_length_le {b : Bytes} (hb : b ≠ []) : (beBytes (ofBE b)).length ≤ b.length := by
  rw [beBytes_length]
  have h1 := ofBE_lt b
  by_cases h0 : ofBE b = 0
  · rw [h0]
    have : 0 < b.length := List.length_pos_iff.2 hb
    simp only [Nat.log2_zero]
    omega
  · rw [pow256] at h1
    have := (Nat.log2_lt h0).2 h1
    omega

namespace DataRef

theorem hash_eq_iff (E : Env) (r s : DataRef) :
    r.hash E = s.hash E ↔ E.keccak (r.key ++ r.data) = E.keccak (s.key ++ s.data) := by
  constructor
  · exact ofBE_inj (by rw [E.keccak_len, E.keccak_len])
  · intro h; unfold hash; rw [h]

theorem eq_iff (E : Env) (r s : DataRef) :
    r.eq E s = true ↔ E.keccak (r.key ++ r.data) = E.keccak (s.key ++ s.data) := by
  rw [← hash_eq_iff, eq, beq_iff_eq]

theorem intOf_intItem (n : Nat) : intOf (intItem n) = .ok n := by
  unfold intItem intOf
  by_cases h : n = 0
  · subst h; rfl
  · simp only [if_neg h, if_neg (beBytes_head h), ofBE_beBytes]

/-- Only the canonical item is accepted as an integer that is not zero. -/
theorem intItem_of_intOf {x : Item} {n : Nat} (h : intOf x = .ok n) (hn : n ≠ 0) : x = intItem n := by
  cases x with
  | list l =>
    cases l with
    | nil => simp [intOf] at h; exact absurd h.symm hn
    | cons a l => simp [intOf] at h
  | str b =>
    simp only [intOf] at h
    split at h
    · simp at h
    · rename_i h0
      simp only [Except.ok.injEq] at h
      subst h
      unfold intItem
      by_cases hb : b = []
      · subst hb; rfl
      · have := beBytes_ofBE hb h0
        by_cases hz : ofBE b = 0
        · exfalso
          rw [hz] at this
          have h2 : beBytes 0 = [0] := by decide
          rw [h2] at this
          rw [← this] at h0
          exact h0 rfl
        · rw [if_neg hz, this]

theorem hash_item_length (E : Env) (r : DataRef) :
    (Item.encode (intItem (r.hash E))).length ≤ 41 := by
  have hb : (if r.hash E = 0 then ([] : Bytes) else beBytes (r.hash E)).length ≤ 32 := by
    split
    · simp
    · unfold hash
      have := beBytes_ofBE_length_le (b := E.keccak (r.key ++ r.data)) (by
        intro h; have := E.keccak_len (r.key ++ r.data); rw [h] at this; simp at this)
      rwa [E.keccak_len] at this
  unfold intItem
  rw [Item.encode]
  have := encStr_length_le (b := if r.hash E = 0 then ([] : Bytes) else beBytes (r.hash E)) (by omega)
  omega

/-- A reference to data of reasonable size has an encoding of reasonable size. -/
theorem encode_length_lt {E : Env} {r : DataRef} (h : r.key.length + r.data.length < 2 ^ 60) :
    (r.encode E).length < 2 ^ 61 := by
  have h1 := hash_item_length E r
  have h2 := encStr_length_le (b := r.key) (by omega)
  have h3 := encStr_length_le (b := r.data) (by omega)
  have h4 : (encStr flag).length = 3 := by decide
  have h5 : (Item.encodeList [.str flag, .str r.key, .str r.data, intItem (r.hash E)]).length < 2 ^ 60 + 62 := by
    simp only [Item.encodeList, Item.encode, List.length_append, List.append_nil, List.length_nil] at h1 ⊢
    omega
  unfold encode
  rw [Item.encode, List.length_append]
  have h6 := lenPrefix_length_le (o := 192) (n := (Item.encodeList [.str flag, .str r.key, .str r.data,
    intItem (r.hash E)]).length) (by omega)
  omega

theorem decode_encode {E : Env} {r : DataRef} (h : (r.encode E).length < 2 ^ 64) :
    decode E (r.encode E) = .ok r := by
  unfold decode encode
  rw [rlpDecode_encode _ h]
  simp [MPT.binary, intOf_intItem]

/-- Whatever `decode` accepts is the encoding of what it returns. -/
theorem encode_decode {E : Env} {b : Bytes} {r : DataRef} (h : decode E b = .ok r) (h0 : r.hash E ≠ 0) :
    r.encode E = b := by
  unfold decode at h
  cases hd : rlpDecode b with
  | error e => rw [hd] at h; simp at h
  | ok x =>
    rw [hd] at h
    match x, h with
    | .str _, h => simp at h
    | .list [], h => simp at h
    | .list [_], h => simp at h
    | .list [_, _], h => simp at h
    | .list [_, _, _], h => simp at h
    | .list (_ :: _ :: _ :: _ :: _ :: _), h => simp at h
    | .list [f, k, d, n], h =>
      rw [← encode_rlpDecode hd]
      match f, k, d, h with
      | .list _, _, _, h => simp [MPT.binary] at h
      | .str _, .list _, _, h => simp [MPT.binary] at h
      | .str _, .str _, .list _, h => simp [MPT.binary] at h
      | .str f, .str k, .str d, h =>
        cases hn : intOf n with
        | error e => simp [MPT.binary, hn] at h
        | ok m =>
          simp only [Except.bind_ok', MPT.binary, hn] at h
          by_cases hf : f = flag
          · by_cases hm : hash E ⟨k, d⟩ = m
            · simp [hf, hm] at h
              subst h
              unfold encode
              rw [intItem_of_intOf hn (hm ▸ h0), hf]
              simp only [hm]
            · simp [hf, hm] at h
          · simp [hf] at h

theorem encode_ne_nil (E : Env) (r : DataRef) : r.encode E ≠ [] := Item.encode_ne_nil _

end DataRef
end Pymt
