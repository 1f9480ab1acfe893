import Verif.Spec.Standard
import Verif.Lemmas.Untrusted
import Verif.Lemmas.Same

/-!
# The client of `Spec/Standard.lean` on tries
-/

namespace Pymt
namespace Std

theorem unhp_hp (leaf : Bool) (q : List Nib) : unhp (hp leaf q) = some (leaf, q) := by
  unfold unhp hp
  by_cases h : q.length % 2 = 1
  · rw [if_pos h, toNibs_pack _ (by simp only [List.length_cons]; omega)]
    cases leaf <;> simp
  · rw [if_neg h, toNibs_pack _ (by simp only [List.length_cons]; omega)]
    cases leaf <;> simp

theorem fetch_enc {E : Env} {l log : List Bytes} {a : T} (hc : CollFree E (log ++ l)) (ha : T.enc E a ∈ log)
    (hlen : (T.enc E a).length < 2 ^ 64) :
    fetch E l (E.keccak (T.enc E a)) = if T.enc E a ∈ l then some (T.item E a) else none := by
  unfold fetch
  have hfind : ∀ b ∈ l, E.keccak b = E.keccak (T.enc E a) → b = T.enc E a := fun b hb he =>
    hc b (List.mem_append_right _ hb) _ (List.mem_append_left _ ha) he
  by_cases hm : T.enc E a ∈ l
  · rw [if_pos hm]
    cases hf : l.find? fun b => E.keccak b == E.keccak (T.enc E a) with
    | none =>
      have := List.find?_eq_none.1 hf _ hm
      simp at this
    | some b =>
      have h1 := List.find?_some hf
      have h2 := List.mem_of_find?_eq_some hf
      have : b = T.enc E a := hfind b h2 (by simpa using h1)
      subst this
      simp only
      rw [T.enc, rlpDecode_encode _ hlen]
  · rw [if_neg hm]
    cases hf : l.find? fun b => E.keccak b == E.keccak (T.enc E a) with
    | none => rfl
    | some b =>
      have h1 := List.find?_some hf
      have h2 := List.mem_of_find?_eq_some hf
      have : b = T.enc E a := hfind b h2 (by simpa using h1)
      subst this
      exact absurd h2 hm

theorem deref_wrap {E : Env} {l log : List Bytes} {a : T} (hne : a ≠ .empty) (hc : CollFree E (log ++ l))
    (ha : (T.enc E a).length < 32 ∨ T.enc E a ∈ log) (hlen : (T.enc E a).length < 2 ^ 64) :
    deref E l (T.wrap E (T.item E a)) =
      if 32 ≤ (T.enc E a).length → T.enc E a ∈ l then some (T.item E a) else none := by
  unfold T.wrap
  by_cases hs : (T.item E a).encode.length < 32
  · rw [if_pos hs, if_pos (fun h => absurd hs (by unfold T.enc at h; omega))]
    obtain ⟨xs, hx⟩ := T.item_list (E := E) hne
    rw [hx]; rfl
  · rw [if_neg hs]
    have ha : T.enc E a ∈ log := ha.resolve_left hs
    rw [deref]
    rw [show (T.item E a).encode = T.enc E a from rfl, fetch_enc hc ha hlen]
    have : 32 ≤ (T.enc E a).length := by unfold T.enc; omega
    simp [this]

/-- What the client finds in a trie: the truth if the list has the hashed nodes on the way, otherwise nothing. -/
theorem walk_item {E : Env} {kv : Dict Bytes} {l log : List Bytes} {a : T} (hsh : a.Shape) (hne : a ≠ .empty)
    (hst : T.Stored E kv a) (hlog : T.Logged E log a) (hc : CollFree E (log ++ l)) (p : List Nib) {f : Nat}
    (hf : p.length < f) :
    walk E l f (T.item E a) p =
      if ∀ x ∈ (T.trail a p).tail, 32 ≤ (T.enc E x).length → T.enc E x ∈ l then some (T.lookup a p) else none := by
  induction a generalizing p f with
  | empty => exact absurd rfl hne
  | leaf q v =>
    obtain ⟨f, rfl⟩ : ∃ g, f = g + 1 := ⟨f - 1, by omega⟩
    have ht : (T.trail (.leaf q v) p).tail = [] := by cases p <;> rfl
    rw [ht, if_pos (by simp)]
    simp only [T.item, walk, List.length_cons, List.length_nil, unhp_hp, T.lookup]
    rfl
  | ext q c ih =>
    obtain ⟨f, rfl⟩ : ∃ g, f = g + 1 := ⟨f - 1, by omega⟩
    have hcn : c ≠ .empty := by rintro rfl; simp [T.Shape, T.isBranch] at hsh
    by_cases hq : q <+: p
    · obtain ⟨i, p, rfl⟩ : ∃ i p', p = i :: p' := by
        cases p with
        | nil => exact absurd (List.prefix_nil.1 hq) hsh.1
        | cons i p => exact ⟨i, p, rfl⟩
      have hw : walk E l (f + 1) (T.item E (.ext q c)) (i :: p) =
          (deref E l (T.wrap E (T.item E c))).bind fun y => walk E l f y ((i :: p).drop q.length) := by
        simp only [T.item, walk, List.length_cons, List.length_nil, unhp_hp, hq, if_true]
        rfl
      rw [hw, deref_wrap hcn hc (hlog.2.here hcn) (T.enc_len hst.2), T.trail_ext hq, List.tail_cons]
      have hlen : ((i :: p).drop q.length).length < f := by
        have : 0 < q.length := List.length_pos_iff.2 hsh.1
        rw [List.length_drop]
        simp only [List.length_cons] at hf ⊢
        omega
      have := ih hsh.2.2 hcn hst.2 hlog.2 ((i :: p).drop q.length) hlen
      obtain ⟨tl, htl⟩ := T.trail_head (t := c) ((i :: p).drop q.length)
      rw [htl, List.tail_cons] at this
      rw [htl]
      by_cases h1 : 32 ≤ (T.enc E c).length → T.enc E c ∈ l
      · rw [if_pos h1, Option.bind_some, this]
        simp only [T.lookup, hq, if_true, List.mem_cons, forall_eq_or_imp]
        by_cases h2 : ∀ x ∈ tl, 32 ≤ (T.enc E x).length → T.enc E x ∈ l
        · rw [if_pos h2, if_pos ⟨h1, h2⟩]
        · rw [if_neg h2, if_neg fun h => h2 h.2]
      · rw [if_neg h1, Option.bind_none, if_neg]
        exact fun h => h1 (h c (by simp))
    · have hw : walk E l (f + 1) (T.item E (.ext q c)) p = some none := by
        simp only [T.item, walk, List.length_cons, List.length_nil, unhp_hp, hq, if_false]
        rfl
      have ht : (T.trail (.ext q c) p).tail = [] := by
        cases p with
        | nil => rfl
        | cons i p => simp [T.trail, T.passed, T.seek, hq]
      rw [hw, ht, if_pos (by simp), T.lookup_ext_none c hq]
  | branch cs v ih =>
    obtain ⟨f, rfl⟩ : ∃ g, f = g + 1 := ⟨f - 1, by omega⟩
    have h17 : ((List.finRange 16).map (fun i => T.wrap E (T.item E (cs i))) ++ [Item.str v]).length = 17 := by simp
    cases p with
    | nil =>
      have h16 : ((List.finRange 16).map (fun i => T.wrap E (T.item E (cs i))) ++ [Item.str v])[16]? = some (.str v) := by
        rw [List.getElem?_append_right (by simp)]; simp
      have ht : (T.trail (.branch cs v) []).tail = [] := rfl
      rw [ht, if_pos (by simp)]
      simp only [T.item, walk, h17, if_true, h16, T.lookup]
    | cons i p =>
      have hi : ((List.finRange 16).map (fun i => T.wrap E (T.item E (cs i))) ++ [Item.str v])[i.val]? =
          some (T.wrap E (T.item E (cs i))) := by
        rw [List.getElem?_append_left (by simp)]; simp
      by_cases he : cs i = .empty
      · have hwr : T.wrap E (T.item E (cs i)) = .str [] := by
          rw [he]
          have : (Item.encode (.str [])).length < 32 := by decide
          simp [T.wrap, T.item, this]
        have ht : (T.trail (.branch cs v) (i :: p)).tail = [] := by
          simp [T.trail, T.passed, T.seek, he, T.isEmpty]
        rw [ht, if_pos (by simp)]
        rw [hwr] at hi
        simp only [T.item, walk, h17, if_true, hi, T.lookup, he]
      · have hes : (cs i).isEmpty ≠ true := by
          cases hcs : cs i <;> simp_all [T.isEmpty]
        have hw : walk E l (f + 1) (T.item E (.branch cs v)) (i :: p) =
            (deref E l (T.wrap E (T.item E (cs i)))).bind fun y => walk E l f y p := by
          have hne' : T.wrap E (T.item E (cs i)) ≠ .str [] := by
            obtain ⟨xs, hx⟩ := T.item_list (E := E) he
            unfold T.wrap
            split
            · rw [hx]; simp
            · intro h0
              simp only [Item.str.injEq] at h0
              have := E.keccak_len (T.item E (cs i)).encode
              rw [h0] at this
              simp at this
          simp only [T.item, walk, h17, if_true, hi]
        rw [hw, deref_wrap he hc ((hlog.2 i).here he) (T.enc_len (hst.2 i)), T.trail_branch hes, List.tail_cons]
        have := ih i (hsh i) he (hst.2 i) (hlog.2 i) p (f := f) (by simp only [List.length_cons] at hf; omega)
        obtain ⟨tl, htl⟩ := T.trail_head (t := cs i) p
        rw [htl, List.tail_cons] at this
        rw [htl]
        by_cases h1 : 32 ≤ (T.enc E (cs i)).length → T.enc E (cs i) ∈ l
        · rw [if_pos h1, Option.bind_some, this]
          simp only [T.lookup, List.mem_cons, forall_eq_or_imp]
          by_cases h2 : ∀ x ∈ tl, 32 ≤ (T.enc E x).length → T.enc E x ∈ l
          · rw [if_pos h2, if_pos ⟨h1, h2⟩]
          · rw [if_neg h2, if_neg fun h => h2 h.2]
        · rw [if_neg h1, Option.bind_none, if_neg]
          exact fun h => h1 (h _ (by simp))

/-- The whole check. -/
theorem verify_holds {E : Env} {t : MPT} {a : T} {l : List Bytes} (h : T.Holds E t a) (hne : a ≠ .empty)
    (hc : CollFree E (hashed t ++ l)) (path : Bytes) :
    verify E (t.rootHash E) path l =
      if T.enc E a ∈ l ∧ ∀ x ∈ (T.trail a (toNibs path)).tail, 32 ≤ (T.enc E x).length → T.enc E x ∈ l then
        some (T.lookup a (toNibs path)) else none := by
  have hm : T.enc E a ∈ hashed t := by
    rcases List.mem_cons.1 h.enc_hashed with h0 | h0
    · exfalso
      obtain ⟨xs, hx⟩ := T.item_list (E := E) hne
      have := Item.encode_inj (x := .str []) (by decide) h0.symm
      rw [hx] at this
      simp at this
    · exact h0
  have hlog : T.Logged E (hashed t) a := by
    have := h.stored.logged h.good
    exact this.mono fun x hx => List.mem_append_left _ hx
  unfold verify
  rw [h.rootHash, fetch_enc hc hm (T.enc_len h.stored)]
  by_cases h1 : T.enc E a ∈ l
  · rw [if_pos h1, Option.bind_some, walk_item h.shape hne h.stored hlog hc _ (by rw [toNibs_length]; omega)]
    simp only [h1, true_and]
  · rw [if_neg h1, Option.bind_none, if_neg fun h => h1 h.1]

end Std
end Pymt
