import Verif.Lemmas.ProofObj
import Verif.Lemmas.History
import Verif.Lemmas.DataRef
import Verif.Lemmas.Kept

/-!
# How long the nodes of a trie are

A node is as long as its path and its value, and at most 546 bytes more.
-/

namespace Pymt
namespace T

theorem Canon.full {t : T} (h : t.Canon) : t.Full := by
  induction t with
  | empty => trivial
  | leaf p v => trivial
  | ext p c ih => exact ⟨h.1, h.2.1, ih h.2.2⟩
  | branch cs v ih => exact ⟨h.1, fun i => ih i (h.2.2 i)⟩

/-- All keys of the trie have at most `N` nibbles and all its values at most `B` bytes. -/
def Within (N B : Nat) (t : T) : Prop :=
  t.Full ∧ ∀ q v, lookup t q = some v → q.length ≤ N ∧ v.length ≤ B

theorem Within.ext {N B : Nat} {q : List Nib} {c : T} (h : Within N B (ext q c)) : Within N B c := by
  refine ⟨h.1.2.2, fun r v hr => ?_⟩
  have := h.2 (q ++ r) v (by rw [lookup_ext_append]; exact hr)
  rw [List.length_append] at this
  exact ⟨by omega, this.2⟩

theorem Within.child {N B : Nat} {cs : Nib → T} {v : Bytes} (h : Within N B (branch cs v)) (i : Nib) :
    Within N B (cs i) := by
  refine ⟨h.1.2 i, fun r w hr => ?_⟩
  have := h.2 (i :: r) w hr
  rw [List.length_cons] at this
  exact ⟨by omega, this.2⟩

theorem Within.trail {N B : Nat} {t : T} (h : Within N B t) (p : List Nib) :
    ∀ x ∈ trail t p, Within N B x := by
  obtain ⟨h1, h2⟩ := seek_induct (P := Within N B) (fun _ _ h => h.ext) (fun _ _ i h => h.child i) h p
  intro x hx
  rcases List.mem_append.1 hx with hx | hx
  · exact h2 x hx
  · rw [List.mem_singleton.1 hx]; exact h1

/-- What refers to a node has at most 33 bytes. -/
theorem wrap_length (E : Env) (x : Item) : (wrap E x).encode.length ≤ 33 := by
  unfold wrap
  split
  · omega
  · rw [Item.encode]
    have hl := E.keccak_len x.encode
    generalize E.keccak x.encode = b at hl
    unfold encStr
    split
    · simp at hl
    · rw [lenPrefix_short (by omega)]
      simp only [List.length_append, List.length_cons, List.length_nil]
      omega

theorem encodeList_append (l m : List Item) :
    (Item.encodeList (l ++ m)).length = (Item.encodeList l).length + (Item.encodeList m).length := by
  induction l with
  | nil => simp [Item.encodeList]
  | cons x l ih => simp only [List.cons_append, Item.encodeList, List.length_append, ih]; omega

theorem encodeList_le {α : Type} (l : List α) (f : α → Item) {c : Nat} (h : ∀ a, (f a).encode.length ≤ c) :
    (Item.encodeList (l.map f)).length ≤ c * l.length := by
  induction l with
  | nil => simp [Item.encodeList]
  | cons x l ih =>
    simp only [List.map_cons, Item.encodeList, List.length_append, List.length_cons]
    have := h x
    rw [Nat.mul_add]
    omega

/-- A node is at most 546 bytes longer than its path and its value. -/
theorem Within.enc {E : Env} {N B : Nat} {t : T} (h : Within N B t) (hl : (T.enc E t).length < 2 ^ 64) :
    (T.enc E t).length ≤ N / 2 + B + 546 := by
  cases t with
  | empty =>
    have : (T.enc E .empty).length = 1 := by show (Item.encode (.str [])).length = 1; decide
    omega
  | leaf q v =>
    obtain ⟨h1, h2⟩ := h.2 q v (by simp [lookup])
    simp only [T.enc, item, Item.encode, Item.encodeList, List.append_nil, List.length_append] at hl ⊢
    have e1 := encStr_length_ge (hp true q)
    have e2 := encStr_length_ge v
    have g1 := encStr_le (b := hp true q) (by omega)
    have g2 := encStr_le (b := v) (by omega)
    have g3 := lenPrefix_le 192 (n := (encStr (hp true q)).length + (encStr v).length) (by omega)
    rw [hp_length] at g1
    omega
  | ext q c =>
    have hne : c ≠ .empty := h.1.shape.child_ne
    obtain ⟨r, v, hr⟩ := h.1.2.2.exists_key hne
    obtain ⟨h1, _⟩ := h.2 (q ++ r) v (by rw [lookup_ext_append]; exact hr)
    rw [List.length_append] at h1
    simp only [T.enc, item, Item.encode, Item.encodeList, List.append_nil, List.length_append] at hl ⊢
    have e1 := encStr_length_ge (hp false q)
    have g1 := encStr_le (b := hp false q) (by omega)
    have g2 := wrap_length E (item E c)
    have g3 := lenPrefix_le 192 (n := (encStr (hp false q)).length + (wrap E (item E c)).encode.length) (by omega)
    rw [hp_length] at g1
    omega
  | branch cs v =>
    have hv : v.length ≤ B := by
      by_cases he : v = []
      · subst he; exact Nat.zero_le _
      · exact (h.2 [] v (by simp [lookup, he])).2
    have hd : (T.enc E (branch cs v)).length =
        (lenPrefix 192 (Item.encodeList ((List.finRange 16).map (fun i => wrap E (item E (cs i))) ++ [.str v])).length).length +
        (Item.encodeList ((List.finRange 16).map (fun i => wrap E (item E (cs i))) ++ [.str v])).length := by
      simp only [T.enc, item, Item.encode, List.length_append]
    have ha := encodeList_append ((List.finRange 16).map (fun i => wrap E (item E (cs i)))) [.str v]
    have hb : (Item.encodeList ((List.finRange 16).map (fun i => wrap E (item E (cs i))))).length ≤ 528 :=
      encodeList_le (List.finRange 16) (fun i => wrap E (item E (cs i))) (c := 33) (fun i => wrap_length E _)
    have hc : (Item.encodeList [.str v]).length = (encStr v).length := by
      simp [Item.encodeList, Item.encode]
    have e2 := encStr_length_ge v
    have g2 := encStr_le (b := v) (by omega)
    have g3 := lenPrefix_le 192 (n := (Item.encodeList ((List.finRange 16).map
      (fun i => wrap E (item E (cs i))) ++ [.str v])).length) (by omega)
    omega

/-- The placeholder at the end of an exclusion proof. -/
theorem null_enc (E : Env) {r : List Nib} (h : r.length < 2 ^ 61) :
    (T.enc E (leaf r MPT.nullBytes)).length ≤ r.length / 2 + 24 := by
  have h1 := encStr_le (b := hp true r) (by rw [hp_length]; omega)
  have h2 : (encStr MPT.nullBytes).length = 5 := by decide
  rw [hp_length] at h1
  have h3 := lenPrefix_le 192 (n := (encStr (hp true r) ++ encStr MPT.nullBytes).length)
    (by rw [List.length_append]; omega)
  simp only [T.enc, item, Item.encode, Item.encodeList, List.length_append, List.append_nil] at *
  omega

theorem sum_le_mul {α : Type} (l : List α) (f : α → Nat) {c : Nat} (h : ∀ a ∈ l, f a ≤ c) :
    (l.map f).sum ≤ l.length * c := by
  induction l with
  | nil => simp
  | cons x l ih =>
    have h1 := h x (by simp)
    have h2 := ih (fun a ha => h a (List.mem_cons_of_mem _ ha))
    simp only [List.map_cons, List.sum_cons, List.length_cons, Nat.add_mul, Nat.one_mul]
    omega

end T
end Pymt

namespace Pymt

/-! ### What is in an encoding -/

theorem suffix_encStr (b : Bytes) : b <:+ encStr b := by
  unfold encStr
  split
  · split
    · exact List.suffix_refl _
    · exact List.suffix_append _ _
  · exact List.suffix_append _ _

theorem infix_encodeList {l : List Item} {x : Item} (h : x ∈ l) : x.encode <:+: Item.encodeList l := by
  induction l with
  | nil => simp at h
  | cons y l ih =>
    rw [Item.encodeList]
    rcases List.mem_cons.1 h with rfl | h
    · exact (List.prefix_append _ _).isInfix
    · exact (ih h).trans (List.suffix_append _ _).isInfix

theorem infix_encode {l : List Item} {b : Bytes} (h : .str b ∈ l) : b <:+: (Item.list l).encode := by
  rw [Item.encode]
  have h1 := infix_encodeList h
  rw [Item.encode] at h1
  exact ((suffix_encStr b).isInfix.trans h1).trans (List.suffix_append _ _).isInfix

/-- A reference contains the key and the data. -/
theorem DataRef.infix_encode (E : Env) (r : DataRef) : r.key <:+: r.encode E ∧ r.data <:+: r.encode E :=
  ⟨Pymt.infix_encode (by simp), Pymt.infix_encode (by simp)⟩

theorem DataRef.encode_length_le {E : Env} {r : DataRef} (h : r.key.length + r.data.length < 2 ^ 60) :
    (r.encode E).length ≤ r.key.length + r.data.length + 71 := by
  have h1 := hash_item_length E r
  have h2 := encStr_length_le (b := r.key) (by omega)
  have h3 := encStr_length_le (b := r.data) (by omega)
  have h4 : (encStr flag).length = 3 := by decide
  have h5 : (Item.encodeList [.str flag, .str r.key, .str r.data, intItem (r.hash E)]).length ≤
      r.key.length + r.data.length + 62 := by
    simp only [Item.encodeList, Item.encode, List.length_append, List.append_nil, List.length_nil] at h1 ⊢
    omega
  unfold encode
  rw [Item.encode, List.length_append]
  have h6 := lenPrefix_length_le (o := 192) (n := (Item.encodeList [.str flag, .str r.key, .str r.data,
    intItem (r.hash E)]).length) (by omega)
  omega

namespace T

/-- Where the walk to a present key stops, the value is. -/
theorem seek_value {t : T} (hs : t.Shape) {p : List Nib} {v : Bytes} (h : lookup t p = some v) :
    (∃ q, (T.seek t p).1 = leaf q v) ∨ ∃ cs, (T.seek t p).1 = branch cs v := by
  induction t generalizing p with
  | empty => simp [lookup] at h
  | leaf q w =>
    simp only [lookup] at h
    split at h
    · simp only [Option.some.injEq] at h
      subst h; exact .inl ⟨q, by cases p <;> rfl⟩
    · simp at h
  | ext q c ih =>
    obtain ⟨r, rfl, hr⟩ := lookup_ext_some h
    cases hp : q ++ r with
    | nil =>
      exact absurd (List.append_eq_nil_iff.1 hp).1 hs.1
    | cons i p =>
      rw [T.seek, if_pos (by rw [← hp]; exact List.prefix_append _ _), ← hp, List.drop_left]
      exact ih hs.2.2 hr
  | branch cs w ih =>
    cases p with
    | nil =>
      simp only [lookup] at h
      split at h
      · simp at h
      · simp only [Option.some.injEq] at h
        subst h; exact .inr ⟨cs, rfl⟩
    | cons i p =>
      have h : lookup (cs i) p = some v := h
      rw [T.seek, if_neg]
      · exact ih i (hs i) h
      · intro he
        rw [isEmpty_iff.1 he] at h
        simp [lookup] at h

/-- A node contains its value. -/
theorem infix_enc (E : Env) {x : T} {v : Bytes} (h : (∃ q, x = leaf q v) ∨ ∃ cs, x = branch cs v) :
    v <:+: T.enc E x := by
  rcases h with ⟨q, rfl⟩ | ⟨cs, rfl⟩
  · exact Pymt.infix_encode (by simp)
  · exact Pymt.infix_encode (by simp)

end T
end Pymt
