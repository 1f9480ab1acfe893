import Verif.Lemmas.Lookup

/-!
# The root commits to the trie
-/

namespace Pymt
namespace T

theorem Holds.rootHash {E : Env} {t : MPT} {a : T} (h : Holds E t a) :
    t.rootHash E = E.keccak (enc E a) := by
  unfold MPT.rootHash
  have h32 : (emptyHash E).length = 32 := E.keccak_len _
  rcases h.root with ⟨rfl, h1 | h1⟩ | ⟨h1, h2⟩
  · simp only [h1, Option.getD_none, if_true]; rfl
  · simp only [h1, Option.getD_some, h32, if_true, emptyHash_ne_nil, if_false]; rfl
  · simp only [h2, Option.getD_some, ref_ne_nil h1, if_false]
    rw [ref_of_ne h1]
    by_cases hl : (enc E a).length < 32
    · rw [if_pos hl, if_neg (by omega)]
    · rw [if_neg hl, if_pos (E.keccak_len _)]

/-- The encoding of a trie in a storage is short, or in the write log. -/
theorem Holds.enc_mem {E : Env} {t : MPT} {a : T} (h : Holds E t a) (hne : a ≠ empty) :
    (enc E a).length < 32 ∧ t.root = some (enc E a) ∨ enc E a ∈ t.store.written := by
  rcases h.stored.here hne with hh | ⟨h1, _⟩
  · left
    refine ⟨hh, ?_⟩
    rcases h.root with ⟨h0, _⟩ | ⟨_, h2⟩
    · exact absurd h0 hne
    · rw [h2, ref_of_ne hne, if_pos hh]
  · exact .inr (h.good _ _ h1).2

theorem enc_len {E : Env} {kv : Dict Bytes} {a : T} (h : Stored E kv a) : (enc E a).length < 2 ^ 64 := by
  by_cases hne : a = empty
  · subst hne
    have : (enc E empty).length = 1 := by show (Item.encode (.str [])).length = 1; decide
    omega
  · rcases h.here hne with hh | ⟨_, h2⟩
    · omega
    · exact h2

/-- Every node of a trie in storages is short or in the log. -/
def Logged (E : Env) (log : List Bytes) : T → Prop
  | empty => True
  | leaf p v => (enc E (leaf p v)).length < 32 ∨ enc E (leaf p v) ∈ log
  | ext p c => ((enc E (ext p c)).length < 32 ∨ enc E (ext p c) ∈ log) ∧ Logged E log c
  | branch cs v => ((enc E (branch cs v)).length < 32 ∨ enc E (branch cs v) ∈ log) ∧
      ∀ i, Logged E log (cs i)

theorem Logged.here {E : Env} {log : List Bytes} {t : T} (h : Logged E log t) (hne : t ≠ empty) :
    (enc E t).length < 32 ∨ enc E t ∈ log := by
  cases t with
  | empty => exact absurd rfl hne
  | leaf p v => exact h
  | ext p c => exact h.1
  | branch cs v => exact h.1

theorem here_logged {E : Env} {st : Store} (hg : Good E st) {t : T} (h : Here E st.kv t) :
    (enc E t).length < 32 ∨ enc E t ∈ st.written :=
  h.imp id fun h => (hg _ _ h.1).2

theorem Stored.logged {E : Env} {st : Store} (hg : Good E st) {t : T} (h : Stored E st.kv t) :
    Logged E st.written t := by
  induction t with
  | empty => trivial
  | leaf p v => exact here_logged hg h
  | ext p c ih => exact ⟨here_logged hg h.1, ih h.2⟩
  | branch cs v ih => exact ⟨here_logged hg h.1, fun i => ih i (h.2 i)⟩

theorem Logged.mono {E : Env} {l l' : List Bytes} (hs : ∀ a ∈ l, a ∈ l') {t : T} (h : Logged E l t) :
    Logged E l' t := by
  induction t with
  | empty => trivial
  | leaf p v => exact h.imp id (hs _)
  | ext p c ih => exact ⟨h.1.imp id (hs _), ih h.2⟩
  | branch cs v ih => exact ⟨h.1.imp id (hs _), fun i => ih i (h.2 i)⟩

/-- Equal references, no collisions: equal encodings. -/
theorem enc_of_ref {E : Env} {log : List Bytes} (hc : CollFree E log) {a b : T} (ha : a ≠ empty)
    (hb : b ≠ empty) (hla : Logged E log a) (hlb : Logged E log b) (h : ref E a = ref E b) :
    enc E a = enc E b := by
  rw [ref_of_ne ha, ref_of_ne hb] at h
  by_cases h1 : (enc E a).length < 32 <;> by_cases h2 : (enc E b).length < 32
  · simpa [h1, h2] using h
  · rw [if_pos h1, if_neg h2] at h
    have := E.keccak_len (enc E b)
    rw [← h] at this; omega
  · rw [if_neg h1, if_pos h2] at h
    have := E.keccak_len (enc E a)
    rw [h] at this; omega
  · rw [if_neg h1, if_neg h2] at h
    exact hc _ ((hla.here ha).resolve_left h1) _ ((hlb.here hb).resolve_left h2) h

theorem item_inj_aux {E : Env} {a b : T} (h : enc E a = enc E b) (hl : (enc E a).length < 2 ^ 64) :
    item E a = item E b := Item.encode_inj (by rwa [enc] at hl) h

/-- Equal encodings, no collisions: equal tries. -/
theorem enc_inj {E : Env} {log : List Bytes} (hc : CollFree E log)
    (hsz : ∀ x ∈ log, x.length < 2 ^ 64) {a b : T} (hla : Logged E log a) (hlb : Logged E log b)
    (hlen : (enc E a).length < 2 ^ 64) (h : enc E a = enc E b) : a = b := by
  have hi := item_inj_aux h hlen
  have hchild : ∀ x y : T, refItem E x = refItem E y → ref E x = ref E y := by
    intro x y hxy
    rw [← usage_refItem, ← usage_refItem, hxy]
  have hlen' : ∀ x : T, Logged E log x → (enc E x).length < 2 ^ 64 := by
    intro x hx
    by_cases hne : x = empty
    · subst hne
      have : (enc E empty).length = 1 := by show (Item.encode (.str [])).length = 1; decide
      omega
    · rcases hx.here hne with h0 | h0
      · omega
      · exact hsz _ h0
  have hrec : ∀ x y : T, Logged E log x → Logged E log y → ref E x = ref E y →
      (∀ b, Logged E log b → (enc E x).length < 2 ^ 64 → enc E x = enc E b → item E x = item E b → x = b) →
      x = y := by
    intro x y hx hy hxy ih
    by_cases hxe : x = empty
    · subst hxe
      exact (ref_nil_iff.1 hxy.symm).symm
    · by_cases hye : y = empty
      · subst hye
        exact ref_nil_iff.1 hxy
      · have he := enc_of_ref hc hxe hye hx hy hxy
        exact ih y hy (hlen' x hx) he (item_inj_aux he (hlen' x hx))
  clear hlen'
  induction a generalizing b with
  | empty =>
    cases b <;> simp [item] at hi ⊢
  | leaf p v =>
    cases b with
    | empty => simp [item] at hi
    | leaf q w =>
      simp only [item, Item.list.injEq, List.cons.injEq, Item.str.injEq, and_true] at hi
      obtain ⟨h1, rfl⟩ := hi
      rw [(hp_inj h1).2]
    | ext q c =>
      simp only [item, Item.list.injEq, List.cons.injEq, Item.str.injEq, and_true] at hi
      exact absurd (hp_inj hi.1).1 (by simp)
    | branch cs w =>
      simp only [item, Item.list.injEq] at hi
      have := congrArg List.length hi
      simp at this
  | ext p c ih =>
    cases b with
    | empty => simp [item] at hi
    | leaf q w =>
      simp only [item, Item.list.injEq, List.cons.injEq, Item.str.injEq, and_true] at hi
      exact absurd (hp_inj hi.1).1 (by simp)
    | ext q d =>
      simp only [item, Item.list.injEq, List.cons.injEq, Item.str.injEq, and_true] at hi
      obtain ⟨h1, h2⟩ := hi
      rw [(hp_inj h1).2]
      congr 1
      exact hrec c d hla.2 hlb.2 (hchild c d h2) fun b hb hl he hit => ih hla.2 hb hl he hit
    | branch cs w =>
      simp only [item, Item.list.injEq] at hi
      have := congrArg List.length hi
      simp at this
  | branch cs v ih =>
    cases b with
    | empty => simp [item] at hi
    | leaf q w =>
      simp only [item, Item.list.injEq] at hi
      have := congrArg List.length hi
      simp at this
    | ext q d =>
      simp only [item, Item.list.injEq] at hi
      have := congrArg List.length hi
      simp at this
    | branch ds w =>
      simp only [item, Item.list.injEq] at hi
      obtain ⟨h1, h2⟩ := List.append_inj hi (by simp)
      simp only [List.cons.injEq, Item.str.injEq, and_true] at h2
      subst h2
      congr 1
      funext i
      have hci : refItem E (cs i) = refItem E (ds i) := by
        have := congrArg (fun l => l[i.val]?) h1
        simpa [refItem] using this
      exact hrec (cs i) (ds i) (hla.2 i) (hlb.2 i) (hchild _ _ hci)
        fun b hb hl he hit => ih i (hla.2 i) hb hl he hit

end T

end Pymt
