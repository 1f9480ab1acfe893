import Verif.Lemmas.Root

/-!
# Equal contents, equal tries
-/

namespace Pymt

theorem contentsFrom_some_mem {ops : List Op} {m : Contents} {k v : Bytes}
    (h : contentsFrom m ops k = some v) : (∃ op ∈ ops, op.key = k) ∨ m k = some v := by
  induction ops generalizing m with
  | nil => exact .inr h
  | cons op ops ih =>
    rcases ih h with ⟨o, ho, he⟩ | h0
    · exact .inl ⟨o, List.mem_cons_of_mem _ ho, he⟩
    · cases op with
      | update k0 v0 =>
        simp only [Op.apply] at h0
        split at h0
        · rename_i e; exact .inl ⟨_, List.mem_cons_self, e.symm⟩
        · exact .inr h0
      | delete k0 =>
        simp only [Op.apply] at h0
        split at h0
        · simp at h0
        · exact .inr h0

theorem contents_some_mem {ops : List Op} {k v : Bytes} (h : contents ops k = some v) :
    k ∈ ops.map Op.key := by
  rcases contentsFrom_some_mem h with ⟨op, ho, rfl⟩ | h0
  · exact List.mem_map_of_mem ho
  · simp at h0

theorem Op.mapKey_key (f : Bytes → Bytes) (op : Op) : (op.mapKey f).key = f op.key := by
  cases op <;> rfl

theorem eff_some_mem {E : Env} {secure : Bool} {ops : List Op} {k v : Bytes}
    (h : eff E secure ops k = some v) : ∃ k0 ∈ ops.map Op.key, k = effective E secure k0 := by
  have := contents_some_mem h
  rw [List.map_map, List.mem_map] at this
  obtain ⟨op, ho, rfl⟩ := this
  exact ⟨op.key, List.mem_map_of_mem ho, Op.mapKey_key _ op⟩

/-- Equal contents, no key collisions: equal contents in terms of the trie's keys. -/
theorem eff_congr {E : Env} {secure : Bool} {ops ops' : List Op}
    (hk : secure = true → CollFree E (ops'.map Op.key ++ ops.map Op.key))
    (hc : contents ops = contents ops') : eff E secure ops = eff E secure ops' := by
  have hk' : secure = true → CollFree E (ops.map Op.key ++ ops'.map Op.key) := fun h =>
    (hk h).mono (by intro a ha; rw [List.mem_append] at *; exact ha.symm)
  funext k
  cases h : eff E secure ops k with
  | some v =>
    obtain ⟨k0, h0, rfl⟩ := eff_some_mem h
    rw [eff_eq hk (List.mem_append_right _ h0)] at h
    rw [eff_eq hk' (List.mem_append_left _ h0), ← hc, h]
  | none =>
    cases h' : eff E secure ops' k with
    | none => rfl
    | some v =>
      obtain ⟨k0, h0, rfl⟩ := eff_some_mem h'
      rw [eff_eq hk' (List.mem_append_right _ h0)] at h'
      rw [eff_eq hk (List.mem_append_left _ h0), hc, h'] at h
      exact h.symm

/-- Two objects with the same contents hold the same abstract trie. -/
theorem Inv.same {E E' : Env} {t t' : MPT} {m : Contents} (h : Inv E t m) (h' : Inv E' t' m) :
    ∃ a : T, T.Holds E t a ∧ T.Holds E' t' a ∧ a.Canon ∧ (∀ k, T.lookup a (toNibs k) = m k) ∧
      ∀ p v, T.lookup a p = some v → ∃ k, p = toNibs k := by
  obtain ⟨a, h1, h2, h3, h4⟩ := h
  obtain ⟨b, g1, g2, g3, g4⟩ := h'
  have : a = b := by
    refine T.canon_unique h2 g2 fun q => ?_
    cases ha : T.lookup a q with
    | some v =>
      obtain ⟨k, rfl⟩ := h4 q v ha
      rw [g3, ← h3, ha]
    | none =>
      cases hb : T.lookup b q with
      | none => rfl
      | some v =>
        obtain ⟨k, rfl⟩ := g4 q v hb
        rw [g3, ← h3, ha] at hb
        exact hb
  subst this
  exact ⟨a, h1, g1, h2, h3, h4⟩

/-- The same abstract trie gives the same answers. -/
theorem T.Holds.observe {E : Env} {t t' : MPT} {a : T} (h : T.Holds E t a) (h' : T.Holds E t' a)
    (hs : t.secure = t'.secure) (hl : LogOk E t.store.written) (hl' : LogOk E t'.store.written) {k : Bytes}
    (hf : Fits E t.secure k) :
    t.contains E k = t'.contains E k ∧ (∀ v, t.get E k = .ok v ↔ t'.get E k = .ok v) := by
  have hk : t.keyOf E k = t'.keyOf E k := by simp [keyOf_eq, hs]
  refine ⟨by rw [h.contains hl (fits_nibs hf), h'.contains hl' (fits_nibs (hs ▸ hf)), hk], fun v => ?_⟩
  by_cases hne : a = .empty
  · subst hne
    obtain ⟨e, he⟩ := h.get_empty hl k
    obtain ⟨e', he'⟩ := h'.get_empty hl' k
    simp [he, he']
  · rw [h.get hne (fits_nibs hf), h'.get hne (fits_nibs (hs ▸ hf)), hk]

/-- Nothing in the trie: it is the empty trie. -/
theorem canon_empty {a : T} (h : a.Canon) (hn : ∀ p, T.lookup a p = none) : a = .empty := by
  refine Classical.byContradiction fun hne => ?_
  obtain ⟨p, v, hp⟩ := h.exists_key hne
  simp [hn] at hp

theorem T.Holds.root_eq {E : Env} {t t' : MPT} {a : T} (h : T.Holds E t a) (h' : T.Holds E t' a)
    (hne : a ≠ .empty) : t.root = t'.root := by
  rcases h.root with ⟨h0, _⟩ | ⟨_, h0⟩
  · exact absurd h0 hne
  rcases h'.root with ⟨g0, _⟩ | ⟨_, g0⟩
  · exact absurd g0 hne
  rw [h0, g0]

theorem T.Holds.enc_hashed {E : Env} {t : MPT} {a : T} (h : T.Holds E t a) :
    T.enc E a ∈ Item.encode (.str []) :: hashed t := by
  by_cases hne : a = .empty
  · subst hne; exact List.mem_cons_self
  · refine List.mem_cons_of_mem _ ?_
    rw [hashed, List.mem_append]
    rcases h.enc_mem hne with ⟨h1, h2⟩ | h1
    · right
      have : T.enc E a ≠ [] := Item.encode_ne_nil _
      simp [h2, h1, this]
    · exact .inl h1

/-- Equal root hashes, no collisions: equal tries. -/
theorem T.Holds.of_rootHash {E : Env} {t t' : MPT} {a a' : T} (h : T.Holds E t a) (h' : T.Holds E t' a')
    (hc : CollFree E (Item.encode (.str []) :: (hashed t ++ hashed t')))
    (hl : LogOk E t.store.written) (hl' : LogOk E t'.store.written)
    (hr : t.rootHash E = t'.rootHash E) : a = a' := by
  rw [h.rootHash, h'.rootHash] at hr
  have m1 : T.enc E a ∈ Item.encode (.str []) :: (hashed t ++ hashed t') := by
    rcases List.mem_cons.1 h.enc_hashed with he | he
    · rw [he]; exact List.mem_cons_self
    · exact List.mem_cons_of_mem _ (List.mem_append_left _ he)
  have m2 : T.enc E a' ∈ Item.encode (.str []) :: (hashed t ++ hashed t') := by
    rcases List.mem_cons.1 h'.enc_hashed with he | he
    · rw [he]; exact List.mem_cons_self
    · exact List.mem_cons_of_mem _ (List.mem_append_right _ he)
  have he := hc _ m1 _ m2 hr
  have hlog : ∀ x ∈ t.store.written ++ t'.store.written,
      x ∈ Item.encode (.str []) :: (hashed t ++ hashed t') := by
    intro x hx
    refine List.mem_cons_of_mem _ ?_
    simp only [List.mem_append, hashed] at hx ⊢
    rcases hx with hx | hx
    · exact .inl (.inl hx)
    · exact .inr (.inl hx)
  refine T.enc_inj (log := t.store.written ++ t'.store.written) (hc.mono hlog) ?_
    ((h.stored.logged h.good).mono fun x hx => List.mem_append_left _ hx)
    ((h'.stored.logged h'.good).mono fun x hx => List.mem_append_right _ hx)
    (T.enc_len h.stored) he
  intro x hx
  rcases List.mem_append.1 hx with hx | hx
  · exact hl.size x hx
  · exact hl'.size x hx

end Pymt
