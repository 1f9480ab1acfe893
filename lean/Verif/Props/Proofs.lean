import Verif.Lemmas.Exclusion
import Verif.Spec.Toy

/-!
# Properties C18-C24, C50: inclusion and exclusion proofs
-/

namespace Pymt
namespace Props

/-! ### C18: inclusion proofs verify -/

/-- The full statement of C18. -/
def C18 : Prop := ∀ (E : Env) (secure : Bool) (ops : List Op) (k now : Bytes), Valid E secure ops [k] →
  contents ops k ≠ none → ∃ p, (MPT.after E secure ops).getPoi E now k = .ok p ∧
    (MPT.after E secure ops).verifyPoi E p = .ok true

/-- C18 is false: in the trie with the single entry `12 ↦ 01` the proof is made but not accepted,
because it names `root()`, here the node itself, and the check compares that with `root_hash()`. -/
theorem C18_false : ¬ C18 := by
  intro h
  have hv : Valid realEnv false [.update [0x12] [1]] [[0x12]] := valid_of (by decide +kernel)
  obtain ⟨p, h1, h2⟩ := h _ _ _ _ [] hv (by decide +kernel)
  have : ((MPT.after realEnv false [.update [0x12] [1]]).getPoi realEnv [] [0x12] >>= fun p =>
      (MPT.after realEnv false [.update [0x12] [1]]).verifyPoi realEnv p) = .ok false := by decide +kernel
  rw [h1] at this
  simp only [Except.bind_ok', h2] at this
  simp at this

/-- C18 exactly: the proof of a present key is always made; the same trie accepts it if and only if
`root()` has 32 bytes (and otherwise answers False). -/
theorem C18_exact {E : Env} {secure : Bool} {ops : List Op} {k : Bytes} (now : Bytes)
    (h : Valid E secure ops [k]) (hk : contents ops k ≠ none) :
    ∃ p r, (MPT.after E secure ops).getPoi E now k = .ok p ∧ (MPT.after E secure ops).root = some r ∧
      (MPT.after E secure ops).verifyPoi E p = .ok (decide (r.length = 32)) := by
  have he := h.eff_key (k := k) (by simp)
  obtain ⟨a, h1, h2, h3, h4⟩ := h.inv
  have hlk : T.lookup a (toNibs ((MPT.after E secure ops).keyOf E k)) ≠ none := by
    rw [h3, he]; exact hk
  have hne : a ≠ .empty := by rintro rfl; simp [T.lookup] at hlk
  have hf := fits_nibs (h.fit (k := k) (by simp))
  have hls := T.lookup_seek a (toNibs ((MPT.after E secure ops).keyOf E k))
  have hst := T.seek_stuck h1.shape hne (toNibs ((MPT.after E secure ops).keyOf E k))
  rw [hls] at hlk
  have hroot : (MPT.after E secure ops).root = some (T.ref E a) := by
    rcases h1.root with ⟨h0, _⟩ | ⟨_, h0⟩
    · exact absurd h0 hne
    · exact h0
  have hcmp : ((MPT.after E secure ops).rootHash E == T.ref E a) = decide ((T.ref E a).length = 32) := by
    rw [h1.rootHash, T.ref_of_ne hne]
    split
    · rename_i hl
      have : E.keccak (T.enc E a) ≠ T.enc E a := by
        intro e
        have := E.keccak_len (T.enc E a)
        rw [e] at this; omega
      have h32 : (T.enc E a).length ≠ 32 := by omega
      simp [this, h32]
    · simp [E.keccak_len]
  have hboth : (∃ x, T.foundP (T.seek a (toNibs ((MPT.after E secure ops).keyOf E k))).1
      (T.seek a (toNibs ((MPT.after E secure ops).keyOf E k))).2 = .ok x) ∧
      T.verdict (T.seek a (toNibs ((MPT.after E secure ops).keyOf E k))).1
      (T.seek a (toNibs ((MPT.after E secure ops).keyOf E k))).2 = .ok true := by
    have hsn := T.seek_ne_empty h1.shape hne (toNibs ((MPT.after E secure ops).keyOf E k))
    have hsc := h1.shape.seek (toNibs ((MPT.after E secure ops).keyOf E k))
    generalize T.seek a (toNibs ((MPT.after E secure ops).keyOf E k)) = s at *
    obtain ⟨x, r⟩ := s
    cases x with
    | empty => exact absurd rfl hsn
    | leaf q v =>
      simp only [T.lookup] at hlk
      split at hlk
      · rename_i e
        subst e
        cases q <;> simp [T.foundP, T.verdict]
      · simp at hlk
    | ext q c =>
      exfalso
      rcases hst with h0 | h0
      · simp only at h0
        subst h0
        have hq : ¬ q <+: [] := fun hq => hsc.1 (List.prefix_nil.1 hq)
        simp [T.lookup, hq] at hlk
      · simp [T.lookup, h0] at hlk
    | branch cs v =>
      rcases hst with h0 | ⟨i, r', h0, h0'⟩
      · simp only at h0
        subst h0
        simp [T.foundP, T.verdict]
      · simp only at h0
        subst h0
        simp [T.lookup, h0'] at hlk
  obtain ⟨⟨x, hx⟩, hv⟩ := hboth
  refine ⟨_, T.ref E a, by rw [h1.getPoi h.log hne hf, hx], hroot, ?_⟩
  rw [h1.verifyPoi h.log hne rfl rfl hf, hv]
  simp only [Bool.true_and, hcmp]

/-- C18 in part: the proof of a present key is made and accepted in secure mode, and otherwise when
some present key and its value have together at least 30 bytes.
Missing: small tries, for which the code is wrong (`C18_false`; `C18_exact` tells which). -/
theorem C18_poi_partial {E : Env} {secure : Bool} {ops : List Op} {k : Bytes} (now : Bytes)
    (h : Valid E secure ops [k]) (hk : contents ops k ≠ none)
    (hbig : secure = true ∨ ∃ k' v', contents ops k' = some v' ∧ 30 ≤ k'.length + v'.length) :
    ∃ p, (MPT.after E secure ops).getPoi E now k = .ok p ∧
      (MPT.after E secure ops).verifyPoi E p = .ok true := by
  obtain ⟨p, r, h1, h2, h3⟩ := C18_exact now h hk
  refine ⟨p, h1, ?_⟩
  have : r.length = 32 := by
    obtain ⟨a, g1, g2, g3, g4⟩ := h.inv
    have hex : ∃ e v, T.lookup a (toNibs e) = some v ∧ 30 ≤ e.length + v.length := by
      rcases hbig with rfl | ⟨k', v', h5, h6⟩
      · have he := h.eff_key (k := k) (by simp)
        cases hm : contents ops k with
        | none => exact absurd hm hk
        | some v =>
          rw [hm] at he
          exact ⟨_, v, by rw [g3, he], by rw [eff_secure_len he]; omega⟩
      · cases secure with
        | false => exact ⟨k', v', by rw [g3, eff_false, h5], h6⟩
        | true =>
          have := eff_eq h.keys (List.mem_append_right _ (contents_some_mem h5))
          rw [h5] at this
          exact ⟨_, v', by rw [g3, this], by rw [eff_secure_len this]; omega⟩
    obtain ⟨e, v, h5, h6⟩ := hex
    have hne : a ≠ .empty := by rintro rfl; simp [T.lookup] at h5
    have hlen := T.enc_ge E h5
    rw [toNibs_length] at hlen
    rcases g1.root with ⟨h0, _⟩ | ⟨_, h0⟩
    · exact absurd h0 hne
    · rw [h0] at h2
      obtain rfl := Option.some.inj h2
      exact T.ref_len (by omega)
  rw [h3, this]; rfl

example : Valid toyEnv false sampleOps [[0x12, 0x34]] ∧ contents sampleOps [0x12, 0x34] ≠ none ∧
    ∃ k' v', contents sampleOps k' = some v' ∧ 30 ≤ k'.length + v'.length :=
  ⟨valid_of (by decide +kernel), by decide +kernel, [0x12], bigValue 2, by decide +kernel, by decide +kernel⟩
example : Valid toyEnv true secureOps [[0x99]] ∧ contents secureOps [0x99] ≠ none :=
  ⟨valid_of (by decide +kernel), by decide +kernel⟩

/-! ### C19: accepted inclusion proofs are true -/

/-- The full statement of C19 (a proof names the path of its key: the key, or its hash in secure mode). -/
def C19 : Prop := ∀ (E : Env) (secure : Bool) (ops : List Op) (p : Proof Bytes), Valid E secure ops [] →
  CollFree E ((MPT.after E secure ops).store.written ++ checked p) →
  (MPT.after E secure ops).verifyPoi E p = .ok true → Present E secure ops p.targetKey

/-- C19 is false: with keys `12 34` and `13 45` (and a long value), a proof for `12` made by the trie
itself is accepted, though `12` is absent. -/
theorem C19_false : ¬ C19 := by
  intro h
  have hv : Valid realEnv false [.update [0x12, 0x34] (bigValue 1), .update [0x13, 0x45] [2]] [] :=
    valid_of (by decide +kernel)
  obtain ⟨p, _, hp⟩ := ok_of (m := (MPT.after realEnv false [.update [0x12, 0x34] (bigValue 1),
      .update [0x13, 0x45] [2]]).getPoi realEnv [] [0x12])
    (f := fun p => decide (p.targetKey = [0x12]) &&
      collFreeB realEnv ((MPT.after realEnv false [.update [0x12, 0x34] (bigValue 1),
        .update [0x13, 0x45] [2]]).store.written ++ checked p) &&
      decide ((MPT.after realEnv false [.update [0x12, 0x34] (bigValue 1),
        .update [0x13, 0x45] [2]]).verifyPoi realEnv p = .ok true)) (by decide +kernel)
  simp only [Bool.and_eq_true, decide_eq_true_eq] at hp
  obtain ⟨⟨h2, h3⟩, h4⟩ := hp
  obtain ⟨k, h5, h6⟩ := h _ _ _ p hv (collFree_of h3) h4
  rw [h2] at h6
  simp only [effective, Bool.false_eq_true, if_false] at h6
  subst h6
  exact h5 (by decide +kernel)

/-- C19 in part: an accepted proof, whoever made it, names a present path or a beginning of one.
Missing: that it is not a proper beginning (there the code is wrong, `C19_false`). -/
theorem C19_prefix_partial {E : Env} {secure : Bool} {ops : List Op} {p : Proof Bytes}
    (h : Valid E secure ops []) (hc : CollFree E ((MPT.after E secure ops).store.written ++ checked p))
    (hv : (MPT.after E secure ops).verifyPoi E p = .ok true) :
    ∃ e, Present E secure ops e ∧ p.targetKey <+: e := by
  obtain ⟨a, h1, h2, h3, h4⟩ := h.inv
  obtain ⟨hne, hacc⟩ := h1.verifyPoi_sound h.log hc hv
  obtain ⟨b, hb, hlk⟩ := T.seek_split a (toNibs p.targetKey)
  have hsc := h2.seek (toNibs p.targetKey)
  have hsn := T.seek_ne_empty h1.shape hne (toNibs p.targetKey)
  have key : ∃ q w, T.lookup (T.seek a (toNibs p.targetKey)).1 q = some w ∧
      (T.seek a (toNibs p.targetKey)).2 <+: q := by
    generalize T.seek a (toNibs p.targetKey) = s at *
    obtain ⟨x, r⟩ := s
    cases x with
    | empty => exact absurd rfl hsn
    | ext q c => exact absurd hacc (by simp [T.Accepts])
    | leaf q v =>
      refine ⟨q, v, by simp [T.lookup], ?_⟩
      rcases hacc with h0 | h0
      · simp only at h0; subst h0; exact List.nil_prefix
      · simp only at h0; subst h0; exact List.prefix_rfl
    | branch cs v =>
      obtain ⟨q, w, hq⟩ := hsc.exists_key hsn
      refine ⟨q, w, hq, ?_⟩
      simp only [T.Accepts] at hacc
      subst hacc; exact List.nil_prefix
  obtain ⟨q, w, g1, g2⟩ := key
  rw [← hlk] at g1
  obtain ⟨e, he⟩ := h4 _ _ g1
  refine ⟨e, (eff_present h).1 ?_, toNibs_prefix.1 ?_⟩
  · rw [← h3, ← he, g1]; simp
  · rw [← he, hb]; exact (List.prefix_append_right_inj b).2 g2

/-- C19 in part: so the key is present when the proof names a path of 32 bytes and the trie is in
secure mode, or when no present path properly extends the one named. -/
theorem C19_sound_partial {E : Env} {secure : Bool} {ops : List Op} {p : Proof Bytes}
    (h : Valid E secure ops []) (hc : CollFree E ((MPT.after E secure ops).store.written ++ checked p))
    (hv : (MPT.after E secure ops).verifyPoi E p = .ok true)
    (hp : (secure = true ∧ p.targetKey.length = 32) ∨
      ∀ e, Present E secure ops e → p.targetKey <+: e → e = p.targetKey) :
    Present E secure ops p.targetKey := by
  obtain ⟨e, h1, h2⟩ := C19_prefix_partial h hc hv
  rcases hp with ⟨rfl, hp⟩ | hp
  · obtain ⟨k, h3, rfl⟩ := h1
    have : p.targetKey = effective E true k := h2.eq_of_length (by simp [effective, E.keccak_len, hp])
    exact ⟨k, h3, this⟩
  · rw [← hp e h1 h2]; exact h1

/-- The proof of `12 34` in the sample history meets the hypotheses. -/
example : ∃ p, (MPT.after toyEnv false sampleOps).getPoi toyEnv [] [0x12, 0x34] = .ok p ∧
    Valid toyEnv false sampleOps [] ∧
    CollFree toyEnv ((MPT.after toyEnv false sampleOps).store.written ++ checked p) ∧
    (MPT.after toyEnv false sampleOps).verifyPoi toyEnv p = .ok true := by
  obtain ⟨p, h1, h2⟩ := ok_of (m := (MPT.after toyEnv false sampleOps).getPoi toyEnv [] [0x12, 0x34])
    (f := fun p => collFreeB toyEnv ((MPT.after toyEnv false sampleOps).store.written ++ checked p) &&
      decide ((MPT.after toyEnv false sampleOps).verifyPoi toyEnv p = .ok true)) (by decide +kernel)
  simp only [Bool.and_eq_true, decide_eq_true_eq] at h2
  exact ⟨p, h1, valid_of (by decide +kernel), collFree_of h2.1, h2.2⟩
example : ∃ p, (MPT.after toyEnv true secureOps).getPoi toyEnv [] [0x99] = .ok p ∧
    Valid toyEnv true secureOps [] ∧ p.targetKey.length = 32 ∧
    CollFree toyEnv ((MPT.after toyEnv true secureOps).store.written ++ checked p) ∧
    (MPT.after toyEnv true secureOps).verifyPoi toyEnv p = .ok true := by
  obtain ⟨p, h1, h2⟩ := ok_of (m := (MPT.after toyEnv true secureOps).getPoi toyEnv [] [0x99])
    (f := fun p => decide (p.targetKey.length = 32) &&
      collFreeB toyEnv ((MPT.after toyEnv true secureOps).store.written ++ checked p) &&
      decide ((MPT.after toyEnv true secureOps).verifyPoi toyEnv p = .ok true)) (by decide +kernel)
  simp only [Bool.and_eq_true, decide_eq_true_eq] at h2
  exact ⟨p, h1, valid_of (by decide +kernel), h2.1.1, collFree_of h2.1.2, h2.2⟩

/-! ### C20: stale inclusion proofs are rejected -/

/-- C20: a proof made by one trie is rejected by every trie with other contents; the answer is False,
or ValueError when that trie is empty. -/
theorem C20_stale {E : Env} {secure : Bool} {ops ops' : List Op} {k now : Bytes} {p : Proof Bytes}
    (h : Valid E secure ops ([k] ++ ops'.map Op.key)) (h' : Valid E secure ops' (ops.map Op.key))
    (hcoll : CollFree E (Item.encode (.str []) ::
      (hashed (MPT.after E secure ops) ++ hashed (MPT.after E secure ops'))))
    (hp : (MPT.after E secure ops).getPoi E now k = .ok p) (hd : contents ops ≠ contents ops') :
    ((∃ k, contents ops' k ≠ none) → (MPT.after E secure ops').verifyPoi E p = .ok false) ∧
    ((∀ k, contents ops' k = none) → (MPT.after E secure ops').verifyPoi E p = .error .valueError) := by
  have hr := root_ne h h' hcoll hd
  obtain ⟨a, h1, h2, h3, h4⟩ := h.inv
  obtain ⟨b, g1, g2, g3, g4⟩ := h'.inv
  have hex := nonempty_iff h' g2 g3 g4
  -- the proof begins with the root node of the first trie
  have hne : a ≠ .empty := by
    rintro rfl
    rw [h1.getPoi_empty h.log] at hp
    simp at hp
  have hf := fits_nibs (h.fit (k := k) (by simp))
  rw [h1.getPoi h.log hne hf] at hp
  split at hp
  · simp at hp
  simp only [Except.ok.injEq] at hp
  subst hp
  obtain ⟨l, hl0⟩ := T.trail_head (t := a) (toNibs ((MPT.after E secure ops).keyOf E k))
  unfold MPT.verifyPoi
  rw [if_neg (by simp), g1.noRoot h'.log]
  constructor
  · intro he
    rw [T.Holds.isEmpty_false (hex.1 he)]
    simp only [Bool.false_eq_true, if_false, hl0, List.map_cons, T.pyIndex_zero, Except.bind_ok']
    rw [h1.rootHash] at hr
    rw [if_pos hr]
    rfl
  · intro he
    have : b = .empty := by
      apply Classical.byContradiction
      intro hb
      obtain ⟨k, hk⟩ := hex.2 hb
      exact hk (he k)
    subst this
    rfl

example : ∃ p, (MPT.after toyEnv false sampleOps).getPoi toyEnv [] [0x12, 0x34] = .ok p ∧
    Valid toyEnv false sampleOps ([[0x12, 0x34]] ++ [Op.update [0x12] [1]].map Op.key) ∧
    Valid toyEnv false [Op.update [0x12] [1]] (sampleOps.map Op.key) ∧
    CollFree toyEnv (Item.encode (.str []) ::
      (hashed (MPT.after toyEnv false sampleOps) ++ hashed (MPT.after toyEnv false [Op.update [0x12] [1]]))) ∧
    contents sampleOps ≠ contents [Op.update [0x12] [1]] := by
  obtain ⟨p, hp, _⟩ := ok_of (m := (MPT.after toyEnv false sampleOps).getPoi toyEnv [] [0x12, 0x34])
    (f := fun _ => true) (by decide +kernel)
  refine ⟨p, hp, valid_of (by decide +kernel), valid_of (by decide +kernel),
    collFree_of (by decide +kernel), ?_⟩
  intro h
  have := congrFun h [0x99]
  revert this
  decide +kernel

/-! ### C21: exclusion proofs verify -/

/-- The full statement of C21. -/
def C21 : Prop := ∀ (E : Env) (secure : Bool) (ops : List Op) (k now : Bytes), Valid E secure ops [k] →
  (∃ k', contents ops k' ≠ none) → contents ops k = none → (effective E secure k).length < 2 ^ 60 →
  ∃ p, (MPT.after E secure ops).getPoe E now k = .ok p ∧
    (MPT.after E secure ops).verifyPoe E p = .ok true

/-- C21 is false: with keys `12 34` and `12 56` the root is an extension; the proof for the absent key
`99` leaves it out and is not accepted. -/
theorem C21_false : ¬ C21 := by
  intro h
  have hv : Valid realEnv false [.update [0x12, 0x34] [1], .update [0x12, 0x56] [2]] [[0x99]] :=
    valid_of (by decide +kernel)
  obtain ⟨p, h1, h2⟩ := h _ _ _ _ [] hv ⟨[0x12, 0x34], by decide +kernel⟩ (by decide +kernel) (by decide +kernel)
  have : ((MPT.after realEnv false [.update [0x12, 0x34] [1], .update [0x12, 0x56] [2]]).getPoe realEnv [] [0x99]
      >>= fun p => (MPT.after realEnv false [.update [0x12, 0x34] [1], .update [0x12, 0x56] [2]]).verifyPoe realEnv p)
      = .ok false := by decide +kernel
  rw [h1] at this
  simp only [Except.bind_ok', h2] at this
  simp at this

/-- C21 in part: the proof is made and accepted when the path of the absent key leaves the present
paths in one of these ways: beside a single path (`Alone`), where present paths diverge (`Gap`), by
ending where present paths go on (`Stem`), or where present paths run together for long (`Skip`).
Missing, and false: leaving at an extension that is the root or shorter than 32 bytes, being the end of
the only path at hand, properly extending a present key. -/
theorem C21_poe_partial {E : Env} {secure : Bool} {ops : List Op} {k : Bytes} (now : Bytes)
    (h : Valid E secure ops [k]) (hne : ∃ k', contents ops k' ≠ none) (hk : contents ops k = none)
    (hlen : (effective E secure k).length < 2 ^ 60)
    (hw : Alone (Present E secure ops) (effective E secure k) ∨
      Gap (Present E secure ops) (effective E secure k) ∨
      Stem (Present E secure ops) (effective E secure k) ∨
      Skip (Present E secure ops)
        (fun e v => ∃ k', contents ops k' = some v ∧ e = effective E secure k') (effective E secure k)) :
    ∃ p, (MPT.after E secure ops).getPoe E now k = .ok p ∧
      (MPT.after E secure ops).verifyPoe E p = .ok true := by
  have he := h.eff_key (k := k) (by simp)
  have hkey : (MPT.after E secure ops).keyOf E k = effective E secure k := by
    rw [keyOf_eq, after_secure]; rfl
  obtain ⟨a, h1, h2, h3, h4⟩ := h.inv
  have hP : ∀ e, Present E secure ops e ↔ T.lookup a (toNibs e) ≠ none := by
    intro e; rw [h3]; exact (eff_present h).symm
  have hane : a ≠ .empty := by
    rintro rfl
    obtain ⟨k', hk'⟩ := hne
    exact (hP _).1 ⟨k', hk', rfl⟩ (by simp [T.lookup])
  have hf := fits_nibs (h.fit (k := k) (by simp))
  have habs : ¬ Present E secure ops (effective E secure k) := by
    rw [← eff_present h, ← hkey, he, hk]; simp
  obtain ⟨f1, f2⟩ := T.fine_of (E := E) h2 hane (V := fun e v => ∃ k', contents ops k' = some v ∧ e = effective E secure k')
    (by
      rintro e v ⟨k', h5, rfl⟩
      rw [h3, eff_eq h.keys (List.mem_append_right _ (contents_some_mem h5)), h5])
    hP h4 habs hw
  rw [← hkey] at f1 f2
  have hnull : (T.enc E (.leaf (T.seek a (toNibs ((MPT.after E secure ops).keyOf E k))).2 MPT.nullBytes)).length < 2 ^ 64 := by
    refine T.null_len E ?_
    have := T.seek_length a (toNibs ((MPT.after E secure ops).keyOf E k))
    rw [toNibs_length, hkey] at this
    rw [hkey]
    omega
  refine ⟨_, by rw [h1.getPoe h.log hane hf, f1]; rfl, ?_⟩
  rcases f2 with ⟨f2, f3⟩ | ⟨f2, f3, f4⟩
  · rw [h1.verifyPoe h.log hane rfl hnull (by simp only [f2]) hf, f3]
  · exact h1.verifyPoe_skip h.log hane rfl hnull (by simp only [f2]) hf f3 (T.ref_len f4)

/-- Contents for the examples: a root branch, below it a branch and an extension. -/
private def forkOps : List Op :=
  [.update [0x12, 0x34, 0x56] (bigValue 1), .update [0x12, 0x34, 0x78] [2], .update [0x13, 0] [3],
   .update [0x77] [4]]

private theorem fork_mem {e : Bytes} (h : Present toyEnv false forkOps e) :
    e ∈ [[0x12, 0x34, 0x56], [0x12, 0x34, 0x78], [0x13, 0], [0x77]] := by
  obtain ⟨k, h1, h2⟩ := h
  have h2 : e = k := h2
  rw [h2]
  cases hm : contents forkOps k with
  | none => exact absurd hm h1
  | some v => exact contents_some_mem hm

private theorem fork_present {e : Bytes} (h : contents forkOps e ≠ none) : Present toyEnv false forkOps e :=
  ⟨e, h, rfl⟩

private theorem fork_all {Q : Bytes → Prop} [DecidablePred Q]
    (h : ∀ e ∈ [[0x12, 0x34, 0x56], [0x12, 0x34, 0x78], [0x13, 0], [0x77]], Q e) :
    ∀ e, Present toyEnv false forkOps e → Q e := fun e he => h e (fork_mem he)

example : Valid toyEnv false forkOps [[0x78]] ∧ contents forkOps [0x78] = none ∧
    Alone (Present toyEnv false forkOps) [0x78] := by
  refine ⟨valid_of (by decide +kernel), by decide +kernel, [0x77], fork_present (by decide +kernel),
    by decide +kernel, [7], by decide +kernel, by decide +kernel, fork_all (by decide +kernel)⟩
example : Valid toyEnv false forkOps [[0x99]] ∧ contents forkOps [0x99] = none ∧
    Gap (Present toyEnv false forkOps) [0x99] := by
  refine ⟨valid_of (by decide +kernel), by decide +kernel, [], by decide +kernel,
    ⟨1, 7, [0x13, 0], [0x77], by decide +kernel, fork_present (by decide +kernel),
      fork_present (by decide +kernel), by decide +kernel, by decide +kernel⟩,
    fork_all (by decide +kernel), fun i hi e1 h1 => ?_⟩
  have : i = 9 := by
    have := T.next_eq (n := 9) (s := [9]) hi (by decide +kernel)
    exact this.symm
  subst this
  revert e1
  exact fork_all (by decide +kernel)
example : Valid toyEnv false forkOps [[0x12]] ∧ contents forkOps [0x12] = none ∧
    Stem (Present toyEnv false forkOps) [0x12] := by
  refine ⟨valid_of (by decide +kernel), by decide +kernel,
    ⟨[0x12, 0x34, 0x56], [0x12, 0x34, 0x78], fork_present (by decide +kernel),
      fork_present (by decide +kernel), by decide +kernel, by decide +kernel, by decide +kernel⟩,
    .inr ⟨[1], 2, by decide +kernel, [0x13, 0], fork_present (by decide +kernel), by decide +kernel,
      by decide +kernel⟩⟩
example : Valid toyEnv false forkOps [[0x12, 0x99]] ∧ contents forkOps [0x12, 0x99] = none ∧
    Skip (Present toyEnv false forkOps)
      (fun e v => ∃ k', contents forkOps k' = some v ∧ e = effective toyEnv false k') [0x12, 0x99] := by
  refine ⟨valid_of (by decide +kernel), by decide +kernel, [1, 2], 9, by decide +kernel,
    fork_all (by decide +kernel),
    ⟨[0x12, 0x34, 0x56], [0x12, 0x34, 0x78], fork_present (by decide +kernel),
      fork_present (by decide +kernel), by decide +kernel, by decide +kernel, by decide +kernel⟩,
    ⟨3, fork_all (by decide +kernel)⟩,
    ⟨[0x77], fork_present (by decide +kernel), by decide +kernel⟩,
    ⟨[0x12, 0x34, 0x56], bigValue 1, ⟨[0x12, 0x34, 0x56], by decide +kernel, rfl⟩, by decide +kernel,
      by decide +kernel⟩⟩

/-! ### C22: accepted exclusion proofs are true -/

/-- The full statement of C22. -/
def C22 : Prop := ∀ (E : Env) (secure : Bool) (ops : List Op) (p : Proof Bytes), Valid E secure ops [] →
  CollFree E (hashed (MPT.after E secure ops) ++ checked p) →
  (MPT.after E secure ops).verifyPoe E p = .ok true → ¬ Present E secure ops p.targetKey

/-- A leaf without path and with the value `null`. -/
def nullLeaf : Bytes := Item.encode (.list [.str [0x20], .str MPT.nullBytes])

/-- C22 fails for every present key of every trie with two keys or more: the nodes of an inclusion proof,
followed by `nullLeaf`, are accepted as an exclusion proof. -/
theorem C22_forgery {E : Env} {secure : Bool} {ops : List Op} {k now : Bytes}
    (h : Valid E secure ops [k]) (hk : contents ops k ≠ none)
    (h2 : ∃ k', effective E secure k' ≠ effective E secure k ∧ contents ops k' ≠ none) :
    ∃ p, (MPT.after E secure ops).getPoi E now k = .ok p ∧
      (MPT.after E secure ops).verifyPoe E { p with type := mptPoe, proof := p.proof ++ [nullLeaf] }
        = .ok true := by
  have he := h.eff_key (k := k) (by simp)
  have hkey : (MPT.after E secure ops).keyOf E k = effective E secure k := by
    rw [keyOf_eq, after_secure]; rfl
  obtain ⟨p, r, hp, _⟩ := C18_exact now h hk
  obtain ⟨a, h1, hcan, h3, h4⟩ := h.inv
  have hlk : T.lookup a (toNibs ((MPT.after E secure ops).keyOf E k)) ≠ none := by
    rw [h3, he]; exact hk
  have hne : a ≠ .empty := by rintro rfl; simp [T.lookup] at hlk
  have hf := fits_nibs (h.fit (k := k) (by simp))
  refine ⟨p, hp, ?_⟩
  rw [h1.getPoi h.log hne hf] at hp
  split at hp
  · simp at hp
  simp only [Except.ok.injEq] at hp
  subst hp
  have hnl : nullLeaf = T.enc E (.leaf [] MPT.nullBytes) := rfl
  rw [h1.verifyPoe (r := []) h.log hne rfl (T.null_len E (by simp)) (by rw [hnl]) hf]
  simp only [Except.ok.injEq]
  -- where the search ends is not the whole trie
  obtain ⟨b, hb, hlk'⟩ := T.seek_split a (toNibs ((MPT.after E secure ops).keyOf E k))
  rw [hb, hlk'] at hlk
  generalize T.seek a (toNibs ((MPT.after E secure ops).keyOf E k)) = s at *
  obtain ⟨x, r'⟩ := s
  cases x with
  | leaf q v =>
    simp only [T.lookup] at hlk
    split at hlk
    · rename_i e
      subst e
      simp only [T.admits, Bool.not_eq_true', decide_eq_false_iff_not]
      intro hq
      simp only at hb hlk'
      have hb0 : b = [] := by
        have := congrArg List.length hb
        rw [← hq, List.length_append] at this
        exact List.length_eq_zero_iff.1 (by omega)
      subst hb0
      obtain ⟨k', h5, h6⟩ := h2
      have h7 := (eff_present h).2 ⟨k', h6, rfl⟩
      rw [← h3] at h7
      have h8 := hlk' (toNibs (effective E secure k'))
      simp only [List.nil_append, T.lookup] at h8
      rw [h8, if_neg] at h7
      · exact h7 rfl
      · rw [hq, hkey]
        intro e
        exact h5 (toNibs_inj e).symm
    · simp at hlk
  | _ => rfl

/-- C22 is false. -/
theorem C22_false : ¬ C22 := by
  intro h
  have hv : Valid realEnv false [.update [0x12] (bigValue 1), .update [0x34] [2]] [[0x12]] :=
    valid_of (by decide +kernel)
  obtain ⟨p, hp, hq⟩ := ok_of (m := (MPT.after realEnv false [.update [0x12] (bigValue 1),
      .update [0x34] [2]]).getPoi realEnv [] [0x12])
    (f := fun p => decide (p.targetKey = [0x12]) &&
      collFreeB realEnv (hashed (MPT.after realEnv false [.update [0x12] (bigValue 1),
        .update [0x34] [2]]) ++ checked { p with type := mptPoe, proof := p.proof ++ [nullLeaf] }) &&
      decide ((MPT.after realEnv false [.update [0x12] (bigValue 1), .update [0x34] [2]]).verifyPoe realEnv
        { p with type := mptPoe, proof := p.proof ++ [nullLeaf] } = .ok true)) (by decide +kernel)
  simp only [Bool.and_eq_true, decide_eq_true_eq] at hq
  refine h _ _ _ _ (hv.subset (by simp)) (collFree_of hq.1.2) hq.2 ⟨[0x12], by decide +kernel, ?_⟩
  exact hq.1.1

example : Valid toyEnv true secureOps [[0x99]] ∧ contents secureOps [0x99] ≠ none ∧
    ∃ k', effective toyEnv true k' ≠ effective toyEnv true [0x99] ∧ contents secureOps k' ≠ none :=
  ⟨valid_of (by decide +kernel), by decide +kernel, [0x12], by decide +kernel, by decide +kernel⟩

/-- A leaf as a byte string. -/
def leafBytes (key value : Bytes) : Bytes := Item.encode (.list [.str (hp true (toNibs key)), .str value])

/-- C22 in part: it holds for tries with a single entry, unless the value is `null` and the node has 32 bytes or
more.  Missing: all other tries with keys, for which it is false (`C22_forgery`, `C22_null`). -/
theorem C22_single_partial {E : Env} {secure : Bool} {ops : List Op} {k v : Bytes} {p : Proof Bytes}
    (h : Valid E secure ops [k]) (hc : CollFree E (hashed (MPT.after E secure ops) ++ checked p))
    (hk : contents ops k = some v) (hone : ∀ e, Present E secure ops e → e = effective E secure k)
    (hnull : v = MPT.nullBytes → (leafBytes (effective E secure k) v).length < 32)
    (hv : (MPT.after E secure ops).verifyPoe E p = .ok true) :
    ¬ Present E secure ops p.targetKey := by
  intro hpr
  have he := h.eff_key (k := k) (by simp)
  have hkey : (MPT.after E secure ops).keyOf E k = effective E secure k := by
    rw [keyOf_eq, after_secure]; rfl
  obtain ⟨a, h1, hcan, h3, h4⟩ := h.inv
  have htgt := hone _ hpr
  have hla : T.lookup a (toNibs p.targetKey) = some v := by
    rw [h3, htgt, ← hkey, he, hk]
  have hne : a ≠ .empty := by rintro rfl; simp [T.lookup] at hla
  -- the trie is a single leaf
  have hleaf : a = .leaf (toNibs p.targetKey) v := by
    have : ∃ q w, a = .leaf q w := by
      apply Classical.byContradiction
      intro hn
      obtain ⟨q, w, g1, g2⟩ := hcan.two_keys' hne (fun q w e => hn ⟨q, w, e⟩) (toNibs p.targetKey)
      obtain ⟨e, rfl⟩ := h4 _ _ g1
      have hpe : Present E secure ops e := (eff_present h).1 (by rw [← h3, g1]; simp)
      rw [htgt, ← hone e hpe] at g2
      exact g2 rfl
    obtain ⟨q, w, rfl⟩ := this
    simp only [T.lookup] at hla
    split at hla
    · rename_i e; simp only [Option.some.injEq] at hla; rw [e, hla]
    · simp at hla
  have hlog : T.Logged E (hashed (MPT.after E secure ops) ++ checked p) a := by
    refine T.Logged.mono ?_ (h1.stored.logged h1.good)
    intro x hx; exact List.mem_append_left _ (List.mem_append_left _ hx)
  have hmem : T.enc E a ∈ hashed (MPT.after E secure ops) ++ checked p := by
    refine List.mem_append_left _ ?_
    unfold hashed
    rcases h1.enc_mem hne with ⟨g1, g2⟩ | g1
    · refine List.mem_append_right _ ?_
      simp only [g2, Option.getD_some]
      have hnn : T.enc E a ≠ [] := Item.encode_ne_nil _
      rw [if_pos ⟨hnn, g1⟩]
      simp
    · exact List.mem_append_left _ g1
  have hlen := T.enc_len h1.stored
  unfold MPT.verifyPoe at hv
  rw [h1.noRoot h.log, T.Holds.isEmpty_false hne, h1.getD hne] at hv
  split at hv
  · simp at hv
  simp only [Bool.false_eq_true, if_false] at hv
  cases hfirst : pyIndex p.proof 0 with
  | error e => rw [hfirst] at hv; cases hv
  | ok first =>
  rw [hfirst] at hv
  simp only [Except.bind_ok'] at hv
  split at hv
  · cases hv
  rename_i hroot
  have hroot : (MPT.after E secure ops).rootHash E = E.keccak first := by
    apply Decidable.byContradiction; exact hroot
  have hfm : first ∈ p.proof := by
    unfold pyIndex at hfirst
    split at hfirst
    · rename_i x hx
      simp only [Except.ok.injEq] at hfirst
      subst hfirst
      exact List.mem_of_getElem? hx
    · cases hfirst
  have hfe : first = T.enc E a := by
    rw [h1.rootHash] at hroot
    exact (hc _ hmem _ (List.mem_append_right _ (List.mem_append_left _ hfm)) hroot).symm
  cases hlast : MPT.lastItem p.proof with
  | error e => rw [hlast] at hv; cases hv
  | ok last =>
  rw [hlast] at hv
  simp only [Except.bind_ok'] at hv
  cases hln : Node.decode last with
  | error e => rw [hln] at hv; cases hv
  | ok lastNode =>
  rw [hln] at hv
  simp only [Except.bind_ok'] at hv
  cases hd : MPT.nodeData lastNode with
  | error e => rw [hd] at hv; cases hv
  | ok d =>
  rw [hd] at hv
  simp only [Except.bind_ok'] at hv
  split at hv
  · cases hv
  rename_i hdn
  have hdn : d = MPT.nullBytes := by apply Decidable.byContradiction; exact hdn
  cases hps : MPT.proofStorage E p.proof.dropLast [] with
  | error e => rw [hps] at hv; cases hv
  | ok ps =>
  rw [hps] at hv
  simp only [Except.bind_ok'] at hv
  have hg : T.Genuine E (hashed (MPT.after E secure ops) ++ checked p) ps := by
    refine T.proofStorage_genuine (l := p.proof.dropLast) (acc := []) ?_ ?_ hps
    · intro v hv e he
      refine List.mem_append_right _ (List.mem_append_right _ ?_)
      exact List.mem_filterMap.2 ⟨v, (List.dropLast_sublist _).subset hv, he⟩
    · intro k v hk; simp [dget] at hk
  obtain ⟨f, hf⟩ : ∃ f, E.limit = f + 1 := by
    have := fits_nibs (h.fit (k := k) (by simp))
    exact ⟨E.limit - 1, by omega⟩
  rw [hf] at hv
  unfold MPT.verifyPoeAux at hv
  by_cases hmiss : (T.ref E a).length = 32 ∧ dget ps (T.ref E a) = none
  · rw [if_pos hmiss] at hv
    simp only [Except.bind_ok'] at hv
    split at hv
    · cases hv
    rename_i hl0
    have hps0 : ps = [] := List.length_eq_zero_iff.1 (by omega)
    subst hps0
    have hdl := T.proofStorage_nil hps
    have : p.proof = [last] := by
      unfold MPT.lastItem at hlast
      split at hlast
      · rename_i x hx
        simp only [Except.ok.injEq] at hlast
        subst hlast
        obtain ⟨ys, hys⟩ := List.getLast?_eq_some_iff.1 hx
        rw [hys, List.dropLast_concat] at hdl
        rw [hys, hdl]; rfl
      · cases hlast
    rw [this] at hfirst
    have : last = first := by
      have h0 : pyIndex [last] 0 = .ok last := rfl
      rw [h0] at hfirst
      exact Except.ok.inj hfirst
    rw [this, hfe] at hln
    obtain ⟨n, g1, g2⟩ := T.decode_enc hne hlen
    rw [g1] at hln
    obtain rfl := Except.ok.inj hln
    rw [hleaf] at g2
    cases n <;> simp only [T.Rep] at g2
    simp only [MPT.nodeData, Except.ok.injEq] at hd
    rw [← g2.2.2, hd] at hnull
    have hshort := hnull hdn
    have h32 := hmiss.1
    have henc : T.enc E a = leafBytes (effective E secure k) d := by
      rw [hleaf, htgt, ← g2.2.2, hd]; rfl
    rw [T.ref_of_ne (by rw [hleaf]; exact T.noConfusion), henc, if_pos hshort] at h32
    omega
  · rw [if_neg hmiss] at hv
    cases hraw : MPT.rawOf ps (T.ref E a) with
    | error e => rw [hraw] at hv; cases hv
    | ok raw =>
    rw [hraw] at hv
    obtain ⟨n, g1, g2⟩ := T.genuine_raw hc hg hne h1.shape hlen hlog hraw
    simp only [Except.bind_ok', g1] at hv
    split at hv
    · cases hv
    rw [NibblePath.len_spec (NibblePath.WF_bytes _)] at hv
    rw [hleaf] at g2
    cases n <;> simp only [T.Rep'] at g2
    rename_i np nd
    simp only [Except.bind_ok'] at hv
    have hq : np.eq ⟨p.targetKey, 0⟩ = .ok true := by
      rw [NibblePath.eq_spec g2.1 (NibblePath.WF_bytes _), NibblePath.nibs_bytes, g2.2.1]
      simp
    split at hv <;>
    · simp only [Except.bind_ok', Except.pure_ok', hq] at hv
      split at hv <;> simp at hv

example : Valid toyEnv false [.update [0x12] (bigValue 1)] [[0x12]] ∧
    contents [.update [0x12] (bigValue 1)] [0x12] = some (bigValue 1) ∧
    (∀ e, Present toyEnv false [.update [0x12] (bigValue 1)] e → e = effective toyEnv false [0x12]) ∧
    ∃ p, (MPT.after toyEnv false [.update [0x12] (bigValue 1)]).getPoe toyEnv [] [0x13] = .ok p ∧
      CollFree toyEnv (hashed (MPT.after toyEnv false [.update [0x12] (bigValue 1)]) ++ checked p) ∧
      (MPT.after toyEnv false [.update [0x12] (bigValue 1)]).verifyPoe toyEnv p = .ok true := by
  refine ⟨valid_of (by decide +kernel), by decide +kernel, ?_, ?_⟩
  · rintro e ⟨k, h1, h2⟩
    have h2 : e = k := h2
    rw [h2]
    simp only [contents, contentsFrom, List.foldl_cons, List.foldl_nil, Op.apply] at h1
    split at h1
    · assumption
    · simp at h1
  · obtain ⟨p, hp, hq⟩ := ok_of (m := (MPT.after toyEnv false [.update [0x12] (bigValue 1)]).getPoe toyEnv [] [0x13])
      (f := fun p => collFreeB toyEnv
          (hashed (MPT.after toyEnv false [.update [0x12] (bigValue 1)]) ++ checked p) &&
        decide ((MPT.after toyEnv false [.update [0x12] (bigValue 1)]).verifyPoe toyEnv p = .ok true))
      (by decide +kernel)
    simp only [Bool.and_eq_true, decide_eq_true_eq] at hq
    exact ⟨p, hp, collFree_of hq.1, hq.2⟩

/-! ### C23: no exclusion proof for a present key -/

/-- C23. -/
theorem C23_present {E : Env} {secure : Bool} {ops : List Op} {k : Bytes} (now : Bytes)
    (h : Valid E secure ops [k]) (hk : contents ops k ≠ none) :
    (MPT.after E secure ops).getPoe E now k = .error .poe := by
  have he := h.eff_key (k := k) (by simp)
  obtain ⟨a, h1, hcan, h3, h4⟩ := h.inv
  have hf := fits_nibs (h.fit (k := k) (by simp))
  cases hm : contents ops k with
  | none => exact absurd hm hk
  | some v =>
    have hlk : T.lookup a (toNibs ((MPT.after E secure ops).keyOf E k)) = some v := by
      rw [h3, he, hm]
    have hne : a ≠ .empty := by rintro rfl; simp [T.lookup] at hlk
    rw [h1.getPoe h.log hne hf, T.has_of_lookup h1.shape hlk]
    rfl

example : Valid toyEnv false sampleOps [[0x12]] ∧ contents sampleOps [0x12] ≠ none :=
  ⟨valid_of (by decide +kernel), by decide +kernel⟩

/-! ### C24: checking needs the root only -/

/-- C24: two tries with the same `root()` give the same answer to every proof (value or exception). -/
theorem C24_root_only (E : Env) (t t' : MPT) (p : Proof Bytes) (h : t.root = t'.root) :
    t.verifyPoi E p = t'.verifyPoi E p ∧ t.verifyPoe E p = t'.verifyPoe E p := by
  have h1 : t.noRoot E = t'.noRoot E := by unfold MPT.noRoot; rw [h]
  have h2 : t.rootHash E = t'.rootHash E := by unfold MPT.rootHash; rw [h]
  constructor
  · unfold MPT.verifyPoi; rw [h1, h2, h]
  · unfold MPT.verifyPoe; rw [h1, h2, h]

/-- A trie that knows only the root of the sample trie accepts a proof of the sample trie. -/
example : ∃ p, (MPT.after toyEnv false sampleOps).getPoi toyEnv [] [0x12, 0x34] = .ok p ∧
    (MPT.init toyEnv Store.empty (MPT.after toyEnv false sampleOps).root false).verifyPoi toyEnv p = .ok true := by
  obtain ⟨p, hp, hq⟩ := ok_of (m := (MPT.after toyEnv false sampleOps).getPoi toyEnv [] [0x12, 0x34])
    (f := fun p => decide ((MPT.init toyEnv Store.empty
      (MPT.after toyEnv false sampleOps).root false).verifyPoi toyEnv p = .ok true)) (by decide +kernel)
  exact ⟨p, hp, by simpa using hq⟩

/-! ### C50: stale exclusion proofs are rejected -/

/-- The full statement of C50: an exclusion proof made by one trie is not accepted by a trie with other
contents. -/
def C50 : Prop := ∀ (E : Env) (secure : Bool) (ops ops' : List Op) (k now : Bytes) (p : Proof Bytes),
  Valid E secure ops ([k] ++ ops'.map Op.key) → Valid E secure ops' (ops.map Op.key) →
  CollFree E (Item.encode (.str []) ::
    (hashed (MPT.after E secure ops) ++ hashed (MPT.after E secure ops'))) →
  (MPT.after E secure ops).getPoe E now k = .ok p → contents ops ≠ contents ops' →
  (MPT.after E secure ops').verifyPoe E p ≠ .ok true

/-- A key of 32 bytes. -/
def longKey : Bytes := List.replicate 32 0x99

/-- C50 is false: in a trie whose root is an extension the exclusion proof of an absent key is a single
leaf with the value `null`; the trie that has just this entry accepts it. -/
theorem C50_false : ¬ C50 := by
  intro h
  obtain ⟨p, hp, hq⟩ := ok_of (m := (MPT.after realEnv false [.update [0x12, 0x34] [1],
      .update [0x12, 0x56] [2]]).getPoe realEnv [] longKey)
    (f := fun p => decide ((MPT.after realEnv false [.update longKey MPT.nullBytes]).verifyPoe realEnv p = .ok true))
    (by decide +kernel)
  refine h realEnv false [.update [0x12, 0x34] [1], .update [0x12, 0x56] [2]]
    [.update longKey MPT.nullBytes] longKey [] p (valid_of (by decide +kernel)) (valid_of (by decide +kernel))
    (collFree_of (by decide +kernel)) hp ?_ (by simpa using hq)
  intro he
  have := congrFun he [0x12, 0x34]
  revert this
  decide +kernel

/-- C50 in part: it is rejected when it has at least two entries; the answer is False, or ValueError
when the other trie is empty.  Missing: proofs with one entry (false, `C50_false`). -/
theorem C50_stale_partial {E : Env} {secure : Bool} {ops ops' : List Op} {k now : Bytes} {p : Proof Bytes}
    (h : Valid E secure ops ([k] ++ ops'.map Op.key)) (h' : Valid E secure ops' (ops.map Op.key))
    (hcoll : CollFree E (Item.encode (.str []) ::
      (hashed (MPT.after E secure ops) ++ hashed (MPT.after E secure ops'))))
    (hp : (MPT.after E secure ops).getPoe E now k = .ok p) (hd : contents ops ≠ contents ops')
    (htwo : 2 ≤ p.proof.length) :
    ((∃ k, contents ops' k ≠ none) → (MPT.after E secure ops').verifyPoe E p = .ok false) ∧
    ((∀ k, contents ops' k = none) → (MPT.after E secure ops').verifyPoe E p = .error .valueError) := by
  have hr := root_ne h h' hcoll hd
  obtain ⟨a, h1, h2, h3, h4⟩ := h.inv
  obtain ⟨b, g1, g2, g3, g4⟩ := h'.inv
  have hex := nonempty_iff h' g2 g3 g4
  have hne : a ≠ .empty := by
    rintro rfl
    rw [h1.getPoe_empty h.log] at hp
    simp at hp
  have hf := fits_nibs (h.fit (k := k) (by simp))
  rw [h1.getPoe h.log hne hf] at hp
  split at hp
  · simp at hp
  simp only [Except.ok.injEq] at hp
  subst hp
  obtain ⟨l, hl0⟩ := T.trail_head (t := a) (toNibs ((MPT.after E secure ops).keyOf E k))
  obtain ⟨l', hl'⟩ : ∃ l', (T.shown a (toNibs ((MPT.after E secure ops).keyOf E k))) = a :: l' := by
    simp only [List.length_append, List.length_map, List.length_cons, List.length_nil] at htwo
    unfold T.shown at htwo ⊢
    split
    · rename_i heq
      rw [heq] at htwo
      simp only at htwo
      rw [T.trail_eq] at hl0
      cases hq : T.passed a (toNibs ((MPT.after E secure ops).keyOf E k)) with
      | nil => rw [hq] at htwo; simp at htwo
      | cons x l' =>
        rw [hq] at hl0
        exact ⟨l', by rw [(List.cons.inj hl0).1]⟩
    · exact ⟨l, hl0⟩
  unfold MPT.verifyPoe
  rw [if_neg (by simp), g1.noRoot h'.log]
  constructor
  · intro he
    rw [T.Holds.isEmpty_false (hex.1 he)]
    simp only [Bool.false_eq_true, if_false, hl', List.map_cons, List.cons_append, T.pyIndex_zero,
      Except.bind_ok']
    rw [h1.rootHash] at hr
    rw [if_pos hr]
    rfl
  · intro he
    have : b = .empty := by
      apply Classical.byContradiction
      intro hb
      obtain ⟨k, hk⟩ := hex.2 hb
      exact hk (he k)
    subst this
    rfl

example : ∃ p, (MPT.after toyEnv false sampleOps).getPoe toyEnv [] [0x13] = .ok p ∧
    2 ≤ p.proof.length ∧
    Valid toyEnv false sampleOps ([[0x13]] ++ [Op.update [0x13] [1]].map Op.key) ∧
    Valid toyEnv false [Op.update [0x13] [1]] (sampleOps.map Op.key) ∧
    CollFree toyEnv (Item.encode (.str []) ::
      (hashed (MPT.after toyEnv false sampleOps) ++ hashed (MPT.after toyEnv false [Op.update [0x13] [1]]))) ∧
    contents sampleOps ≠ contents [Op.update [0x13] [1]] := by
  obtain ⟨p, hp, hq⟩ := ok_of (m := (MPT.after toyEnv false sampleOps).getPoe toyEnv [] [0x13])
    (f := fun p => decide (2 ≤ p.proof.length)) (by decide +kernel)
  refine ⟨p, hp, by simpa using hq, valid_of (by decide +kernel), valid_of (by decide +kernel),
    collFree_of (by decide +kernel), ?_⟩
  intro h
  have := congrFun h [0x99]
  revert this
  decide +kernel

end Props
end Pymt
