import Verif.Lemmas.Reveal
import Verif.Lemmas.Bytes
import Verif.Props.Shown

/-!
# What a proof tells about other keys (C133)
-/

namespace Pymt.Props

/-- **C133** (false, see below) Whoever is given a proof of inclusion of a key can read no value in it but that of the
key. -/
def C133 : Prop :=
  ∀ (E : Env) (secure : Bool) (ops : List Op) (k v now : Bytes) (p : Proof Bytes) (x d : Bytes), Valid E secure ops [k] →
    contents ops k = some v → (MPT.after E secure ops).getPoi E now k = .ok p → Discloses p x d → x = effective E secure k

/-- What can be read in the nodes of a walk. -/
theorem discloses_iff {E : Env} {kv : Dict Bytes} {a : T} (hsh : a.Shape) (hs : T.Stored E kv a) (hne : a ≠ .empty)
    {p : Proof Bytes} (hp : p.proof = (T.trail a (toNibs p.targetKey)).map (T.enc E)) {x d : Bytes} :
    Discloses p x d ↔ ∃ s r q y, toNibs p.targetKey = s ++ r ∧ toNibs x = s ++ q ∧ T.Part a s y ∧ y ≠ .empty ∧
      T.lookup y q = some d ∧ ∀ z ∈ (T.trail y q).tail, (T.enc E z).length < 32 := by
  constructor
  · rintro ⟨pre, w, post, q, h1, h2, h3⟩
    rw [hp] at h1
    obtain ⟨l1, l2, e1, rfl, e3⟩ := List.map_eq_append_iff.1 h1
    obtain ⟨y, l3, rfl, rfl, rfl⟩ := List.map_eq_cons_iff.1 e3
    obtain ⟨s, r, g1, g2, -, g4⟩ := T.trail_place (E := E) hsh hs hne e1
    have hy : y ≠ .empty := T.trail_ne_empty hsh hne (toNibs p.targetKey) y (by rw [e1]; simp)
    have hshy := T.trail_induct (P := T.Shape) (fun _ _ h => h.2.2) (fun _ _ i h => h i) hsh (toNibs p.targetKey) y
      (by rw [e1]; simp)
    obtain ⟨g5, g6⟩ := (T.tells_iff hshy (g2.stored hs) hy).1 h2
    rw [g4, g1, List.take_left] at h3
    exact ⟨s, r, q, y, g1, h3, g2, hy, g5, g6⟩
  · rintro ⟨s, r, q, y, g1, g2, g3, g4, g5, g6⟩
    obtain ⟨pre, hpre, hl⟩ := T.part_common g3 hsh hs
    have e1 : T.trail a (toNibs p.targetKey) = pre ++ y :: (T.trail y r).tail := by
      rw [g1, hpre, ← T.trail_tail]
    have hshy := T.trail_induct (P := T.Shape) (fun _ _ h => h.2.2) (fun _ _ i h => h i) hsh (toNibs p.targetKey) y
      (by rw [e1]; simp)
    refine ⟨pre.map (T.enc E), T.enc E y, ((T.trail y r).tail).map (T.enc E), q, by rw [hp, e1]; simp,
      (T.tells_iff hshy (g3.stored hs) g4).2 ⟨g5, g6⟩, ?_⟩
    rw [hl, g1, List.take_left, g2]

/-- A path at which the trie has a value is that of a key with that value. -/
theorem key_at {E : Env} {secure : Bool} {ops : List Op} {ks : List Bytes} (h : Valid E secure ops ks) {a : T}
    (h3 : ∀ k, T.lookup a (toNibs k) = eff E secure ops k) {x d : Bytes} (hx : T.lookup a (toNibs x) = some d) :
    ∃ j, x = effective E secure j ∧ contents ops j = some d := by
  rw [h3] at hx
  obtain ⟨j, hj, rfl⟩ := eff_some_mem hx
  exact ⟨j, rfl, by rw [← eff_eq h.keys (List.mem_append_right _ hj), hx]⟩

/-- C133, what holds: whatever can be read in a proof of inclusion is true; and values of 32 bytes or more can be read
only for the key itself and for keys with which it begins. -/
theorem C133_long_partial {E : Env} {secure : Bool} {ops : List Op} {k v now : Bytes} {p : Proof Bytes} {x d : Bytes}
    (h : Valid E secure ops [k]) (hk : contents ops k = some v) (hp : (MPT.after E secure ops).getPoi E now k = .ok p)
    (hx : Discloses p x d) : (∃ j, x = effective E secure j ∧ contents ops j = some d) ∧
      (32 ≤ d.length → x <+: effective E secure k) := by
  obtain ⟨a, h1, h2, h3, h4⟩ := h.inv
  have hn : a ≠ .empty := (nonempty_iff h h2 h3 h4).1 ⟨k, by simp [hk]⟩
  obtain ⟨e1, e2⟩ := own_proof h h1 hn hp
  rw [← e1] at e2 ⊢
  obtain ⟨s, r, q, y, g1, g2, g3, g4, g5, g6⟩ := (discloses_iff h1.shape h1.stored hn e2).1 hx
  refine ⟨key_at h h3 (by rw [g2, g3.lookup, g5]), fun hd => ?_⟩
  have hshy := T.trail_induct (P := T.Shape) (fun _ _ h => h.2.2) (fun _ _ i h => h i) h1.shape (toNibs p.targetKey) y
    (by obtain ⟨pre, hpre, -⟩ := T.part_common (E := E) g3 h1.shape h1.stored
        rw [g1, hpre, T.trail_tail]; simp)
  rcases T.tells_long hshy g5 g6 hd with ⟨cs, rfl, rfl⟩ | rfl
  · rw [← toNibs_prefix, g1, g2]
    simp
  · have : T.lookup a (toNibs p.targetKey) = some v := by
      rw [e1, h3, eff_eq h.keys (by simp), hk]
    rw [g1, g3.lookup, T.lookup] at this
    split at this
    · rename_i e
      subst e
      rw [← g1] at g2
      rw [toNibs_inj g2]
      exact List.prefix_refl _
    · exact (nomatch this)

/-- C133, what holds: in secure mode nothing else can be read if all values have 32 bytes or more. -/
theorem C133_secure_partial {E : Env} {ops : List Op} {k v now : Bytes} {p : Proof Bytes} {x d : Bytes}
    (h : Valid E true ops [k]) (hk : contents ops k = some v) (hp : (MPT.after E true ops).getPoi E now k = .ok p)
    (hl : ∀ j w, contents ops j = some w → 32 ≤ w.length) (hx : Discloses p x d) : x = effective E true k ∧ d = v := by
  obtain ⟨⟨j, rfl, hj⟩, h'⟩ := C133_long_partial h hk hp hx
  have e : effective E true j = effective E true k := by
    refine (h' (hl _ _ hj)).eq_of_length ?_
    simp [effective, E.keccak_len]
  refine ⟨e, ?_⟩
  have h1 := eff_eq h.keys (k := k) (by simp)
  have h2 := eff_eq h.keys (k := j) (List.mem_append_right _ (contents_some_mem hj))
  rw [e, h1, hk, hj] at h2
  injection h2 with h2
  exact h2.symm

/-- The values of all keys with which a key begins can be read in every proof of it. -/
theorem C133_prefix {E : Env} {secure : Bool} {ops : List Op} {k j v d now : Bytes} {p : Proof Bytes}
    (h : Valid E secure ops [k, j]) (hk : contents ops k = some v) (hj : contents ops j = some d)
    (hkj : effective E secure j <+: effective E secure k) (hp : (MPT.after E secure ops).getPoi E now k = .ok p) :
    Discloses p (effective E secure j) d := by
  obtain ⟨a, h1, h2, h3, h4⟩ := h.inv
  have hn : a ≠ .empty := (nonempty_iff h h2 h3 h4).1 ⟨k, by simp [hk]⟩
  obtain ⟨e1, e2⟩ := own_proof (h.subset (by simp)) h1 hn hp
  rw [← e1] at e2 hkj
  have hlk : T.lookup a (toNibs (effective E secure j)) = some d := by rw [h3, eff_eq h.keys (by simp), hj]
  obtain ⟨s, r, g1, g2, g3, -⟩ := T.trail_place (E := E) h1.shape h1.stored hn (p := toNibs (effective E secure j))
    (pre := T.passed a (toNibs (effective E secure j))) (y := (T.seek a (toNibs (effective E secure j))).1) (post := []) rfl
  obtain ⟨u, hu⟩ := toNibs_prefix.2 hkj
  refine (discloses_iff h1.shape h1.stored hn e2).2 ⟨s, r ++ u, r, _, by rw [← hu]; conv => lhs; rw [g1]; simp, g1, g2,
    T.seek_ne_empty h1.shape hn _, ?_, by rw [g3]; simp⟩
  rw [← g2.lookup, ← g1, hlk]

/-- Exactly what can be read in a proof of inclusion: the value of another key can be read if the nodes of the proof of
that key are, from where the two keys part, all shorter than 32 bytes. -/
theorem C133_exact {E : Env} {secure : Bool} {ops : List Op} {k j v d now now' : Bytes} {p g : Proof Bytes}
    (h : Valid E secure ops [k, j]) (hk : contents ops k = some v) (hj : contents ops j = some d)
    (hp : (MPT.after E secure ops).getPoi E now k = .ok p) (hg : (MPT.after E secure ops).getPoi E now' j = .ok g) :
    Discloses p (effective E secure j) d ↔ ∃ pre w post post', g.proof = pre ++ w :: post ∧ p.proof = pre ++ w :: post' ∧
      (toNibs (effective E secure j)).take (ledAlong pre) = (toNibs (effective E secure k)).take (ledAlong pre) ∧
      ∀ z ∈ post, z.length < 32 := by
  obtain ⟨a, h1, h2, h3, h4⟩ := h.inv
  have hn : a ≠ .empty := (nonempty_iff h h2 h3 h4).1 ⟨k, by simp [hk]⟩
  obtain ⟨e1, e2⟩ := own_proof (h.subset (by simp)) h1 hn hp
  obtain ⟨f1, f2⟩ := own_proof (h.subset (by simp)) h1 hn hg
  rw [← e1] at e2 ⊢
  have hlk : T.lookup a (toNibs (effective E secure j)) = some d := by rw [h3, eff_eq h.keys (by simp), hj]
  rw [discloses_iff h1.shape h1.stored hn e2]
  constructor
  · rintro ⟨s, r, q, y, g1, g2, g3, g4, g5, g6⟩
    obtain ⟨pre, hpre, hl⟩ := T.part_common g3 h1.shape h1.stored
    refine ⟨pre.map (T.enc E), T.enc E y, (T.trail y q).tail.map (T.enc E), (T.trail y r).tail.map (T.enc E), ?_, ?_, ?_, ?_⟩
    · rw [f2, g2, hpre, T.trail_tail]; simp
    · rw [e2, g1, hpre, T.trail_tail]; simp
    · rw [hl, g1, g2, List.take_left, List.take_left]
    · intro z hz
      obtain ⟨z', hz', rfl⟩ := List.mem_map.1 hz
      exact g6 z' hz'
  · rintro ⟨pre, w, post, post', g1, g2, g3, g4⟩
    rw [f2] at g1
    obtain ⟨l1, l2, k1, rfl, k3⟩ := List.map_eq_append_iff.1 g1
    obtain ⟨y, l3, rfl, rfl, rfl⟩ := List.map_eq_cons_iff.1 k3
    obtain ⟨s, q, m1, m2, m3, m4⟩ := T.trail_place (E := E) h1.shape h1.stored hn k1
    have hy : y ≠ .empty := T.trail_ne_empty h1.shape hn _ y (by rw [k1]; simp)
    rw [m4, m1, List.take_left] at g3
    refine ⟨s, (toNibs p.targetKey).drop s.length, q, y, ?_, m1, m2, hy, by rw [← m2.lookup, ← m1, hlk], ?_⟩
    · conv => lhs; rw [← List.take_append_drop s.length (toNibs p.targetKey), ← g3]
    · intro z hz
      rw [m3] at hz
      exact g4 _ (List.mem_map.2 ⟨z, hz, rfl⟩)

/-- Proofs of exclusion (without the leaf added at their end): whatever can be read in them is true. -/
theorem C133_excl {E : Env} {secure : Bool} {ops : List Op} {k now : Bytes} {p : Proof Bytes} {x d : Bytes}
    (h : Valid E secure ops [k]) (hp : (MPT.after E secure ops).getPoe E now k = .ok p)
    (hx : Discloses { p with proof := p.proof.dropLast } x d) : ∃ j, x = effective E secure j ∧ contents ops j = some d := by
  obtain ⟨a, h1, h2, h3, h4⟩ := h.inv
  by_cases hn : a = .empty
  · subst hn
    rw [h1.getPoe_empty h.log] at hp
    exact (nomatch hp)
  rw [h1.getPoe h.log hn (fits_nibs (h.fit (k := k) (by simp)))] at hp
  split at hp
  · exact (nomatch hp)
  injection hp with hp
  subst hp
  simp only [List.dropLast_concat] at hx
  obtain ⟨pre, w, post, q, g1, g2, g3⟩ := hx
  simp only at g1 g3
  have hx' : Discloses ⟨mptPoe, now, (MPT.after E secure ops).keyOf E k, (MPT.after E secure ops).rootHash E,
      (T.trail a (toNibs ((MPT.after E secure ops).keyOf E k))).map (T.enc E)⟩ x d := by
    obtain ⟨t, ht⟩ : T.shown a (toNibs ((MPT.after E secure ops).keyOf E k)) <+:
        T.trail a (toNibs ((MPT.after E secure ops).keyOf E k)) := by
      unfold T.shown
      split
      · exact List.prefix_append _ _
      · exact List.prefix_refl _
    refine ⟨pre, w, post ++ t.map (T.enc E), q, ?_, g2, g3⟩
    simp only
    rw [← ht, List.map_append, g1]
    simp
  obtain ⟨s, r, q, y, g1, g2, g3, g4, g5, g6⟩ := (discloses_iff h1.shape h1.stored hn rfl).1 hx'
  exact key_at h h3 (by rw [g2, g3.lookup, g5])

/-- The same for an `EMPT` in secure mode, if all its references have 32 bytes or more. -/
theorem C133_empt_partial {E : Env} {ops : List EOp} {k now : Bytes} {v : Value} {p : Proof Bytes} {x d : Bytes}
    (h : EValid E true ops [k]) (hk : econtents ops k = some v) (hp : (EMPT.after E true ops).getPoi E now k = .ok p)
    (hl : ∀ j w, econtents ops j = some w → 32 ≤ (DataRef.encode E ⟨j, w.payload⟩).length) (hx : Discloses p x d) :
    x = effective E true k ∧ DataRef.decode E d = .ok ⟨k, v.payload⟩ := by
  have hm := h.mirror
  rw [EMPT.getPoi, hm.trie] at hp
  obtain ⟨h1, rfl⟩ := C133_secure_partial (h.valid hm) (v := refOf E k v) (by rw [contents_refOps, hk]; rfl) hp
    (fun j w hj => by
      rw [contents_refOps] at hj
      obtain ⟨u, hu, rfl⟩ := Option.map_eq_some_iff.1 hj
      exact hl j u hu) hx
  exact ⟨h1, decode_refOf h hk⟩

/-- In a trie with one key, every proof of exclusion tells that key and its value. -/
theorem C133_single {E : Env} {secure : Bool} {ops : List Op} {k j d now : Bytes} {p : Proof Bytes}
    (h : Valid E secure ops [k, j]) (hj : ∀ i, contents ops i = if i = j then some d else none)
    (hp : (MPT.after E secure ops).getPoe E now k = .ok p) : Discloses p (effective E secure j) d := by
  obtain ⟨a, h1, h2, h3, h4⟩ := h.inv
  have hn : a ≠ .empty := (nonempty_iff h h2 h3 h4).1 ⟨j, by simp [hj]⟩
  have hlk : T.lookup a (toNibs (effective E secure j)) = some d := by rw [h3, eff_eq h.keys (by simp), hj, if_pos rfl]
  have ha : a = .leaf (toNibs (effective E secure j)) d := by
    refine T.canon_unique h2 trivial fun q => ?_
    by_cases e : toNibs (effective E secure j) = q
    · subst e; rw [hlk, T.lookup, if_pos rfl]
    · rw [T.lookup, if_neg e]
      cases hq : T.lookup a q with
      | none => rfl
      | some w =>
        obtain ⟨x, rfl⟩ := h4 _ _ hq
        obtain ⟨i, rfl, hi⟩ := key_at h h3 hq
        rw [hj] at hi
        split at hi
        · rename_i e'; exact absurd (e' ▸ rfl) e
        · exact (nomatch hi)
  subst ha
  rw [h1.getPoe h.log hn (fits_nibs (h.fit (k := k) (by simp)))] at hp
  split at hp
  · exact (nomatch hp)
  injection hp with hp
  subst hp
  have hsh : T.shown (T.leaf (toNibs (effective E secure j)) d) (toNibs ((MPT.after E secure ops).keyOf E k)) =
      [T.leaf (toNibs (effective E secure j)) d] := by
    cases toNibs ((MPT.after E secure ops).keyOf E k) <;> rfl
  refine ⟨[], _, _, toNibs (effective E secure j), by simp only [hsh]; rfl, ?_, by simp [ledAlong]⟩
  exact (T.tells_iff h1.shape h1.stored hn).2 ⟨hlk, by
    have : T.trail (T.leaf (toNibs (effective E secure j)) d) (toNibs (effective E secure j)) =
      [T.leaf (toNibs (effective E secure j)) d] := by cases toNibs (effective E secure j) <;> rfl
    rw [this]; simp⟩

/-- A key that begins with another one. -/
def startOps : List Op := [.update [0x12] (bigValue 1), .update [0x12, 0x34] (bigValue 2)]

/-- C133 is false: the proof of a key has the values of the keys with which it begins. -/
theorem C133_false : ¬ C133 := by
  intro h
  obtain ⟨p, hp, -⟩ := ok_of (m := (MPT.after toyEnv false startOps).getPoi toyEnv [] [0x12, 0x34])
    (f := fun _ => true) (by decide +kernel)
  have hv : Valid toyEnv false startOps [[0x12, 0x34], [0x12]] := valid_of (by decide +kernel)
  have := h _ _ _ _ (bigValue 2) _ _ _ (bigValue 1) (hv.subset (by simp)) (by decide +kernel) hp
    (C133_prefix hv (v := bigValue 2) (j := [0x12]) (d := bigValue 1) (by decide +kernel) (by decide +kernel) (by decide +kernel) hp)
  revert this
  decide +kernel

/-- Short values of unrelated keys can be read too: here the proof of 12 tells that 2 is stored under 34. -/
example : ∃ p, (MPT.after realEnv false [.update [0x12] [1], .update [0x34] [2]]).getPoi realEnv [] [0x12] = .ok p ∧
    Discloses p [0x34] [2] := by
  have hv : Valid realEnv false [.update [0x12] [1], .update [0x34] [2]] [[0x12], [0x34]] := valid_of (by decide +kernel)
  obtain ⟨p, hp, h1⟩ := ok_of (m := (MPT.after realEnv false [.update [0x12] [1], .update [0x34] [2]]).getPoi realEnv []
    [0x12]) (f := fun p => decide (p.proof.head? = (MPT.after realEnv false [.update [0x12] [1], .update [0x34] [2]]).root))
    (by decide +kernel)
  obtain ⟨g, hg, h2⟩ := ok_of (m := (MPT.after realEnv false [.update [0x12] [1], .update [0x34] [2]]).getPoi realEnv []
    [0x34]) (f := fun p => decide (p.proof.head? = (MPT.after realEnv false [.update [0x12] [1], .update [0x34] [2]]).root)
      && decide (∀ z ∈ p.proof, z.length < 32)) (by decide +kernel)
  refine ⟨p, hp, (C133_exact hv (v := [1]) (d := [2]) (j := [0x34]) (by decide +kernel) (by decide +kernel) hp hg).2 ?_⟩
  simp only [Bool.and_eq_true, decide_eq_true_eq] at h1 h2
  obtain ⟨w, hw⟩ : ∃ w, (MPT.after realEnv false [.update [0x12] [1], .update [0x34] [2]]).root = some w :=
    Option.isSome_iff_exists.1 (by decide +kernel)
  rw [hw, List.head?_eq_some_iff] at h1 h2
  obtain ⟨l, hl⟩ := h1
  obtain ⟨⟨l', hl'⟩, h3⟩ := h2
  exact ⟨[], w, l', l, hl', hl, by simp [ledAlong], fun z hz => h3 z (by rw [hl']; exact List.mem_cons_of_mem _ hz)⟩

/-- The hypotheses of `C133_secure_partial` are met, and so are those of `C133_long_partial`: the value of the key itself
can be read, by `C133_prefix`. -/
example : ∃ p, Valid toyEnv true startOps [[0x12]] ∧ contents startOps [0x12] = some (bigValue 1) ∧
    (MPT.after toyEnv true startOps).getPoi toyEnv [] [0x12] = .ok p ∧
    (∀ j w, contents startOps j = some w → 32 ≤ w.length) ∧ Discloses p (effective toyEnv true [0x12]) (bigValue 1) := by
  obtain ⟨p, hp, -⟩ := ok_of (m := (MPT.after toyEnv true startOps).getPoi toyEnv [] [0x12]) (f := fun _ => true)
    (by decide +kernel)
  have hv : Valid toyEnv true startOps [[0x12], [0x12]] := valid_of (by decide +kernel)
  refine ⟨p, hv.subset (by simp), by decide +kernel, hp, fun j w hj => ?_,
    C133_prefix hv (v := bigValue 1) (by decide +kernel) (by decide +kernel) (List.prefix_refl _) hp⟩
  have h1 : ∀ e ∈ pairs startOps, 32 ≤ e.2.length := by decide +kernel
  exact h1 (j, w) (mem_pairs.2 hj)

/-- The hypotheses of `C133_empt_partial` are met. -/
example : EValid toyEnv true [.update [0x12] (.bytes (bigValue 1)), .update [0x34] (.bytes (bigValue 2))] [[0x12]] ∧
    (∀ j w, econtents [.update [0x12] (.bytes (bigValue 1)), .update [0x34] (.bytes (bigValue 2))] j = some w →
      32 ≤ (DataRef.encode toyEnv ⟨j, w.payload⟩).length) ∧
    ∃ p, (EMPT.after toyEnv true [.update [0x12] (.bytes (bigValue 1)), .update [0x34] (.bytes (bigValue 2))]).getPoi
      toyEnv [] [0x12] = .ok p := by
  obtain ⟨p, hp, -⟩ := ok_of (m := (EMPT.after toyEnv true
    [.update [0x12] (.bytes (bigValue 1)), .update [0x34] (.bytes (bigValue 2))]).getPoi toyEnv [] [0x12])
    (f := fun _ => true) (by decide +kernel)
  refine ⟨evalid_of (by decide +kernel), fun j w hj => ?_, p, hp⟩
  have h1 : (j = [0x34] ∧ w = .bytes (bigValue 2)) ∨ j = [0x12] ∧ w = .bytes (bigValue 1) := by
    simp only [econtents, List.foldl_cons, List.foldl_nil, EOp.apply, Value.storable] at hj
    split at hj
    · rename_i e; injection hj with hj; exact .inl ⟨e.2, hj.symm⟩
    · split at hj
      · rename_i e; injection hj with hj; exact .inr ⟨e.2, hj.symm⟩
      · exact (nomatch hj)
  rcases h1 with ⟨rfl, rfl⟩ | ⟨rfl, rfl⟩ <;> decide +kernel

/-- The hypotheses of `C133_excl` and `C133_single` are met. -/
example : Valid toyEnv false [.update [0x12] (bigValue 1)] [[0x34], [0x12]] ∧
    ∃ p, (MPT.after toyEnv false [.update [0x12] (bigValue 1)]).getPoe toyEnv [] [0x34] = .ok p ∧ 2 ≤ p.proof.length := by
  obtain ⟨p, h1, h2⟩ := ok_of (m := (MPT.after toyEnv false [.update [0x12] (bigValue 1)]).getPoe toyEnv [] [0x34])
    (f := fun p => decide (2 ≤ p.proof.length)) (by decide +kernel)
  exact ⟨valid_of (by decide +kernel), p, h1, by simpa using h2⟩

end Pymt.Props
