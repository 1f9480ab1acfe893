import Verif.Spec.Uniform
import Verif.Model.EmptProofs
import Verif.Props.Absence
import Verif.Props.EmptObjects

/-!
# Property C101: proofs of exclusion among keys of one length

In secure mode all paths have 32 bytes, and the values in the trie of an `EMPT` are references, which are long.
-/

namespace Pymt

/-- A key beside all present ones leaves them at the start, where they do not part. -/
theorem Off.start {m : Contents} {e : Bytes} {b : List Nib} (h : Off (fun x => m x ≠ none) e)
    (hb : Stop m (toNibs e) b) : b = [] ∧ ¬ Fork m b := by
  obtain ⟨c, h1, h2⟩ := h
  have key : ∀ b', b' <+: toNibs e → ¬ Fork m b' := by
    rintro b' hb' ⟨k1, k2, f1, f2, f3, f4, f5, f6⟩
    rcases List.prefix_or_prefix_of_prefix (h1 k1 f1) f4 with g | g
    · exact h2 (g.trans hb')
    · obtain ⟨d, rfl⟩ := g
      cases d with
      | nil => exact h2 (by simpa using hb')
      | cons i d =>
        have hc : b' ++ [i] <+: b' ++ i :: d := ⟨d, by simp⟩
        exact f6 i ⟨hc.trans (h1 k1 f1), hc.trans (h1 k2 f2)⟩
  refine ⟨?_, key b hb.1⟩
  rcases hb.2.1.2 with h0 | h0 | ⟨c', i, rfl, h0⟩
  · exact h0
  · exact absurd h0 (key b hb.1)
  · exact absurd h0 (key c' ((List.prefix_append _ _).trans hb.1))

namespace Props

/-- The full statement of C101: the proof of exclusion an EMPT in secure mode makes for an absent key is accepted by it. -/
def C101 : Prop := ∀ (E : Env) (ops : List EOp) (k now : Bytes), EValid E true ops [k] →
  (∃ k', econtents ops k' ≠ none) → econtents ops k = none →
  ∃ p, (EMPT.after E true ops).getPoe E now k = .ok p ∧ (EMPT.after E true ops).verifyPoe E p = .ok true

/-- C101 in part, exactly: among keys of one length (as in secure mode) with values of 30 bytes or more, the proof for
an absent key is made, and is accepted unless two or more keys are present and all paths begin with nibbles with
which that of the absent key does not. -/
theorem C101_trie_partial {E : Env} {secure : Bool} {ops : List Op} {k : Bytes} (now : Bytes)
    (h : Valid E secure ops [k]) (hne : ∃ k', contents ops k' ≠ none) (hk : contents ops k = none)
    (hlen : (effective E secure k).length < 2 ^ 60)
    (hu : ∀ e, Present E secure ops e → e.length = (effective E secure k).length)
    (hlong : ∀ k' v, contents ops k' = some v → 30 ≤ v.length) :
    ∃ p, (MPT.after E secure ops).getPoe E now k = .ok p ∧
      (¬ (Several (Present E secure ops) ∧ Off (Present E secure ops) (effective E secure k)) →
        (MPT.after E secure ops).verifyPoe E p = .ok true) ∧
      (Several (Present E secure ops) → Off (Present E secure ops) (effective E secure k) →
        CollFree E (hashed (MPT.after E secure ops) ++
          [Item.encode (.list [.str (hp true (toNibs (effective E secure k))), .str MPT.nullBytes])]) →
        (MPT.after E secure ops).verifyPoe E p = .ok false) := by
  have hP : Present E secure ops = fun e => pathContents E secure ops e ≠ none := by
    funext e; exact propext (eff_present h).symm
  rw [hP] at hu ⊢
  have hk' := absent_path h hk
  obtain ⟨a, b, h1, h2, hn, h3, hb, hat⟩ := at_after h hne
  obtain ⟨c1, c2, -, c4⟩ := C21_exact now h hk hlen hb
  have hkey : (MPT.after E secure ops).keyOf E k = effective E secure k := by
    rw [keyOf_eq, after_secure]; rfl
  have hl : ∀ e, pathContents E secure ops e ≠ none → (toNibs e).length = (toNibs (effective E secure k)).length := by
    intro e he; simp only [toNibs_length, hu e he]
  have hsev : Several (fun e => pathContents E secure ops e ≠ none) → b = [] →
      ∀ k', ¬ Lone (pathContents E secure ops) b k' := by
    rintro ⟨e1, e2, f1, f2, f3⟩ rfl k' hk'
    exact f3 ((hk'.2.2 e1 f1 (List.nil_prefix)).trans (hk'.2.2 e2 f2 List.nil_prefix).symm)
  -- accepted whatever the other conditions are
  have good : (∃ p, (MPT.after E secure ops).getPoe E now k = .ok p ∧ (MPT.after E secure ops).verifyPoe E p = .ok true) →
      (Several (fun e => pathContents E secure ops e ≠ none) →
        ¬ Off (fun e => pathContents E secure ops e ≠ none) (effective E secure k)) →
      ∃ p, (MPT.after E secure ops).getPoe E now k = .ok p ∧
      (¬ (Several (fun e => pathContents E secure ops e ≠ none) ∧
          Off (fun e => pathContents E secure ops e ≠ none) (effective E secure k)) →
        (MPT.after E secure ops).verifyPoe E p = .ok true) ∧
      (Several (fun e => pathContents E secure ops e ≠ none) →
        Off (fun e => pathContents E secure ops e ≠ none) (effective E secure k) →
        CollFree E (hashed (MPT.after E secure ops) ++
          [Item.encode (.list [.str (hp true (toNibs (effective E secure k))), .str MPT.nullBytes])]) →
        (MPT.after E secure ops).verifyPoe E p = .ok false) := by
    rintro ⟨p, f1, f2⟩ f3
    exact ⟨p, f1, fun _ => f2, fun g1 g2 => absurd g2 (f3 g1)⟩
  have hstk := T.seek_stuck h1.shape hn (toNibs (effective E secure k))
  have hcs := h2.seek (toNibs (effective E secure k))
  obtain ⟨b', hsp, hsub⟩ := T.seek_split a (toNibs (effective E secure k))
  have hf := fits_nibs (h.fit (k := k) (by simp))
  have hnull : (T.enc E (.leaf (T.seek a (toNibs (effective E secure k))).2 MPT.nullBytes)).length < 2 ^ 64 := by
    refine T.null_len E ?_
    have := T.seek_length a (toNibs (effective E secure k))
    rw [toNibs_length] at this
    omega
  have hg := h1.getPoe h.log hn (now := now) hf
  have hs := fun p => h1.verifyPoe_skip' h.log hn (p := p)
  rw [hkey] at hf hg
  have hsn := fun hl => T.seek_of_passed_nil (t := a) (p := toNibs (effective E secure k)) hl
  generalize hsd : T.seek a (toNibs (effective E secure k)) = s at *
  cases hat with
  | @lone q v r k1 g1 g2 g3 g4 =>
    refine good ?_ fun f1 f2 => hsev f1 (f2.start hb).1 _ g4
    obtain ⟨p, f1, f2⟩ := c1 k1 g4
    refine ⟨p, f1, f2.trans ?_⟩
    rw [decide_eq_true]
    intro he
    have h5 := hl k1 (by simp [g3])
    rw [he, List.length_append] at h5
    have hb0 : b = [] := List.length_eq_zero_iff.1 (by omega)
    subst hb0
    have := toNibs_inj he
    rw [this, hk'] at g3
    simp at g3
  | @fork cs v r g1 g2 g3 g4 =>
    refine good (c2 g2 fun e he => ?_) fun _ f2 => (f2.start hb).2 g2
    refine Classical.byContradiction fun hx => ?_
    have h5 := hl e hx
    rw [he] at h5
    have h6 : b = toNibs (effective E secure k) := hb.1.eq_of_length h5
    have := toNibs_inj (he.trans h6)
    rw [this] at hx
    exact hx hk'
  | @run q c r g1 g2 g3 g4 =>
    obtain ⟨c5, c6, -⟩ := c4 g4 g2
    have hbb : b' = b := List.append_cancel_right (hsp.symm.trans g1)
    subst hbb
    simp only at hsub hstk
    have hr : r ≠ [] := by
      rintro rfl
      obtain ⟨e, he, hbe⟩ := g3
      rw [List.append_nil] at g1
      have h5 := hl e he
      rw [← g1] at hbe
      have := toNibs_inj (hbe.eq_of_length h5.symm)
      rw [← this] at he
      exact he hk'
    have hrb : toNibs (effective E secure k) ≠ b' := by
      rw [g1]; simpa using hr
    have hqr : ¬ q <+: r := hstk.resolve_left hr
    have hhas : T.has a (toNibs (effective E secure k)) = false := by simp [T.has, hsd]
    rw [if_neg (by simp [hhas])] at hg
    by_cases hb0 : b' = []
    · have hoff : Off (fun e => pathContents E secure ops e ≠ none) (effective E secure k) := by
        subst hb0
        refine ⟨q, fun e he => ?_, by rw [g1]; exact hqr⟩
        have he : pathContents E secure ops e ≠ none := he
        rw [← h3, ← List.nil_append (toNibs e), hsub] at he
        simp only [T.lookup] at he
        split at he
        · rename_i hq; exact hq
        · exact absurd rfl he
      have hsv : Several (fun e => pathContents E secure ops e ≠ none) := by
        obtain ⟨e, he, hbe⟩ := g3
        refine Classical.byContradiction fun hx => g4 e ⟨he, hbe, fun k2 hk2 _ => ?_⟩
        refine Classical.byContradiction fun hy => hx ⟨k2, e, hk2, he, hy⟩
      refine ⟨_, hg, fun hx => absurd ⟨hsv, hoff⟩ hx, fun _ _ hcol => ?_⟩
      obtain ⟨p, f1, f2⟩ := c6 hrb hb0 hcol
      rw [hg] at f1
      cases f1
      exact f2
    · refine good ?_ fun _ f2 => absurd (f2.start hb).1 hb0
      obtain ⟨i, r, rfl⟩ : ∃ i r', r = i :: r' := by
        cases r with
        | nil => exact absurd rfl hr
        | cons i r => exact ⟨i, r, rfl⟩
      have hpas : T.passed a (toNibs (effective E secure k)) ≠ [] := by
        intro hpas
        have := congrArg Prod.snd (hsn hpas)
        simp only at this
        rw [g1] at this
        have := congrArg List.length this
        simp only [List.length_append] at this
        exact hb0 (List.length_eq_zero_iff.1 (by omega))
      have hsh : T.shown a (toNibs (effective E secure k)) = T.passed a (toNibs (effective E secure k)) := by
        simp [T.shown, hsd]
      rw [hsh] at hg
      refine ⟨_, hg, ?_⟩
      rw [hs _ rfl hnull rfl hf hpas, if_pos]
      simp only [hsd]
      refine T.ref_len ?_
      obtain ⟨e, he, x, hx⟩ := g3
      cases hv : pathContents E secure ops e with
      | none => exact absurd hv he
      | some v =>
        have hlk : T.lookup (.ext q c) x = some v := by rw [← hsub, hx, h3, hv]
        have h5 := T.enc_ge E hlk
        have h6 : 30 ≤ v.length := by
          obtain ⟨k2, h7, h8⟩ := (eff_present h).1 he
          cases hv2 : contents ops k2 with
          | none => exact absurd hv2 h7
          | some v2 =>
            have h9 : pathContents E secure ops e = contents ops k2 := by
              rw [h8]; exact eff_eq h.keys (List.mem_append_right _ (contents_some_mem hv2))
            rw [h9, hv2] at hv
            cases hv
            exact hlong _ _ hv2
        omega

/-- Two keys whose hashes begin with the same nibble. -/
def pairOps : List EOp := [.update [2] (.bytes [7]), .update [4] (.bytes [8])]

theorem pair_valid : EValid realEnv true pairOps [[1]] := evalid_of (by decide +kernel)

theorem pair_verdict : ((EMPT.after realEnv true pairOps).getPoe realEnv [] [1] >>= fun p =>
    (EMPT.after realEnv true pairOps).verifyPoe realEnv p) = .ok false := by decide +kernel

/-- C101 is false: the hashes of the present keys `02` and `04` begin with the same nibble, that of the absent key `01`
does not, and the proof is rejected. -/
theorem C101_false : ¬ C101 := by
  intro h
  obtain ⟨p, h1, h2⟩ := h _ _ _ [] pair_valid ⟨[2], by decide⟩ (by decide)
  have := pair_verdict
  rw [h1] at this
  simp only [Except.bind_ok', h2] at this
  simp at this

/-- A reference with a hash of 23 bytes or more has 30 bytes or more. -/
theorem refOf_length {E : Env} {k : Bytes} {v : Value} (h : 2 ^ 176 ≤ ofBE (E.keccak (k ++ v.payload))) :
    30 ≤ (refOf E k v).length := by
  have hn : DataRef.hash E ⟨k, v.payload⟩ ≠ 0 := by
    unfold DataRef.hash; simp only
    have : 0 < 2 ^ 176 := by decide
    omega
  have h3 := beBytes_long (n := DataRef.hash E ⟨k, v.payload⟩) (m := 22) (by
    unfold DataRef.hash; simp only
    exact Nat.le_trans (by decide) h)
  have h4 := encStr_length_ge (b := beBytes (DataRef.hash E ⟨k, v.payload⟩)) (by omega)
  have h5 := encStr_pos k
  have h6 := encStr_pos v.payload
  have h7 : (encStr DataRef.flag).length = 3 := by decide
  have h8 : 0 < (lenPrefix 192 (Item.encodeList [.str DataRef.flag, .str k, .str v.payload,
      DataRef.intItem (DataRef.hash E ⟨k, v.payload⟩)]).length).length := by
    unfold lenPrefix; split <;> simp
  have h9 : 29 ≤ (Item.encodeList [.str DataRef.flag, .str k, .str v.payload,
      DataRef.intItem (DataRef.hash E ⟨k, v.payload⟩)]).length := by
    simp only [Item.encodeList, Item.encode, DataRef.intItem, hn, if_false, List.length_append,
      List.append_nil]
    omega
  unfold refOf DataRef.encode
  rw [Item.encode, List.length_append]
  dsimp only
  omega

/-- C101 in part, exactly, for an EMPT in secure mode, and for the sparse and root copies of it: the proof for an absent
key is made, and is accepted unless two or more keys are present and the hashes of all of them begin with nibbles
with which that of the absent key does not.  Missing, and false (`C101_false`): that case. -/
theorem C101_empt_partial {E : Env} {ops : List EOp} {k : Bytes} (now : Bytes)
    (h : EValid E true ops [k]) (hne : ∃ k', econtents ops k' ≠ none) (hk : econtents ops k = none)
    (hbig : ∀ k' v, econtents ops k' = some v → 2 ^ 176 ≤ ofBE (E.keccak (k' ++ v.payload))) :
    ∃ p, (EMPT.after E true ops).getPoe E now k = .ok p ∧
      RootTrie.verifyPoe E ((EMPT.after E true ops).getRootTrie E) p = (EMPT.after E true ops).verifyPoe E p ∧
      Sparse.verifyPoe E ((EMPT.after E true ops).getSparse E) p = (EMPT.after E true ops).verifyPoe E p ∧
      (¬ ((∃ k1 k2, econtents ops k1 ≠ none ∧ econtents ops k2 ≠ none ∧ k1 ≠ k2) ∧
          ∃ c, (∀ k', econtents ops k' ≠ none → c <+: toNibs (E.keccak k')) ∧ ¬ c <+: toNibs (E.keccak k)) →
        (EMPT.after E true ops).verifyPoe E p = .ok true) ∧
      ((∃ k1 k2, econtents ops k1 ≠ none ∧ econtents ops k2 ≠ none ∧ k1 ≠ k2) →
        (∃ c, (∀ k', econtents ops k' ≠ none → c <+: toNibs (E.keccak k')) ∧ ¬ c <+: toNibs (E.keccak k)) →
        CollFree E (hashed (EMPT.after E true ops).trie ++
          [Item.encode (.list [.str (hp true (toNibs (E.keccak k))), .str MPT.nullBytes])]) →
        (EMPT.after E true ops).verifyPoe E p = .ok false) := by
  have hm := h.mirror
  have hval := h.valid hm
  have hcon : ∀ k', contents (refOps E ops) k' ≠ none ↔ econtents ops k' ≠ none := by
    intro k'; rw [contents_refOps]; simp
  have heff : ∀ k', effective E true k' = E.keccak k' := fun _ => rfl
  obtain ⟨k0, hk0⟩ := hne
  have hlen32 : ∀ k', (effective E true k').length = 32 := fun k' => E.keccak_len _
  obtain ⟨p, f1, f2, f3⟩ := C101_trie_partial now hval ⟨k0, (hcon k0).2 hk0⟩ (by rw [contents_refOps, hk]; rfl)
    (by rw [hlen32]; decide) (by rintro e ⟨k', -, rfl⟩; rw [hlen32, hlen32]) (by
      intro k' v hv
      rw [contents_refOps] at hv
      cases he : econtents ops k' with
      | none => rw [he] at hv; simp at hv
      | some w =>
        rw [he] at hv
        cases hv
        exact refOf_length (hbig _ _ he))
  have hoff : Off (Present E true (refOps E ops)) (effective E true k) ↔
      ∃ c, (∀ k', econtents ops k' ≠ none → c <+: toNibs (E.keccak k')) ∧ ¬ c <+: toNibs (E.keccak k) := by
    constructor
    · rintro ⟨c, g1, g2⟩
      exact ⟨c, fun k' hk' => g1 _ ⟨k', (hcon k').2 hk', rfl⟩, g2⟩
    · rintro ⟨c, g1, g2⟩
      refine ⟨c, ?_, g2⟩
      rintro e ⟨k', hk', rfl⟩
      exact g1 k' ((hcon k').1 hk')
  have hsev : Several (Present E true (refOps E ops)) ↔
      ∃ k1 k2, econtents ops k1 ≠ none ∧ econtents ops k2 ≠ none ∧ k1 ≠ k2 := by
    constructor
    · rintro ⟨e1, e2, ⟨k1, g1, rfl⟩, ⟨k2, g2, rfl⟩, g3⟩
      exact ⟨k1, k2, (hcon _).1 g1, (hcon _).1 g2, fun e => g3 (by rw [e])⟩
    · rintro ⟨k1, k2, g1, g2, g3⟩
      refine ⟨_, _, ⟨k1, (hcon _).2 g1, rfl⟩, ⟨k2, (hcon _).2 g2, rfl⟩, fun e => g3 ?_⟩
      have hmem : ∀ x, econtents ops x ≠ none → x ∈ [k] ++ (refOps E ops).map Op.key := by
        intro x hx
        cases hv : contents (refOps E ops) x with
        | none => exact absurd hv ((hcon x).2 hx)
        | some v => exact List.mem_append_right _ (contents_some_mem hv)
      exact hval.keys rfl _ (hmem _ g1) _ (hmem _ g2) e
  have hcv := C24_conversions E (EMPT.after E true ops) p
  rw [hoff, hsev] at f2
  rw [hoff, hsev] at f3
  rw [← hm.trie] at f1 f2 f3
  exact ⟨p, f1, hcv.2.1, hcv.2.2.2, f2, f3⟩

/-! ### Cases -/

private theorem of_mem {ops : List Op} {Q : Bytes → Bytes → Prop} (h : ∀ k ∈ ops.map Op.key, ∀ v, contents ops k = some v →
    Q k v) : ∀ k v, contents ops k = some v → Q k v := fun _ _ hv => h _ (contents_some_mem hv) _ hv

private def evenOps : List Op :=
  [.update [0x12, 0x34] (bigValue 1), .update [0x12, 0x35] (bigValue 2), .update [0x77, 0] (bigValue 3),
   .update [0x13, 0] (bigValue 4), .delete [0x13, 0]]

private theorem even_long : ∀ k v, contents evenOps k = some v → 30 ≤ v.length := by
  refine of_mem fun k hk => ?_
  simp only [evenOps, List.map_cons, List.map_nil, Op.key, List.mem_cons, List.not_mem_nil, or_false] at hk
  rcases hk with rfl | rfl | rfl | rfl | rfl
  · intro v hv
    have : contents evenOps [0x12, 0x34] = some (bigValue 1) := by decide +kernel
    rw [this] at hv; cases hv; decide +kernel
  · intro v hv
    have : contents evenOps [0x12, 0x35] = some (bigValue 2) := by decide +kernel
    rw [this] at hv; cases hv; decide +kernel
  · intro v hv
    have : contents evenOps [0x77, 0] = some (bigValue 3) := by decide +kernel
    rw [this] at hv; cases hv; decide +kernel
  all_goals
    intro v hv
    have : contents evenOps [0x13, 0] = none := by decide +kernel
    rw [this] at hv; cases hv

/-- Keys of two bytes, among them two that run together, and an absent one that leaves these. -/
example : Valid toyEnv false evenOps [[0x12, 0x44]] ∧ contents evenOps [0x12, 0x34] ≠ none ∧
    contents evenOps [0x12, 0x44] = none ∧
    (∀ e, Present toyEnv false evenOps e → e.length = (effective toyEnv false [0x12, 0x44]).length) ∧
    (∀ k v, contents evenOps k = some v → 30 ≤ v.length) ∧ Several (Present toyEnv false evenOps) ∧
    ¬ Off (Present toyEnv false evenOps) (effective toyEnv false [0x12, 0x44]) := by
  refine ⟨valid_of (by decide +kernel), by decide +kernel, by decide +kernel, ?_, even_long,
    ⟨[0x12, 0x34], [0x77, 0], ⟨_, by decide +kernel, rfl⟩, ⟨_, by decide +kernel, rfl⟩, by decide⟩, ?_⟩
  · rintro e ⟨k, hk, he⟩
    have he : e = k := he
    subst he
    cases hv : contents evenOps e with
    | none => exact absurd hv hk
    | some v =>
      have hm := contents_some_mem hv
      simp only [evenOps, List.map_cons, List.map_nil, Op.key, List.mem_cons, List.not_mem_nil, or_false] at hm
      rcases hm with rfl | rfl | rfl | rfl | rfl <;> rfl
  · rintro ⟨c, g1, g2⟩
    have h1 := g1 [0x12, 0x34] ⟨_, by decide +kernel, rfl⟩
    have h2 := g1 [0x77, 0] ⟨_, by decide +kernel, rfl⟩
    cases c with
    | nil => exact g2 List.nil_prefix
    | cons i c =>
      obtain ⟨d1, h1⟩ := h1
      obtain ⟨d2, h2⟩ := h2
      have h3 : toNibs [0x12, 0x34] = [1, 2, 3, 4] := by decide +kernel
      have h4 : toNibs [0x77, 0] = [7, 7, 0, 0] := by decide +kernel
      rw [h3] at h1
      rw [h4] at h2
      simp only [List.cons_append, List.cons.injEq] at h1 h2
      exact absurd (h1.1.symm.trans h2.1) (by decide)

private theorem pair_keys {k : Bytes} (h : econtents pairOps k ≠ none) : k = [2] ∨ k = [4] := by
  cases hv : econtents pairOps k with
  | none => exact absurd hv h
  | some v =>
    have := econtents_some_mem hv
    simp only [pairOps, List.mem_cons, EOp.update.injEq, List.not_mem_nil, or_false] at this
    exact this.imp And.left And.left

private theorem pair_big {k : Bytes} {v : Value} (h : econtents pairOps k = some v) :
    2 ^ 176 ≤ ofBE (realEnv.keccak (k ++ v.payload)) := by
  rcases pair_keys (by rw [h]; simp) with rfl | rfl
  · have : econtents pairOps [2] = some (.bytes [7]) := by decide
    rw [this] at h; cases h; decide +kernel
  · have : econtents pairOps [4] = some (.bytes [8]) := by decide
    rw [this] at h; cases h; decide +kernel

private theorem pair_coll : CollFree realEnv (hashed (EMPT.after realEnv true pairOps).trie ++
    [Item.encode (.list [.str (hp true (toNibs (realEnv.keccak [1]))), .str MPT.nullBytes])]) :=
  collFree_of (by decide +kernel)

private theorem pair_off : ∃ c, (∀ k', econtents pairOps k' ≠ none → c <+: toNibs (realEnv.keccak k')) ∧
    ¬ c <+: toNibs (realEnv.keccak [1]) := by
  refine ⟨[15], fun k hk => ?_, by decide +kernel⟩
  rcases pair_keys hk with rfl | rfl <;> decide +kernel

/-- Both keys begin with `f`, the absent one does not: rejected. -/
example : EValid realEnv true pairOps [[1]] ∧ econtents pairOps [2] ≠ none ∧ econtents pairOps [1] = none ∧
    (∀ k' v, econtents pairOps k' = some v → 2 ^ 176 ≤ ofBE (realEnv.keccak (k' ++ v.payload))) ∧
    (∃ c, (∀ k', econtents pairOps k' ≠ none → c <+: toNibs (realEnv.keccak k')) ∧
      ¬ c <+: toNibs (realEnv.keccak [1])) ∧
    CollFree realEnv (hashed (EMPT.after realEnv true pairOps).trie ++
      [Item.encode (.list [.str (hp true (toNibs (realEnv.keccak [1]))), .str MPT.nullBytes])]) :=
  ⟨pair_valid, by decide, by decide, fun _ _ => pair_big, pair_off, pair_coll⟩

end Props
end Pymt
