import Verif.Props.Lookups
import Verif.Lemmas.YellowPaper

/-!
# Property C21 exactly: which exclusion proofs verify

`pathContents`, `Stop`, `Lone`, `Fork` (`Verif/Spec/Stop.lean`) are conditions on contents, `YP.c`
(`Verif/Spec/YellowPaper.lean`) is the node of a list of pairs.
-/

namespace Pymt

/-- A walk that consumes nothing passes no node. -/
theorem T.passed_nil_of {a : T} (h : a.Canon) {p : List Nib} (hl : (T.seek a p).2 = p) : T.passed a p = [] := by
  cases a with
  | empty => rfl
  | leaf q v => rfl
  | ext q c =>
    cases p with
    | nil => rfl
    | cons i p =>
      by_cases hq : q <+: i :: p
      · exfalso
        rw [T.seek, if_pos hq] at hl
        have h1 := T.seek_length c ((i :: p).drop q.length)
        rw [hl, List.length_drop] at h1
        have : 0 < q.length := List.length_pos_iff.2 h.1
        simp only [List.length_cons] at h1
        omega
      · simp [T.passed, hq]
  | branch cs v =>
    cases p with
    | nil => rfl
    | cons i p =>
      by_cases hq : (cs i).isEmpty = true
      · simp [T.passed, hq]
      · exfalso
        rw [T.seek, if_neg hq] at hl
        have h1 := T.seek_length (cs i) p
        rw [hl] at h1
        simp only [List.length_cons] at h1
        omega

namespace Props

/-- C21 exactly: what becomes of the exclusion proof for an absent key of a trie with keys, by the point
`b` where the key leaves the present ones.
1. Beside a single key `k'`: accepted, unless the rest of `k'` after `b` is the whole path of the absent key.
2. Where keys part, and no present key ends there: accepted.
3. Where keys part, and a present key ends there: no proof is made, PoeError.
4. Where keys run together, and the absent key ends there: accepted.
5. Where keys run together from the start: rejected.
6. Where keys run together later on: accepted if the node there has 32 bytes or more, PoeError otherwise. -/
theorem C21_exact {E : Env} {secure : Bool} {ops : List Op} {k : Bytes} (now : Bytes) {b : List Nib}
    (h : Valid E secure ops [k]) (hk : contents ops k = none)
    (hlen : (effective E secure k).length < 2 ^ 60)
    (hb : Stop (pathContents E secure ops) (toNibs (effective E secure k)) b) :
    (∀ k', Lone (pathContents E secure ops) b k' →
      ∃ p, (MPT.after E secure ops).getPoe E now k = .ok p ∧ (MPT.after E secure ops).verifyPoe E p =
        .ok (decide (toNibs k' ≠ b ++ toNibs (effective E secure k)))) ∧
    (Fork (pathContents E secure ops) b → (∀ e, toNibs e = b → pathContents E secure ops e = none) →
      ∃ p, (MPT.after E secure ops).getPoe E now k = .ok p ∧
        (MPT.after E secure ops).verifyPoe E p = .ok true) ∧
    (∀ e, Fork (pathContents E secure ops) b → toNibs e = b → pathContents E secure ops e ≠ none →
      (MPT.after E secure ops).getPoe E now k = .error .poe) ∧
    ((∀ k', ¬ Lone (pathContents E secure ops) b k') → ¬ Fork (pathContents E secure ops) b →
      (toNibs (effective E secure k) = b →
        ∃ p, (MPT.after E secure ops).getPoe E now k = .ok p ∧
          (MPT.after E secure ops).verifyPoe E p = .ok true) ∧
      (toNibs (effective E secure k) ≠ b → b = [] →
        CollFree E (hashed (MPT.after E secure ops) ++
          [Item.encode (.list [.str (hp true (toNibs (effective E secure k))), .str MPT.nullBytes])]) →
        ∃ p, (MPT.after E secure ops).getPoe E now k = .ok p ∧
          (MPT.after E secure ops).verifyPoe E p = .ok false) ∧
      (toNibs (effective E secure k) ≠ b → b ≠ [] → ∀ I : YP.Pairs, (I.map (·.1)).Nodup →
        (∀ q v, (q, v) ∈ I ↔ ∃ e, toNibs e = b ++ q ∧ pathContents E secure ops e = some v) →
        ∃ p, (MPT.after E secure ops).getPoe E now k = .ok p ∧
          (MPT.after E secure ops).verifyPoe E p =
            if 32 ≤ (YP.c E I).encode.length then .ok true else .error .poe)) := by
  have hk' := absent_path h hk
  have hne : ∃ k', contents ops k' ≠ none := by
    obtain ⟨⟨e, he, _⟩, _⟩ := hb.2.1
    obtain ⟨k0, h0, _⟩ := (eff_present h).1 he
    exact ⟨k0, h0⟩
  obtain ⟨a, h1, h2, h3, h4⟩ := h.inv
  have hn : a ≠ .empty := (nonempty_iff h h2 h3 h4).1 hne
  obtain ⟨b', hb', hat⟩ := at_stop (m := pathContents E secure ops) h2 hn h3 h4 (toNibs (effective E secure k))
  have := hb'.unique hb
  subst this
  have hkey : (MPT.after E secure ops).keyOf E k = effective E secure k := by
    rw [keyOf_eq, after_secure]; rfl
  have hf := fits_nibs (h.fit (k := k) (by simp))
  have hnull : (T.enc E (.leaf (T.seek a (toNibs (effective E secure k))).2 MPT.nullBytes)).length < 2 ^ 64 := by
    refine T.null_len E ?_
    have := T.seek_length a (toNibs (effective E secure k))
    rw [toNibs_length] at this
    omega
  have hg := h1.getPoe h.log hn (now := now) hf
  have hv := fun p => h1.verifyPoe h.log hn (p := p)
  have hs := fun p => h1.verifyPoe_skip' h.log hn (p := p)
  rw [hkey] at hf hg
  obtain ⟨b', hsp, hsub⟩ := T.seek_split a (toNibs (effective E secure k))
  have hcs := h2.seek (toNibs (effective E secure k))
  have hpn := fun hl => T.passed_nil_of h2 (p := toNibs (effective E secure k)) hl
  have hsn := fun hl => T.seek_of_passed_nil (t := a) (p := toNibs (effective E secure k)) hl
  have hnil : ∀ {r : List Nib}, toNibs (effective E secure k) = b ++ r → (toNibs (effective E secure k) = b ↔ r = []) := by
    intro r hr; rw [hr]; simp
  -- the proof that lists all nodes on the way
  have full : T.has a (toNibs (effective E secure k)) = false →
      T.shown a (toNibs (effective E secure k)) = T.trail a (toNibs (effective E secure k)) →
      ∃ p, (MPT.after E secure ops).getPoe E now k = .ok p ∧ (MPT.after E secure ops).verifyPoe E p =
        .ok (T.admits (T.seek a (toNibs (effective E secure k))).1 (toNibs (effective E secure k))) := by
    intro e1 e2
    rw [e1, e2] at hg
    exact ⟨_, hg, hv _ rfl hnull rfl hf⟩
  generalize hsd : T.seek a (toNibs (effective E secure k)) = s at *
  cases hat with
  | @lone q v r k1 g1 g2 g3 g4 =>
    have hqr : q ≠ r := by
      rintro rfl
      have : k1 = effective E secure k := toNibs_inj (g2.trans g1.symm)
      rw [this, hk'] at g3
      simp at g3
    obtain ⟨p, f1, f2⟩ := full (by simp [T.has, hsd, hqr]) (by simp [T.shown, hsd])
    refine ⟨fun k' hl => ⟨p, f1, ?_⟩, fun hf => ?_, fun e hf => ?_, fun hl => absurd g4 (hl _)⟩
    · have : k1 = k' := hl.2.2 k1 g4.1 g4.2.1
      subst this
      rw [f2, g2]
      simp only [T.admits, ne_eq, List.append_cancel_left_eq, decide_not]
    all_goals
      obtain ⟨k2, k3, f1, f2, f3, f4, f5, _⟩ := hf
      exact absurd ((g4.2.2 k2 f1 f4).trans (g4.2.2 k3 f2 f5).symm) f3
  | @fork cs v r g1 g2 g3 g4 =>
    refine ⟨fun k' hl => ?_, fun _ he => ?_, fun e _ he hp => ?_, fun _ hnf => absurd g2 hnf⟩
    · obtain ⟨k2, k3, f1, f2, f3, f4, f5, _⟩ := g2
      exact absurd ((hl.2.2 k2 f1 f4).trans (hl.2.2 k3 f2 f5).symm) f3
    · have hv0 : v = [] := Classical.byContradiction fun hv0 => by
        obtain ⟨e, h0⟩ := g4 hv0
        have := g3 e h0
        rw [he e h0, if_neg hv0] at this
        simp at this
      obtain ⟨p, f1, f2⟩ := full (by simp [T.has, hsd, hv0]) (by simp [T.shown, hsd])
      exact ⟨p, f1, f2⟩
    · have hv0 : v ≠ [] := by
        rintro rfl
        exact hp (g3 e he)
      rw [hg, if_pos (by simp [T.has, hsd, hv0])]
  | @run q c r g1 g2 g3 g4 =>
    refine ⟨fun k' hl => absurd hl (g4 _), fun hf => absurd hf g2, fun e hf => absurd hf g2, fun _ _ => ?_⟩
    have hhas : T.has a (toNibs (effective E secure k)) = false := by simp [T.has, hsd]
    rw [if_neg (by simp [hhas])] at hg
    have hbb : b' = b := List.append_cancel_right (hsp.symm.trans g1)
    subst hbb
    refine ⟨fun hp => ?_, fun hp hb0 hcol => ?_, fun hp hb0 I hI1 hI2 => ?_⟩
    · have := (hnil g1).1 hp
      subst this
      obtain ⟨p, f1, f2⟩ := full hhas (by simp [T.shown, hsd])
      exact ⟨p, f1, f2⟩
    · have hr : r ≠ [] := fun e => hp ((hnil g1).2 e)
      obtain ⟨i, r, rfl⟩ : ∃ i r', r = i :: r' := by
        cases r with
        | nil => exact absurd rfl hr
        | cons i r => exact ⟨i, r, rfl⟩
      subst hb0
      have hpas := hpn g1.symm
      have hsh : T.shown a (toNibs (effective E secure k)) = [] := by simp [T.shown, hsd, hpas]
      rw [hsh] at hg
      refine ⟨_, hg, ?_⟩
      have ha := hsn hpas
      have ha1 : a = .ext q c := by
        have := congrArg Prod.fst ha
        exact this.symm
      unfold MPT.verifyPoe
      have hfirst : pyIndex [T.enc E (.leaf (i :: r) MPT.nullBytes)] 0 =
        .ok (T.enc E (.leaf (i :: r) MPT.nullBytes)) := rfl
      have hroot : (MPT.after E secure ops).rootHash E ≠ E.keccak (T.enc E (.leaf (i :: r) MPT.nullBytes)) := by
        rw [h1.rootHash]
        intro he
        have hm : T.enc E a ∈ hashed (MPT.after E secure ops) := by
          rcases List.mem_cons.1 h1.enc_hashed with h0 | h0
          · exfalso
            rw [ha1] at h0
            have := Item.encode_inj (x := .str []) (by decide) h0.symm
            simp [T.item] at this
          · exact h0
        have := hcol _ (List.mem_append_left _ hm) _
          (List.mem_append_right _ (List.mem_singleton.2 rfl))
          (he.trans (by rw [g1]; rfl))
        have := Item.encode_inj (by
          have : (T.enc E a).length < 2 ^ 64 := T.trail_len h1.stored (toNibs (effective E secure k)) a
            (by rw [T.trail_eq, hsd]; exact List.mem_append_right _ (List.mem_singleton.2 ha1))
          exact this) this
        rw [ha1] at this
        simp only [T.item, Item.list.injEq, List.cons.injEq, Item.str.injEq] at this
        have := (hp_inj this.1).1
        simp at this
      simp only [List.map_nil, List.nil_append]
      rw [h1.noRoot h.log, T.Holds.isEmpty_false hn, hfirst]
      simp only [ne_eq, not_true, if_false, Bool.false_eq_true, Except.bind_ok']
      rw [if_pos hroot]
      rfl
    · have hr : r ≠ [] := fun e => hp ((hnil g1).2 e)
      obtain ⟨i, r, rfl⟩ : ∃ i r', r = i :: r' := by
        cases r with
        | nil => exact absurd rfl hr
        | cons i r => exact ⟨i, r, rfl⟩
      have hpas : T.passed a (toNibs (effective E secure k)) ≠ [] := by
        intro hpas
        have := congrArg Prod.snd (hsn hpas)
        simp only at this
        rw [g1] at this
        have := congrArg List.length this
        simp only [List.length_append] at this
        exact hb0 (List.length_eq_zero_iff.1 (by omega))
      have hsh : T.shown a (toNibs (effective E secure k)) = T.passed a (toNibs (effective E secure k)) := by
        simp [T.shown, hsd]
      rw [hsh] at hg
      refine ⟨_, hg, ?_⟩
      rw [hs _ rfl hnull rfl hf hpas]
      have hL : YP.Lists I (T.ext q c) := by
        refine ⟨fun q' v => ?_, hI1⟩
        rw [hI2]
        simp only at hsub
        rw [← hsub]
        constructor
        · rintro ⟨e, f1, f2⟩
          rw [← f1, h3]; exact f2
        · intro f
          obtain ⟨e, f1⟩ := h4 _ _ f
          exact ⟨e, f1.symm, by rw [← f, f1]; exact (h3 e).symm⟩
      rw [YP.c_eq_item E hcs hL]
      simp only [hsd]
      by_cases h32 : 32 ≤ (T.item E (T.ext q c)).encode.length
      · rw [if_pos h32, if_pos (T.ref_len h32)]
      · rw [if_neg h32, if_neg]
        rw [T.ref_of_ne (by simp), if_pos (by exact Nat.lt_of_not_le h32)]
        exact fun e => h32 (by rw [← e]; exact Nat.le_refl _)

/-- The proof for an absent key, made and checked. -/
private def trial (ops : List Op) (k : Bytes) : Py Bool :=
  (MPT.after toyEnv false ops).getPoe toyEnv [] k >>= (MPT.after toyEnv false ops).verifyPoe toyEnv

/-- Case 1: beside `12 34`. -/
example : Valid toyEnv false lookupOps [[0x12, 0x35]] ∧ contents lookupOps [0x12, 0x35] = none ∧
    Stop (pathContents toyEnv false lookupOps) (toNibs [0x12, 0x35]) [1, 2] ∧
    Lone (pathContents toyEnv false lookupOps) [1, 2] [0x12, 0x34] ∧
    trial lookupOps [0x12, 0x35] = .ok true :=
  ⟨valid_of (by decide +kernel), by decide +kernel, stop_dec (fun _ => mem_pathsOf) (by decide +kernel),
   (lone_dec (fun _ => mem_pathsOf) _ _).2 (by decide +kernel), by decide +kernel⟩
/-- Case 1, rejected: the rest of `12 12` after `12` is the absent key `12`. -/
example : Valid toyEnv false [.update [0x12, 0x12] [1], .update [0x13] [2]] [[0x12]] ∧
    contents [.update [0x12, 0x12] [1], .update [0x13] [2]] [0x12] = none ∧
    Stop (pathContents toyEnv false [.update [0x12, 0x12] [1], .update [0x13] [2]]) (toNibs [0x12]) [1, 2] ∧
    Lone (pathContents toyEnv false [.update [0x12, 0x12] [1], .update [0x13] [2]]) [1, 2] [0x12, 0x12] ∧
    trial [.update [0x12, 0x12] [1], .update [0x13] [2]] [0x12] = .ok false :=
  ⟨valid_of (by decide +kernel), by decide +kernel, stop_dec (fun _ => mem_pathsOf) (by decide +kernel),
   (lone_dec (fun _ => mem_pathsOf) _ _).2 (by decide +kernel), by decide +kernel⟩
/-- Case 2. -/
example : Valid toyEnv false lookupOps [[0x99]] ∧ contents lookupOps [0x99] = none ∧
    Stop (pathContents toyEnv false lookupOps) (toNibs [0x99]) [] ∧
    Fork (pathContents toyEnv false lookupOps) [] ∧
    (∀ e, toNibs e = [] → pathContents toyEnv false lookupOps e = none) ∧ trial lookupOps [0x99] = .ok true := by
  refine ⟨valid_of (by decide +kernel), by decide +kernel, stop_dec (fun _ => mem_pathsOf) (by decide +kernel),
   (fork_dec (fun _ => mem_pathsOf) _).2 (by decide +kernel), fun e he => ?_, by decide +kernel⟩
  have : e = [] := toNibs_inj he
  subst this; decide +kernel
/-- Case 3: the key `12` is present, `12 99` leaves there. -/
example : Valid toyEnv false [.update [0x12] [1], .update [0x12, 0x34] [2]] [[0x12, 0x99]] ∧
    contents [.update [0x12] [1], .update [0x12, 0x34] [2]] [0x12, 0x99] = none ∧
    Stop (pathContents toyEnv false [.update [0x12] [1], .update [0x12, 0x34] [2]]) (toNibs [0x12, 0x99]) [1, 2] ∧
    Fork (pathContents toyEnv false [.update [0x12] [1], .update [0x12, 0x34] [2]]) [1, 2] ∧
    pathContents toyEnv false [.update [0x12] [1], .update [0x12, 0x34] [2]] [0x12] ≠ none ∧
    trial [.update [0x12] [1], .update [0x12, 0x34] [2]] [0x12, 0x99] = .error .poe :=
  ⟨valid_of (by decide +kernel), by decide +kernel, stop_dec (fun _ => mem_pathsOf) (by decide +kernel),
   (fork_dec (fun _ => mem_pathsOf) _).2 (by decide +kernel), by decide +kernel, by decide +kernel⟩

private theorem noLone {ops : List Op} {b : List Nib} {e1 e2 : Bytes} (hne : e1 ≠ e2)
    (h1 : pathContents toyEnv false ops e1 ≠ none) (h2 : pathContents toyEnv false ops e2 ≠ none)
    (p1 : b <+: toNibs e1) (p2 : b <+: toNibs e2) : ∀ k', ¬ Lone (pathContents toyEnv false ops) b k' :=
  fun k' h => hne ((h.2.2 e1 h1 p1).trans (h.2.2 e2 h2 p2).symm)

/-- Case 4: the absent key `13` ends where `13 45` and `13 46` run together. -/
example : Valid toyEnv false lookupOps [[0x13]] ∧ contents lookupOps [0x13] = none ∧
    Stop (pathContents toyEnv false lookupOps) (toNibs [0x13]) [1, 3] ∧
    (∀ k', ¬ Lone (pathContents toyEnv false lookupOps) [1, 3] k') ∧
    ¬ Fork (pathContents toyEnv false lookupOps) [1, 3] ∧ trial lookupOps [0x13] = .ok true :=
  ⟨valid_of (by decide +kernel), by decide +kernel, stop_dec (fun _ => mem_pathsOf) (by decide +kernel),
   noLone (e1 := [0x13, 0x45]) (e2 := [0x13, 0x46]) (by decide) (by decide +kernel) (by decide +kernel)
     (by decide +kernel) (by decide +kernel),
   by rw [fork_dec (fun _ => mem_pathsOf)]; decide +kernel, by decide +kernel⟩
/-- Case 5: both keys start with `12`. -/
example : Valid toyEnv false [.update [0x12, 0x34] [1], .update [0x12, 0x56] [2]] [[0x99]] ∧
    Stop (pathContents toyEnv false [.update [0x12, 0x34] [1], .update [0x12, 0x56] [2]]) (toNibs [0x99]) [] ∧
    (∀ k', ¬ Lone (pathContents toyEnv false [.update [0x12, 0x34] [1], .update [0x12, 0x56] [2]]) [] k') ∧
    ¬ Fork (pathContents toyEnv false [.update [0x12, 0x34] [1], .update [0x12, 0x56] [2]]) [] ∧
    CollFree toyEnv (hashed (MPT.after toyEnv false [.update [0x12, 0x34] [1], .update [0x12, 0x56] [2]]) ++
      [Item.encode (.list [.str (hp true (toNibs [0x99])), .str MPT.nullBytes])]) ∧
    trial [.update [0x12, 0x34] [1], .update [0x12, 0x56] [2]] [0x99] = .ok false :=
  ⟨valid_of (by decide +kernel), stop_dec (fun _ => mem_pathsOf) (by decide +kernel),
   noLone (e1 := [0x12, 0x34]) (e2 := [0x12, 0x56]) (by decide) (by decide +kernel) (by decide +kernel)
     (by decide +kernel) (by decide +kernel),
   by rw [fork_dec (fun _ => mem_pathsOf)]; decide +kernel, collFree_of (by decide +kernel), by decide +kernel⟩
/-- Case 6, short: the node at `13`, of the pairs `4 5` and `4 6`, is shorter than 32 bytes. -/
example : Valid toyEnv false lookupOps [[0x13, 0x55]] ∧ contents lookupOps [0x13, 0x55] = none ∧
    Stop (pathContents toyEnv false lookupOps) (toNibs [0x13, 0x55]) [1, 3] ∧
    (∀ k', ¬ Lone (pathContents toyEnv false lookupOps) [1, 3] k') ∧
    ¬ Fork (pathContents toyEnv false lookupOps) [1, 3] ∧
    (∀ q v, (q, v) ∈ [(([4, 5] : List Nib), ([2] : Bytes)), ([4, 6], [4])] ↔
      ∃ e, toNibs e = [1, 3] ++ q ∧ pathContents toyEnv false lookupOps e = some v) ∧
    trial lookupOps [0x13, 0x55] = .error .poe := by
  refine ⟨valid_of (by decide +kernel), by decide +kernel, stop_dec (fun _ => mem_pathsOf) (by decide +kernel),
   noLone (e1 := [0x13, 0x45]) (e2 := [0x13, 0x46]) (by decide) (by decide +kernel) (by decide +kernel)
     (by decide +kernel) (by decide +kernel),
   by rw [fork_dec (fun _ => mem_pathsOf)]; decide +kernel, fun q v => ⟨fun h => ?_, ?_⟩, by decide +kernel⟩
  · simp only [List.mem_cons, Prod.mk.injEq, List.not_mem_nil, or_false] at h
    rcases h with ⟨rfl, rfl⟩ | ⟨rfl, rfl⟩
    · exact ⟨[0x13, 0x45], by decide +kernel, by decide +kernel⟩
    · exact ⟨[0x13, 0x46], by decide +kernel, by decide +kernel⟩
  · rintro ⟨e, h1, h2⟩
    have hm : e ∈ pathsOf toyEnv false lookupOps := mem_pathsOf.1 (by rw [h2]; simp)
    have hl : ∀ e ∈ pathsOf toyEnv false lookupOps, e ∈ [[0x13, 0x46], [0x77], [0x13, 0x45], [0x12, 0x34]] := by
      decide +kernel
    replace hm := hl e hm
    simp only [List.mem_cons, List.not_mem_nil, or_false] at hm
    rcases hm with rfl | rfl | rfl | rfl
    · have hv : pathContents toyEnv false lookupOps [0x13, 0x46] = some [4] := by decide +kernel
      rw [hv] at h2
      have : toNibs [0x13, 0x46] = [1, 3] ++ [4, 6] := by decide +kernel
      have := List.append_cancel_left (this.symm.trans h1)
      simp_all
    · exfalso
      have := congrArg (List.take 1) h1
      revert this
      simp only [List.cons_append, List.nil_append, List.take_succ_cons, List.take_zero]
      decide +kernel
    · have hv : pathContents toyEnv false lookupOps [0x13, 0x45] = some [2] := by decide +kernel
      rw [hv] at h2
      have : toNibs [0x13, 0x45] = [1, 3] ++ [4, 5] := by decide +kernel
      have := List.append_cancel_left (this.symm.trans h1)
      simp_all
    · exfalso
      have := congrArg (List.take 2) h1
      revert this
      simp only [List.cons_append, List.nil_append, List.take_succ_cons, List.take_zero]
      decide +kernel
/-- Case 6, long: with a long value at `13 45` the proof is accepted. -/
example : trial [.update [0x13, 0x45] (bigValue 7), .update [0x13, 0x46] [1], .update [0x77] [2]] [0x13, 0x55] = .ok true := by
  decide +kernel
/-- In secure mode. -/
example : Valid toyEnv true secureOps [[0x12, 0x34]] ∧ contents secureOps [0x12, 0x34] = none ∧
    (effective toyEnv true [0x12, 0x34]).length < 2 ^ 60 ∧ ∃ k', contents secureOps k' ≠ none :=
  ⟨valid_of (by decide +kernel), by decide +kernel, by decide +kernel, [0x12], by decide +kernel⟩

end Props
end Pymt
