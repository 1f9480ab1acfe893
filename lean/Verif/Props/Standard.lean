import Verif.Lemmas.Standard
import Verif.Props.Absence
import Verif.Props.Proofs
import Verif.Props.Untrusted

/-!
# Properties C102, C103: proofs and Ethereum light clients

`Std.verify` (`Verif/Spec/Standard.lean`) is how a light client checks a list of nodes against a root hash.
-/

namespace Pymt
namespace Props

theorem verify_after {E : Env} {secure : Bool} {ops : List Op} {k : Bytes} {l : List Bytes} {a : T}
    (h : Valid E secure ops [k]) (h1 : T.Holds E (MPT.after E secure ops) a) (hn : a ≠ .empty)
    (h3 : ∀ e, T.lookup a (toNibs e) = eff E secure ops e)
    (hc : CollFree E (hashed (MPT.after E secure ops) ++ l)) :
    Std.verify E ((MPT.after E secure ops).rootHash E) (effective E secure k) l =
      if T.enc E a ∈ l ∧ ∀ x ∈ (T.trail a (toNibs (effective E secure k))).tail, 32 ≤ (T.enc E x).length →
        T.enc E x ∈ l then some (contents ops k) else none := by
  rw [Std.verify_holds h1 hn hc, h3, eff_eq h.keys (by simp)]

/-! ### C102: inclusion -/

/-- C102: a proof of inclusion made by the trie shows a light client that knows the root hash what the key has (the
value, or that it is absent where `C63` has proofs for absent keys). -/
theorem C102_made {E : Env} {secure : Bool} {ops : List Op} {k now : Bytes} {g : Proof Bytes}
    (h : Valid E secure ops [k]) (hne : ∃ k', contents ops k' ≠ none)
    (hg : (MPT.after E secure ops).getPoi E now k = .ok g)
    (hc : CollFree E (hashed (MPT.after E secure ops) ++ g.proof)) :
    Std.verify E ((MPT.after E secure ops).rootHash E) g.targetKey g.proof = some (contents ops k) := by
  obtain ⟨a, h1, h2, h3, h4⟩ := h.inv
  have hn : a ≠ .empty := (nonempty_iff h h2 h3 h4).1 hne
  obtain ⟨hgk, hgp⟩ := own_proof h h1 hn hg
  rw [hgk, verify_after h h1 hn h3 hc, if_pos]
  obtain ⟨tl, htl⟩ := T.trail_head (t := a) (toNibs (effective E secure k))
  rw [hgp, htl]
  exact ⟨by simp, fun x hx _ => List.mem_map.2 ⟨x, List.mem_cons_of_mem _ hx, rfl⟩⟩

/-- C102: whatever list of nodes convinces a light client, and of whatever, it is true. -/
theorem C102_sound {E : Env} {secure : Bool} {ops : List Op} {k : Bytes} {l : List Bytes} {r : Option Bytes}
    (h : Valid E secure ops [k]) (hne : ∃ k', contents ops k' ≠ none)
    (hc : CollFree E (hashed (MPT.after E secure ops) ++ l))
    (hr : Std.verify E ((MPT.after E secure ops).rootHash E) (effective E secure k) l = some r) : r = contents ops k := by
  obtain ⟨a, h1, h2, h3, h4⟩ := h.inv
  have hn : a ≠ .empty := (nonempty_iff h h2 h3 h4).1 hne
  rw [verify_after h h1 hn h3 hc] at hr
  split at hr
  · exact (Option.some.inj hr).symm
  · cases hr

/-- C102: a list of properly encoded nodes, the root first, as the proof of a present key: `verify_proof_of_inclusion`
returns True if and only if the proof names the root hash and the list convinces a light client of the value. -/
theorem C102_same {E : Env} {secure : Bool} {ops : List Op} {k first : Bytes} {p : Proof Bytes}
    (h : Valid E secure ops [k]) (hk : contents ops k ≠ none)
    (hc : CollFree E (hashed (MPT.after E secure ops) ++ p.proof))
    (ht : p.type = mptPoi) (hkey : p.targetKey = effective E secure k)
    (hfirst : p.proof.head? = some first) (hroot : E.keccak first = (MPT.after E secure ops).rootHash E)
    (hre : ∀ e ∈ p.proof, reenc e = some e) :
    (MPT.after E secure ops).verifyPoi E p = .ok true ↔ p.trieRoot = (MPT.after E secure ops).rootHash E ∧
      Std.verify E ((MPT.after E secure ops).rootHash E) p.targetKey p.proof = some (contents ops k) := by
  obtain ⟨a, h1, h2, h3, h4⟩ := h.inv
  have hn : a ≠ .empty := (nonempty_iff h h2 h3 h4).1 ⟨k, hk⟩
  obtain ⟨g, r, hg, -, -⟩ := C18_exact [] h hk
  obtain ⟨hgk, hgp⟩ := own_proof h h1 hn hg
  have hpne : p.proof ≠ [] := by rintro h0; rw [h0] at hfirst; simp at hfirst
  have hcc : CollFree E ((MPT.after E secure ops).store.written ++ checked p) := by
    refine hc.mono fun x hx => ?_
    simp only [checked, List.mem_append, List.mem_filterMap] at hx ⊢
    rcases hx with hx | hx | ⟨e, he, hx⟩
    · exact .inl (List.mem_append_left _ hx)
    · exact .inr hx
    · rw [hre e he] at hx; cases hx; exact .inr he
  have hex := (C67_exact h hk hg hcc ht (hkey.trans hgk.symm) hpne (fun v hv => by rw [hre v hv]; simp)).1
  rw [hex, hkey, verify_after h h1 hn h3 hc, hgp]
  obtain ⟨tl, htl⟩ := T.trail_head (t := a) (toNibs (effective E secure k))
  have hfl : first ∈ p.proof := by
    cases hpp : p.proof with
    | nil => exact absurd hpp hpne
    | cons x xs => rw [hpp] at hfirst; cases hfirst; simp
  have hahash : T.enc E a ∈ hashed (MPT.after E secure ops) := by
    rcases List.mem_cons.1 h1.enc_hashed with h0 | h0
    · exfalso
      obtain ⟨xs, hx⟩ := T.item_list (E := E) hn
      have := Item.encode_inj (x := .str []) (by decide) h0.symm
      rw [hx] at this
      simp at this
    · exact h0
  have hfa : first = T.enc E a :=
    hc _ (List.mem_append_right _ hfl) _ (List.mem_append_left _ hahash) (hroot.trans h1.rootHash)
  rw [htl, List.tail_cons]
  constructor
  · rintro ⟨f1, -, f3⟩
    refine ⟨f1, if_pos ⟨hfa ▸ hfl, fun x hx hl => ?_⟩⟩
    obtain ⟨v, hv, hv'⟩ := f3 (T.enc E x) (List.mem_map.2 ⟨x, List.mem_cons_of_mem _ hx, rfl⟩) hl
    rw [hre v hv] at hv'
    cases hv'
    exact hv
  · rintro ⟨f1, f2⟩
    refine ⟨f1, ⟨first, hfirst, hroot⟩, ?_⟩
    have hall := Classical.byContradiction fun h0 => by
      rw [if_neg h0] at f2
      cases f2
    intro e he hl
    obtain ⟨x, hx, rfl⟩ := List.mem_map.1 he
    rcases List.mem_cons.1 hx with rfl | hx
    · exact ⟨_, hall.1, hre _ hall.1⟩
    · exact ⟨_, hall.2 x hx hl, hre _ (hall.2 x hx hl)⟩

/-- The trie of the examples: the root, the node at `1 2` and the one of `12 34` have 32 bytes or more. -/
def clientOps : List Op := [.update [0x12, 0x34] (bigValue 40), .update [0x12, 0x56] [2], .update [0x77] [3]]

/-- The hypotheses of `C102_made` and of `C102_sound`, for the proof of `12 34`; without its second node the client is not
convinced. -/
example : ∃ g, (MPT.after toyEnv false clientOps).getPoi toyEnv [] [0x12, 0x34] = .ok g ∧
    Valid toyEnv false clientOps [[0x12, 0x34]] ∧ contents clientOps [0x12, 0x34] ≠ none ∧
    CollFree toyEnv (hashed (MPT.after toyEnv false clientOps) ++ g.proof) ∧ 3 ≤ g.proof.length ∧
    Std.verify toyEnv ((MPT.after toyEnv false clientOps).rootHash toyEnv) [0x12, 0x34] g.proof =
      some (some (bigValue 40)) ∧
    Std.verify toyEnv ((MPT.after toyEnv false clientOps).rootHash toyEnv) [0x12, 0x34] (g.proof.eraseIdx 1) = none := by
  obtain ⟨g, h1, h2⟩ := ok_of (m := (MPT.after toyEnv false clientOps).getPoi toyEnv [] [0x12, 0x34])
    (f := fun g => collFreeB toyEnv (hashed (MPT.after toyEnv false clientOps) ++ g.proof) && decide (3 ≤ g.proof.length) &&
      (Std.verify toyEnv ((MPT.after toyEnv false clientOps).rootHash toyEnv) [0x12, 0x34] g.proof ==
        some (some (bigValue 40))) &&
      (Std.verify toyEnv ((MPT.after toyEnv false clientOps).rootHash toyEnv) [0x12, 0x34] (g.proof.eraseIdx 1) == none))
    (by decide +kernel)
  simp only [Bool.and_eq_true, decide_eq_true_eq, beq_iff_eq] at h2
  exact ⟨g, h1, valid_of (by decide +kernel), by decide +kernel, collFree_of h2.1.1.1, h2.1.1.2, h2.1.2, h2.2⟩

/-- The hypotheses of `C102_same`, with a node too many at the end. -/
example : ∃ p : Proof Bytes, p.type = mptPoi ∧ p.targetKey = effective toyEnv false [0x12, 0x34] ∧
    CollFree toyEnv (hashed (MPT.after toyEnv false clientOps) ++ p.proof) ∧
    (∃ first, p.proof.head? = some first ∧ toyEnv.keccak first = (MPT.after toyEnv false clientOps).rootHash toyEnv) ∧
    (∀ e ∈ p.proof, reenc e = some e) ∧ p.proof.getLast? = some [0xc2, 0x20, 5] ∧
    (MPT.after toyEnv false clientOps).verifyPoi toyEnv p = .ok true := by
  obtain ⟨g, h1, h2⟩ := ok_of (m := (MPT.after toyEnv false clientOps).getPoi toyEnv [] [0x12, 0x34])
    (f := fun g => collFreeB toyEnv (hashed (MPT.after toyEnv false clientOps) ++ (g.proof ++ [[0xc2, 0x20, 5]])) &&
      decide (g.type = mptPoi) && decide (g.targetKey = effective toyEnv false [0x12, 0x34]) &&
      decide (toyEnv.keccak (g.proof.headD []) = (MPT.after toyEnv false clientOps).rootHash toyEnv) &&
      ((g.proof ++ [[0xc2, 0x20, 5]]).all fun e => decide (reenc e = some e)) && decide (g.proof ≠ []) &&
      okAnd ((MPT.after toyEnv false clientOps).verifyPoi toyEnv { g with proof := g.proof ++ [[0xc2, 0x20, 5]] }) id)
    (by decide +kernel)
  simp only [Bool.and_eq_true, decide_eq_true_eq, List.all_eq_true] at h2
  obtain ⟨⟨⟨⟨⟨⟨f1, f2⟩, f3⟩, f4⟩, f5⟩, f6⟩, f7⟩ := h2
  refine ⟨{ g with proof := g.proof ++ [[0xc2, 0x20, 5]] }, f2, f3, collFree_of f1, ⟨g.proof.headD [], ?_, f4⟩, f5, by simp, ?_⟩
  · cases hp : g.proof with
    | nil => exact absurd hp f6
    | cons x xs => rfl
  · obtain ⟨b, g1, g2⟩ := ok_of f7
    cases b
    · cases g2
    · exact g1

/-! ### C103: exclusion -/

/-- C103: the proof of exclusion made for an absent key of a trie with keys convinces a light client that knows the root
hash that the key is absent. -/
def C103 : Prop :=
  ∀ (E : Env) (secure : Bool) (ops : List Op) (k now : Bytes) (g : Proof Bytes), Valid E secure ops [k] →
    contents ops k = none → (∃ k', contents ops k' ≠ none) →
    (MPT.after E secure ops).getPoe E now k = .ok g →
    CollFree E (hashed (MPT.after E secure ops) ++ g.proof) →
    Std.verify E ((MPT.after E secure ops).rootHash E) g.targetKey g.proof = some none

/-- C103 exactly: by the point `b` where the key leaves the present ones.  Beside a single key, where keys part, and
where the absent key ends, the client is convinced.  Where keys run together the node there is missing: the client is
convinced only if this node, not the root, is shorter than 32 bytes and so is part of the node before it. -/
theorem C103_exact_partial {E : Env} {secure : Bool} {ops : List Op} {k now : Bytes} {b : List Nib} {g : Proof Bytes}
    (h : Valid E secure ops [k]) (hk : contents ops k = none)
    (hb : Stop (pathContents E secure ops) (toNibs (effective E secure k)) b)
    (hg : (MPT.after E secure ops).getPoe E now k = .ok g)
    (hc : CollFree E (hashed (MPT.after E secure ops) ++ g.proof)) :
    (((∃ k', Lone (pathContents E secure ops) b k') ∨ Fork (pathContents E secure ops) b ∨
        toNibs (effective E secure k) = b) →
      Std.verify E ((MPT.after E secure ops).rootHash E) g.targetKey g.proof = some none) ∧
    ((∀ k', ¬ Lone (pathContents E secure ops) b k') → ¬ Fork (pathContents E secure ops) b →
      toNibs (effective E secure k) ≠ b → ∀ I : YP.Pairs, (I.map (·.1)).Nodup →
      (∀ q v, (q, v) ∈ I ↔ ∃ e, toNibs e = b ++ q ∧ pathContents E secure ops e = some v) →
      Std.verify E ((MPT.after E secure ops).rootHash E) g.targetKey g.proof =
        if b ≠ [] ∧ (YP.c E I).encode.length < 32 then some none else none) := by
  have hne : ∃ k', contents ops k' ≠ none := by
    obtain ⟨⟨e, he, _⟩, _⟩ := hb.2.1
    obtain ⟨k0, h0, _⟩ := (eff_present h).1 he
    exact ⟨k0, h0⟩
  obtain ⟨a, h1, h2, h3, h4⟩ := h.inv
  have hn : a ≠ .empty := (nonempty_iff h h2 h3 h4).1 hne
  obtain ⟨b', hb', hat⟩ := at_stop (m := pathContents E secure ops) h2 hn h3 h4 (toNibs (effective E secure k))
  have := hb'.unique hb
  subst this
  have hkey : (MPT.after E secure ops).keyOf E k = effective E secure k := by
    rw [keyOf_eq, after_secure]; rfl
  have hf := fits_nibs (h.fit (k := k) (by simp))
  rw [h1.getPoe h.log hn hf, hkey] at hg
  split at hg
  · cases hg
  simp only [Except.ok.injEq] at hg
  have hgk : g.targetKey = effective E secure k := by rw [← hg]
  have hgp : g.proof = (T.shown a (toNibs (effective E secure k))).map (T.enc E) ++
      [T.enc E (.leaf (T.seek a (toNibs (effective E secure k))).2 MPT.nullBytes)] := by rw [← hg]
  have hve := verify_after (k := k) h h1 hn h3 hc
  rw [hk] at hve
  rw [hgk, hve]
  have hsp := T.seek_split a (toNibs (effective E secure k))
  -- the proof that lists all nodes on the way
  have full : T.shown a (toNibs (effective E secure k)) = T.trail a (toNibs (effective E secure k)) →
      T.enc E a ∈ g.proof ∧ ∀ x ∈ (T.trail a (toNibs (effective E secure k))).tail, 32 ≤ (T.enc E x).length →
        T.enc E x ∈ g.proof := by
    intro hs
    rw [hgp, hs]
    obtain ⟨tl, htl⟩ := T.trail_head (t := a) (toNibs (effective E secure k))
    rw [htl]
    exact ⟨by simp, fun x hx _ => List.mem_append_left _ (List.mem_map.2 ⟨x, List.mem_cons_of_mem _ hx, rfl⟩)⟩
  have hlog : T.Logged E (hashed (MPT.after E secure ops)) a :=
    (h1.stored.logged h1.good).mono fun x hx => List.mem_append_left _ hx
  have hcs := h2.seek (toNibs (effective E secure k))
  have hpn := fun hl => T.passed_nil_of h2 (p := toNibs (effective E secure k)) hl
  have hsn := fun hl => T.seek_of_passed_nil (t := a) (p := toNibs (effective E secure k)) hl
  have htr := T.trail_eq a (toNibs (effective E secure k))
  have hdec := T.trail_decreasing a (toNibs (effective E secure k))
  have hln := T.trail_len h1.stored (toNibs (effective E secure k))
  have hlg := T.trail_logged (h1.stored.logged h1.good) (toNibs (effective E secure k))
  have hcw : CollFree E (MPT.after E secure ops).store.written :=
    hc.mono fun x hx => List.mem_append_left _ (List.mem_append_left _ hx)
  obtain ⟨b0, hsp1, hsub⟩ := hsp
  generalize hsd : T.seek a (toNibs (effective E secure k)) = s at *
  cases hat with
  | @lone q v r k1 g1 g2 g3 g4 =>
    exact ⟨fun _ => if_pos (full (by simp [T.shown, hsd])), fun hl => absurd g4 (hl _)⟩
  | @fork cs v r g1 g2 g3 g4 =>
    exact ⟨fun _ => if_pos (full (by simp [T.shown, hsd])), fun _ hf => absurd g2 hf⟩
  | @run q c r g1 g2 g3 g4 =>
    have hbb : b0 = b := List.append_cancel_right (hsp1.symm.trans g1)
    rw [hbb] at hsub hsp1
    refine ⟨fun ho => ?_, fun _ _ hp I hI1 hI2 => ?_⟩
    · rcases ho with ⟨k', hl⟩ | hf | hp
      · exact absurd hl (g4 _)
      · exact absurd hf g2
      · have : r = [] := by rw [hp] at g1; simpa using g1
        subst this
        exact if_pos (full (by simp [T.shown, hsd]))
    · have hL : YP.Lists I (T.ext q c) := by
        refine ⟨fun q' v => ?_, hI1⟩
        rw [hI2]
        simp only at hsub
        rw [← hsub]
        constructor
        · rintro ⟨e, f1, f2⟩
          rw [← f1, h3]; exact f2
        · intro f
          obtain ⟨e, f1⟩ := h4 _ _ f
          exact ⟨e, f1.symm, by rw [← f, f1]; exact (h3 e).symm⟩
      rw [YP.c_eq_item E hcs hL]
      change _ = if b ≠ [] ∧ (T.enc E (T.ext q c)).length < 32 then some none else none
      have hr : r ≠ [] := by rintro rfl; exact hp (by simpa using g1)
      obtain ⟨i, r, rfl⟩ : ∃ i r', r = i :: r' := by
        cases r with
        | nil => exact absurd rfl hr
        | cons i r => exact ⟨i, r, rfl⟩
      have hsh : T.shown a (toNibs (effective E secure k)) = T.passed a (toNibs (effective E secure k)) := by
        simp [T.shown, hsd]
      rw [hsh] at hgp
      simp only at hgp htr
      rw [htr] at hdec hln hlg ⊢
      have hnot : T.enc E (T.ext q c) ∉ g.proof := by
        rw [hgp]
        intro hm
        rcases List.mem_append.1 hm with hm | hm
        · obtain ⟨y, hy, he⟩ := List.mem_map.1 hm
          have hlt := (List.pairwise_append.1 hdec).2.2 y hy _ (List.mem_singleton.2 rfl)
          have := T.enc_inj hcw h.log.size (hlg y (List.mem_append_left _ hy))
            (hlg _ (List.mem_append_right _ (List.mem_singleton.2 rfl))) (hln y (List.mem_append_left _ hy)) he
          subst this
          omega
        · have he := List.mem_singleton.1 hm
          have := Item.encode_inj (hln _ (List.mem_append_right _ (List.mem_singleton.2 rfl))) he
          simp only [T.item, Item.list.injEq, List.cons.injEq, Item.str.injEq] at this
          have := (hp_inj this.1).1
          simp at this
      cases hpas : T.passed a (toNibs (effective E secure k)) with
      | nil =>
        have ha := hsn hpas
        have ha1 : a = .ext q c := (congrArg Prod.fst ha).symm
        have hb0 : b = [] := by
          have := congrArg Prod.snd ha
          simp only at this
          rw [g1] at this
          have := congrArg List.length this
          simp only [List.length_append] at this
          exact List.length_eq_zero_iff.1 (by omega)
        rw [if_neg (fun hx => hnot (by rw [← ha1]; exact hx.1)), if_neg (fun hx => hx.1 hb0)]
      | cons x xs =>
        have hb0 : b ≠ [] := by
          rintro rfl
          have := hpn g1.symm
          rw [hpas] at this
          cases this
        obtain ⟨tl, htl⟩ := T.trail_head (t := a) (toNibs (effective E secure k))
        have hxa : x = a := by
          rw [T.trail_eq, hpas] at htl
          simp only [List.cons_append, List.cons.injEq] at htl
          exact htl.1
        rw [hpas] at hgp
        by_cases h32 : (T.enc E (T.ext q c)).length < 32
        · rw [if_pos (c := b ≠ [] ∧ _) ⟨hb0, h32⟩, if_pos]
          rw [hgp, hxa]
          refine ⟨by simp, fun y hy hl => ?_⟩
          simp only [List.cons_append, List.tail_cons, List.mem_append, List.mem_singleton] at hy
          rcases hy with hy | rfl
          · exact List.mem_append_left _ (List.mem_map.2 ⟨y, List.mem_cons_of_mem _ hy, rfl⟩)
          · omega
        · rw [if_neg (c := b ≠ [] ∧ _) (fun hx => h32 hx.2), if_neg]
          rintro ⟨-, hx⟩
          exact hnot (hx _ (by simp) (by omega))

/-- Two keys that start alike. -/
def sharedOps : List Op := [.update [0x12, 0x34] [1], .update [0x12, 0x56] [2]]

theorem shared_valid : Valid realEnv false sharedOps [[0x99]] := valid_of (by decide +kernel)

theorem shared_verdict : okAnd ((MPT.after realEnv false sharedOps).getPoe realEnv [] [0x99]) (fun g =>
    collFreeB realEnv (hashed (MPT.after realEnv false sharedOps) ++ g.proof) &&
      (Std.verify realEnv ((MPT.after realEnv false sharedOps).rootHash realEnv) g.targetKey g.proof == none)) = true := by
  decide +kernel

/-- C103 is false: the proof of exclusion of `99` does not have the only node on the way, the root. -/
theorem C103_false : ¬ C103 := by
  intro h
  obtain ⟨g, h1, h2⟩ := ok_of shared_verdict
  simp only [Bool.and_eq_true, beq_iff_eq] at h2
  have := h realEnv false sharedOps [0x99] [] g shared_valid (by decide +kernel)
    ⟨[0x12, 0x34], by decide +kernel⟩ h1 (collFree_of h2.1)
  rw [h2.2] at this
  cases this

private theorem notLone {ops : List Op} {b : List Nib} {e1 e2 : Bytes} (hne : e1 ≠ e2)
    (h1 : pathContents toyEnv false ops e1 ≠ none) (h2 : pathContents toyEnv false ops e2 ≠ none)
    (p1 : b <+: toNibs e1) (p2 : b <+: toNibs e2) : ∀ k', ¬ Lone (pathContents toyEnv false ops) b k' :=
  fun k' h => hne ((h.2.2 e1 h1 p1).trans (h.2.2 e2 h2 p2).symm)

/-- The proof of exclusion as a light client sees it. -/
private def told (ops : List Op) (k : Bytes) : Py (Option (Option Bytes)) :=
  ((MPT.after toyEnv false ops).getPoe toyEnv [] k).map fun g =>
    Std.verify toyEnv ((MPT.after toyEnv false ops).rootHash toyEnv) g.targetKey g.proof

/-- Beside `12 34`: convinced. -/
example : ∃ g, (MPT.after toyEnv false lookupOps).getPoe toyEnv [] [0x12, 0x35] = .ok g ∧
    Valid toyEnv false lookupOps [[0x12, 0x35]] ∧ contents lookupOps [0x12, 0x35] = none ∧
    Stop (pathContents toyEnv false lookupOps) (toNibs [0x12, 0x35]) [1, 2] ∧
    Lone (pathContents toyEnv false lookupOps) [1, 2] [0x12, 0x34] ∧
    CollFree toyEnv (hashed (MPT.after toyEnv false lookupOps) ++ g.proof) ∧
    told lookupOps [0x12, 0x35] = .ok (some none) := by
  obtain ⟨g, h1, h2⟩ := ok_of (m := (MPT.after toyEnv false lookupOps).getPoe toyEnv [] [0x12, 0x35])
    (f := fun g => collFreeB toyEnv (hashed (MPT.after toyEnv false lookupOps) ++ g.proof)) (by decide +kernel)
  exact ⟨g, h1, valid_of (by decide +kernel), by decide +kernel, stop_dec (fun _ => mem_pathsOf) (by decide +kernel),
    (lone_dec (fun _ => mem_pathsOf) _ _).2 (by decide +kernel), collFree_of h2, by decide +kernel⟩
/-- Where `13 45` and `13 46` run together, in a node shorter than 32 bytes: convinced. -/
example : Stop (pathContents toyEnv false lookupOps) (toNibs [0x13, 0x55]) [1, 3] ∧
    (∀ k', ¬ Lone (pathContents toyEnv false lookupOps) [1, 3] k') ∧
    ¬ Fork (pathContents toyEnv false lookupOps) [1, 3] ∧ told lookupOps [0x13, 0x55] = .ok (some none) :=
  ⟨stop_dec (fun _ => mem_pathsOf) (by decide +kernel),
   notLone (e1 := [0x13, 0x45]) (e2 := [0x13, 0x46]) (by decide) (by decide +kernel) (by decide +kernel)
     (by decide +kernel) (by decide +kernel),
   by rw [fork_dec (fun _ => mem_pathsOf)]; decide +kernel, by decide +kernel⟩
/-- Keys that run together from the start, and in a longer node later on: not convinced. -/
example : Stop (pathContents toyEnv false sharedOps) (toNibs [0x99]) [] ∧
    (∀ k', ¬ Lone (pathContents toyEnv false sharedOps) [] k') ∧ ¬ Fork (pathContents toyEnv false sharedOps) [] ∧
    told sharedOps [0x99] = .ok none ∧
    told [.update [0x12, 0x34, 0x56] (bigValue 40), .update [0x12, 0x34, 0x78] (bigValue 41), .update [0x77] [3]]
      [0x12, 0x99] = .ok none :=
  ⟨stop_dec (fun _ => mem_pathsOf) (by decide +kernel),
   notLone (e1 := [0x12, 0x34]) (e2 := [0x12, 0x56]) (by decide) (by decide +kernel) (by decide +kernel)
     (by decide +kernel) (by decide +kernel),
   by rw [fork_dec (fun _ => mem_pathsOf)]; decide +kernel, by decide +kernel, by decide +kernel⟩

end Props
end Pymt
