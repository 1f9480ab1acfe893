import Verif.Lemmas.Raises
import Verif.Lemmas.Exclusion
import Verif.Spec.Toy
import Verif.Model.Keccak

/-!
# Properties C66, C67: proofs of any origin

`reenc v` (`Verif/Spec/Assume.lean`) is what the checker re-encodes an entry `v` to; it is `none` for an
entry that does not decode or encode.
-/

namespace Pymt
namespace Props

/-- What the two searches say at a present path. -/
theorem present_verdict {a : T} (hs : a.Shape) (hne : a ≠ .empty) {p : List Nib}
    (h : T.lookup a p ≠ none) : (∃ x, T.foundP (T.seek a p).1 (T.seek a p).2 = .ok x) ∧
      T.verdict (T.seek a p).1 (T.seek a p).2 = .ok true := by
  have hst := T.seek_stuck hs hne p
  rw [T.lookup_seek] at h
  have hsn := T.seek_ne_empty hs hne p
  have hsc := hs.seek p
  generalize T.seek a p = s at *
  obtain ⟨x, r⟩ := s
  cases x with
  | empty => exact absurd rfl hsn
  | leaf q v =>
    simp only [T.lookup] at h
    split at h
    · rename_i e
      subst e
      cases q <;> simp [T.foundP, T.verdict]
    · simp at h
  | ext q c =>
    exfalso
    rcases hst with h0 | h0
    · simp only at h0
      subst h0
      have hq : ¬ q <+: [] := fun hq => hsc.1 (List.prefix_nil.1 hq)
      simp [T.lookup, hq] at h
    · simp [T.lookup, h0] at h
  | branch cs v =>
    rcases hst with h0 | ⟨i, r', h0, h0'⟩
    · simp only at h0
      subst h0
      simp [T.foundP, T.verdict]
    · simp only at h0
      subst h0
      simp [T.lookup, h0'] at h

/-! ### C66: checking a proof gives an answer -/

/-- The full statement of C66: for a non-empty trie and a proof of the right type the two checkers return
a bool (the documentation, `/repo/src/pymt/mpt.py:324-334, 440-449`, names ValueError for an empty trie
and TypeError for a proof of another type, and no other exception). -/
def C66 : Prop := ∀ (E : Env) (secure : Bool) (ops : List Op) (p : Proof Bytes), Valid E secure ops [] →
  (∃ k, contents ops k ≠ none) →
  (p.type = mptPoi → ∃ b, (MPT.after E secure ops).verifyPoi E p = .ok b) ∧
  (p.type = mptPoe → ∃ b, (MPT.after E secure ops).verifyPoe E p = .ok b)

/-- C66 is false: a proof without entries raises IndexError. -/
theorem C66_false : ¬ C66 := by
  intro h
  have hv : Valid realEnv false [.update [0x12] [1]] [] := valid_of (by decide +kernel)
  obtain ⟨b, hb⟩ := (h _ _ _ ⟨mptPoi, [], [0x12], [], []⟩ hv ⟨[0x12], by decide +kernel⟩).1 rfl
  revert hb
  cases b <;> decide +kernel

/-- The trie of the following examples: `12 34` with a long value, `13 45` and `99`. -/
def untrustedOps : List Op :=
  [.update [0x12, 0x34] (bigValue 1), .update [0x13, 0x45] [2], .update [0x99] [3]]

/-- More counterexamples to C66: BranchPathError, IndexError, TypeError and AssertionError come out of
`verify_proof_of_inclusion` for changed proofs of the right type; only an entry that is not RLP is answered
with False. -/
example : ∃ g, (MPT.after toyEnv false untrustedOps).getPoi toyEnv [] [0x12, 0x34] = .ok g ∧
    (MPT.after toyEnv false untrustedOps).verifyPoi toyEnv { g with targetKey := [0x55] } = .error .branchPath ∧
    (MPT.after toyEnv false untrustedOps).verifyPoi toyEnv { g with proof := g.proof ++ [[0xc2, 0xc0, 0x80]] } =
      .error .indexError ∧
    (MPT.after toyEnv false untrustedOps).verifyPoi toyEnv { g with proof := g.proof ++ [[0xc2, 0x20, 0xc0]] } =
      .error .typeError ∧
    (MPT.after toyEnv false untrustedOps).verifyPoi toyEnv { g with proof := g.proof ++ [[0xc0]] } =
      .error .assertion ∧
    (MPT.after toyEnv false untrustedOps).verifyPoi toyEnv { g with proof := g.proof ++ [[]] } = .ok false := by
  obtain ⟨g, h1, h2⟩ := ok_of (m := (MPT.after toyEnv false untrustedOps).getPoi toyEnv [] [0x12, 0x34])
    (f := fun g => decide ((MPT.after toyEnv false untrustedOps).verifyPoi toyEnv { g with targetKey := [0x55] } = .error .branchPath) &&
      decide ((MPT.after toyEnv false untrustedOps).verifyPoi toyEnv { g with proof := g.proof ++ [[0xc2, 0xc0, 0x80]] } =
        .error .indexError) &&
      decide ((MPT.after toyEnv false untrustedOps).verifyPoi toyEnv { g with proof := g.proof ++ [[0xc2, 0x20, 0xc0]] } =
        .error .typeError) &&
      decide ((MPT.after toyEnv false untrustedOps).verifyPoi toyEnv { g with proof := g.proof ++ [[0xc0]] } =
        .error .assertion) &&
      decide ((MPT.after toyEnv false untrustedOps).verifyPoi toyEnv { g with proof := g.proof ++ [[]] } = .ok false))
    (by decide +kernel)
  simp only [Bool.and_eq_true, decide_eq_true_eq] at h2
  exact ⟨g, h1, h2.1.1.1.1, h2.1.1.1.2, h2.1.1.2, h2.1.2, h2.2⟩

/-- C66 in part: the exceptions of the checkers, for every trie object and every proof object whatever.
Missing: that only the TypeError of line 335 or 450 and the ValueError of line 337 or 452 remain. -/
theorem C66_errors_partial (E : Env) (t : MPT) (p : Proof Bytes) (e : Err) :
    (t.verifyPoi E p = .error e → e ∈ [Err.typeError, .valueError, .indexError, .assertion, .rlpDecoding,
      .extensionPath, .branchPath, .recursion]) ∧
    (t.verifyPoe E p = .error e → e ∈ [Err.typeError, .valueError, .indexError, .assertion, .rlpDecoding,
      .attributeError, .poe, .recursion]) :=
  ⟨verifyPoi_only E t p e, verifyPoe_only E t p e⟩

/-- C66 in part: a proof whose first entry is not the root node is answered with False, whatever the
other entries are. -/
theorem C66_root_partial {E : Env} {secure : Bool} {ops : List Op} {p : Proof Bytes}
    (h : Valid E secure ops []) (hne : ∃ k, contents ops k ≠ none) {first : Bytes}
    (hf : p.proof.head? = some first) (hr : E.keccak first ≠ (MPT.after E secure ops).rootHash E) :
    (p.type = mptPoi → (MPT.after E secure ops).verifyPoi E p = .ok false) ∧
    (p.type = mptPoe → (MPT.after E secure ops).verifyPoe E p = .ok false) := by
  obtain ⟨a, h1, h2, h3, h4⟩ := h.inv
  have hn : a ≠ .empty := (nonempty_iff h h2 h3 h4).1 hne
  have hp0 : pyIndex p.proof 0 = .ok first := by
    cases hpp : p.proof with
    | nil => rw [hpp] at hf; simp at hf
    | cons x xs => rw [hpp] at hf; simp at hf; subst hf; rfl
  constructor
  · intro ht
    unfold MPT.verifyPoi
    rw [if_neg (by simp [ht]), h1.noRoot h.log, T.Holds.isEmpty_false hn, hp0]
    simp only [Bool.false_eq_true, if_false, Except.bind_ok']
    rw [if_pos (Ne.symm hr)]; rfl
  · intro ht
    unfold MPT.verifyPoe
    rw [if_neg (by simp [ht]), h1.noRoot h.log, T.Holds.isEmpty_false hn, hp0]
    simp only [Bool.false_eq_true, if_false, Except.bind_ok']
    rw [if_pos (Ne.symm hr)]; rfl

example : Valid toyEnv false untrustedOps [] ∧ (∃ k, contents untrustedOps k ≠ none) ∧
    toyEnv.keccak [1, 2] ≠ (MPT.after toyEnv false untrustedOps).rootHash toyEnv :=
  ⟨valid_of (by decide +kernel), ⟨[0x99], by decide +kernel⟩, by decide +kernel⟩

/-- The nodes of the trail, as the entries of the trie's own proof. -/
theorem own_proof {E : Env} {secure : Bool} {ops : List Op} {k now : Bytes} {g : Proof Bytes} {a : T}
    (h : Valid E secure ops [k]) (h1 : T.Holds E (MPT.after E secure ops) a) (hne : a ≠ .empty)
    (hg : (MPT.after E secure ops).getPoi E now k = .ok g) :
    g.targetKey = effective E secure k ∧
      g.proof = (T.trail a (toNibs (effective E secure k))).map (T.enc E) := by
  rw [h1.getPoi h.log hne (fits_nibs (h.fit (k := k) (by simp)))] at hg
  split at hg
  · cases hg
  · simp only [Except.ok.injEq] at hg
    subst hg
    rw [keyOf_eq, after_secure]
    exact ⟨rfl, rfl⟩

/-- C66 in part: well-formed entries.  If all entries decode and re-encode, checking an inclusion proof
returns a bool, except that for a target that is not a present path it may raise ExtensionPathError,
BranchPathError or AssertionError.
Missing: these exceptions (the code raises them instead of returning False), and malformed entries. -/
theorem C66_poi_partial {E : Env} {secure : Bool} {ops : List Op} {p : Proof Bytes}
    (h : Valid E secure ops []) (hne : ∃ k, contents ops k ≠ none) (ht : p.type = mptPoi)
    (hp : p.proof ≠ []) (hwf : ∀ v ∈ p.proof, reenc v ≠ none)
    (hc : CollFree E ((MPT.after E secure ops).store.written ++ checked p))
    (hf : 2 * p.targetKey.length < E.limit) :
    (∃ b, (MPT.after E secure ops).verifyPoi E p = .ok b) ∨
    (¬ Present E secure ops p.targetKey ∧
      ((MPT.after E secure ops).verifyPoi E p = .error .extensionPath ∨
       (MPT.after E secure ops).verifyPoi E p = .error .branchPath ∨
       (MPT.after E secure ops).verifyPoi E p = .error .assertion)) := by
  obtain ⟨a, h1, h2, h3, h4⟩ := h.inv
  have hn : a ≠ .empty := (nonempty_iff h h2 h3 h4).1 hne
  obtain ⟨first, hfirst⟩ : ∃ first, p.proof.head? = some first := by
    cases hpp : p.proof with
    | nil => exact absurd hpp hp
    | cons x xs => exact ⟨x, rfl⟩
  by_cases hr : E.keccak first = (MPT.after E secure ops).rootHash E
  case neg => exact .inl ⟨false, (C66_root_partial h hne hfirst hr).1 ht⟩
  have hany := h1.verifyPoi_any h.log hn ht hc (by rw [toNibs_length]; omega) hfirst hr hwf
  by_cases hall : ∀ x ∈ T.trail a (toNibs p.targetKey),
      (T.enc E x).length < 32 ∨ ∃ v ∈ p.proof, reenc v = some (T.enc E x)
  case neg =>
    refine .inl ⟨false, hany.2 ?_⟩
    refine Classical.byContradiction fun h0 => hall fun x hx => ?_
    exact Classical.byContradiction fun h5 => h0 ⟨x, hx, h5⟩
  by_cases hpres : Present E secure ops p.targetKey
  · have hlk : T.lookup a (toNibs p.targetKey) ≠ none := by
      rw [h3]; exact (eff_present h).2 hpres
    have hv := (present_verdict h1.shape hn hlk).2
    rcases hany.1 hall with h0 | ⟨h0, _⟩
    · exact .inl ⟨_, by rw [h0, hv]; rfl⟩
    · rw [hv] at h0; cases h0
  · rcases hany.1 hall with h0 | ⟨_, h0⟩
    · rw [h0]
      have hsn := T.seek_ne_empty h1.shape hn (toNibs p.targetKey)
      generalize T.seek a (toNibs p.targetKey) = s at *
      obtain ⟨x, r⟩ := s
      cases x with
      | empty => exact absurd rfl hsn
      | leaf q v => cases r <;> exact .inl ⟨_, rfl⟩
      | ext q c =>
        cases r with
        | nil => exact .inl ⟨_, rfl⟩
        | cons i r => exact .inr ⟨hpres, .inl rfl⟩
      | branch cs v =>
        cases r with
        | nil => exact .inl ⟨_, rfl⟩
        | cons i r => exact .inr ⟨hpres, .inr (.inl rfl)⟩
    · exact .inr ⟨hpres, .inr (.inr h0)⟩

/-- So a proof of a present path with well-formed entries always gets a bool. -/
theorem C66_present_partial {E : Env} {secure : Bool} {ops : List Op} {p : Proof Bytes}
    (h : Valid E secure ops []) (hpres : Present E secure ops p.targetKey) (ht : p.type = mptPoi)
    (hp : p.proof ≠ []) (hwf : ∀ v ∈ p.proof, reenc v ≠ none)
    (hc : CollFree E ((MPT.after E secure ops).store.written ++ checked p))
    (hf : 2 * p.targetKey.length < E.limit) : ∃ b, (MPT.after E secure ops).verifyPoi E p = .ok b := by
  have hne : ∃ k, contents ops k ≠ none := ⟨hpres.choose, hpres.choose_spec.1⟩
  exact (C66_poi_partial h hne ht hp hwf hc hf).resolve_right fun h0 => h0.1 hpres

/-- A well-formed entry that is not a node of the trie: a leaf with an empty path and the value 5. -/
def forged : List Bytes := [[0xc2, 0x20, 0x05]]

/-- Entries of the proof of another key, a forged entry and a repeated one. -/
example : ∃ g, (MPT.after toyEnv false untrustedOps).getPoi toyEnv [] [0x12, 0x34] = .ok g ∧
    Valid toyEnv false untrustedOps [] ∧ (∃ k, contents untrustedOps k ≠ none) ∧
    ∃ p : Proof Bytes, p.proof = g.proof ++ forged ++ g.proof ∧ p.type = mptPoi ∧ p.proof ≠ [] ∧
      (∀ v ∈ p.proof, reenc v ≠ none) ∧ 2 * p.targetKey.length < toyEnv.limit ∧
      CollFree toyEnv ((MPT.after toyEnv false untrustedOps).store.written ++ checked p) ∧
      Present toyEnv false untrustedOps p.targetKey ∧
      (MPT.after toyEnv false untrustedOps).verifyPoi toyEnv { p with targetKey := [0x55] } = .error .branchPath := by
  obtain ⟨g, h1, h2⟩ := ok_of (m := (MPT.after toyEnv false untrustedOps).getPoi toyEnv [] [0x12, 0x34])
    (f := fun g => decide (∀ v ∈ g.proof ++ forged ++ g.proof, reenc v ≠ none) &&
      collFreeB toyEnv ((MPT.after toyEnv false untrustedOps).store.written ++
        checked { g with proof := g.proof ++ forged ++ g.proof, targetKey := [0x99] }) &&
      decide (g.type = mptPoi) &&
      decide ((MPT.after toyEnv false untrustedOps).verifyPoi toyEnv
        { g with proof := g.proof ++ forged ++ g.proof, targetKey := [0x55] } = .error .branchPath))
    (by decide +kernel)
  simp only [Bool.and_eq_true, decide_eq_true_eq] at h2
  exact ⟨g, h1, valid_of (by decide +kernel), ⟨[0x99], by decide +kernel⟩,
    { g with proof := g.proof ++ forged ++ g.proof, targetKey := [0x99] }, rfl, h2.1.2,
    by simp [forged], h2.1.1.1, by show 2 * 1 < 100; decide, collFree_of h2.1.1.2, ⟨[0x99], by decide +kernel, rfl⟩, h2.2⟩

/-- C66 in part: exclusion proofs.  If all entries but the last decode and re-encode and the last is a
leaf or a branch, checking returns a bool or raises PoeError or AssertionError.
Missing: these two exceptions, and malformed entries. -/
theorem C66_poe_partial {E : Env} {secure : Bool} {ops : List Op} {p : Proof Bytes}
    (h : Valid E secure ops []) (hne : ∃ k, contents ops k ≠ none) (ht : p.type = mptPoe)
    {rest : List Bytes} {last : Bytes} (hp : p.proof = rest ++ [last]) (hwf : ∀ v ∈ rest, reenc v ≠ none)
    (hlast : ∃ n, Node.decode last = .ok n ∧ ∀ q r, n ≠ .ext q r)
    (hc : CollFree E ((MPT.after E secure ops).store.written ++ checked p))
    (hf : 2 * p.targetKey.length < E.limit) :
    (∃ b, (MPT.after E secure ops).verifyPoe E p = .ok b) ∨
    (MPT.after E secure ops).verifyPoe E p = .error .poe ∨
    (MPT.after E secure ops).verifyPoe E p = .error .assertion := by
  obtain ⟨a, h1, h2, h3, h4⟩ := h.inv
  have hn : a ≠ .empty := (nonempty_iff h h2 h3 h4).1 hne
  obtain ⟨ps, hps⟩ := (T.proofStorage_ok (E := E) []).2 hwf
  have hin : ∀ v ∈ rest, ∀ e, reenc v = some e →
      e ∈ (MPT.after E secure ops).store.written ++ checked p := by
    intro v hv e he
    refine List.mem_append_right _ (List.mem_append_right _ ?_)
    exact List.mem_filterMap.2 ⟨v, by rw [hp]; simp [hv], he⟩
  have hg := T.proofStorage_genuine hin (acc := []) (by intro k v hk; simp [dget] at hk) hps
  have hlog : T.Logged E ((MPT.after E secure ops).store.written ++ checked p) a := by
    refine T.Logged.mono ?_ (h1.stored.logged h1.good)
    intro x hx; exact List.mem_append_left _ hx
  have hrun := T.verifyPoeAux_any hc hg E.limit h1.shape hn h1.stored hlog (path := ⟨p.targetKey, 0⟩)
    (NibblePath.WF_bytes _) (by rw [NibblePath.nibs_bytes, toNibs_length]; omega)
  have hsane := (verifyPoeAux_only E.limit (T.ref E a) (NibblePath.WF_bytes p.targetKey) ps).2
  obtain ⟨ln, hln, hext⟩ := hlast
  obtain ⟨first, hp0⟩ : ∃ first, pyIndex p.proof 0 = .ok first := by
    rw [hp]
    cases rest with
    | nil => exact ⟨last, rfl⟩
    | cons x xs => exact ⟨x, rfl⟩
  have hl : MPT.lastItem p.proof = .ok last := by
    rw [hp]; simp [MPT.lastItem]
  have hd : ∃ d, MPT.nodeData ln = .ok d := by
    cases ln with
    | leaf q d => exact ⟨d, rfl⟩
    | ext q r => exact absurd rfl (hext q r)
    | branch bs d => exact ⟨d, rfl⟩
  obtain ⟨d, hd⟩ := hd
  unfold MPT.verifyPoe
  rw [if_neg (by simp [ht]), h1.noRoot h.log, T.Holds.isEmpty_false hn, hp0, hl, h1.getD hn]
  simp only [Bool.false_eq_true, if_false, Except.bind_ok', hln, hd]
  split
  · exact .inl ⟨_, rfl⟩
  split
  · exact .inl ⟨_, rfl⟩
  rw [hp, List.dropLast_concat, hps]
  simp only [Except.bind_ok']
  cases hr : MPT.verifyPoeAux E.limit (T.ref E a) ⟨p.targetKey, 0⟩ ps with
  | error e =>
    rcases hrun e hr with rfl | rfl
    · exact .inr (.inl rfl)
    · exact .inr (.inr rfl)
  | ok r =>
    obtain ⟨node, left⟩ := r
    simp only [Except.bind_ok']
    split
    · exact .inl ⟨_, rfl⟩
    cases node with
    | none => exact .inl ⟨_, rfl⟩
    | some n =>
      cases n with
      | leaf q d =>
        have hs : q.WF := hsane _ _ hr
        simp only [NibblePath.eq_spec hs (NibblePath.WF_bytes _)]
        exact .inl ⟨_, rfl⟩
      | ext q r => exact .inl ⟨_, rfl⟩
      | branch bs d => exact .inl ⟨_, rfl⟩

example : ∃ g, (MPT.after toyEnv false untrustedOps).getPoe toyEnv [] [0x12, 0x35] = .ok g ∧
    Valid toyEnv false untrustedOps [] ∧ (∃ k, contents untrustedOps k ≠ none) ∧
    ∃ (p : Proof Bytes) (rest : List Bytes) (last : Bytes), p.targetKey = [0x13, 0x45] ∧
      p.proof = rest ++ [last] ∧ p.type = mptPoe ∧ 2 * p.targetKey.length < toyEnv.limit ∧
      (∀ v ∈ rest, reenc v ≠ none) ∧ (∃ n, Node.decode last = .ok n ∧ ∀ q r, n ≠ .ext q r) ∧
      CollFree toyEnv ((MPT.after toyEnv false untrustedOps).store.written ++ checked p) ∧
      (MPT.after toyEnv false untrustedOps).verifyPoe toyEnv p = .error .poe := by
  obtain ⟨g, h1, h2⟩ := ok_of (m := (MPT.after toyEnv false untrustedOps).getPoe toyEnv [] [0x12, 0x35])
    (f := fun g => decide (g.proof = g.proof.dropLast ++ [g.proof.getLastD []]) &&
      decide (∀ v ∈ g.proof.dropLast, reenc v ≠ none) &&
      (match Node.decode (g.proof.getLastD []) with
        | .ok (.leaf _ _) => true
        | _ => false) &&
      collFreeB toyEnv ((MPT.after toyEnv false untrustedOps).store.written ++
        checked { g with targetKey := [0x13, 0x45] }) &&
      decide (g.type = mptPoe) &&
      decide ((MPT.after toyEnv false untrustedOps).verifyPoe toyEnv { g with targetKey := [0x13, 0x45] } = .error .poe))
    (by decide +kernel)
  simp only [Bool.and_eq_true, decide_eq_true_eq] at h2
  refine ⟨g, h1, valid_of (by decide +kernel), ⟨[0x99], by decide +kernel⟩,
    { g with targetKey := [0x13, 0x45] }, g.proof.dropLast, g.proof.getLastD [], rfl, h2.1.1.1.1.1, h2.1.2,
    by show 2 * 2 < 100; decide, h2.1.1.1.1.2, ?_, collFree_of h2.1.1.2, h2.2⟩
  have h3 := h2.1.1.1.2
  split at h3
  · rename_i q d hq
    exact ⟨_, hq, by simp⟩
  · simp at h3

/-! ### C67: which proofs are accepted -/

/-- The full statement of C67: an accepted inclusion proof of a present key is the one the trie makes. -/
def C67 : Prop := ∀ (E : Env) (secure : Bool) (ops : List Op) (k now : Bytes) (g p : Proof Bytes),
  Valid E secure ops [k] → contents ops k ≠ none → (MPT.after E secure ops).getPoi E now k = .ok g →
  CollFree E ((MPT.after E secure ops).store.written ++ checked p) →
  p.targetKey = g.targetKey → (MPT.after E secure ops).verifyPoi E p = .ok true → p.proof = g.proof

/-- C67 is false: an entry may be added to a proof. -/
theorem C67_false : ¬ C67 := by
  intro h
  have hv : Valid realEnv false [.update [0x12] (bigValue 1)] [[0x12]] := valid_of (by decide +kernel)
  obtain ⟨g, h1, h2⟩ := ok_of (m := (MPT.after realEnv false [.update [0x12] (bigValue 1)]).getPoi realEnv [] [0x12])
    (f := fun g => collFreeB realEnv ((MPT.after realEnv false [.update [0x12] (bigValue 1)]).store.written ++
        checked { g with proof := g.proof ++ forged }) &&
      decide ((MPT.after realEnv false [.update [0x12] (bigValue 1)]).verifyPoi realEnv
        { g with proof := g.proof ++ forged } = .ok true)) (by decide +kernel)
  simp only [Bool.and_eq_true, decide_eq_true_eq] at h2
  have := h _ _ _ _ _ g _ hv (by decide +kernel) h1 (collFree_of h2.1) rfl h2.2
  simp [forged] at this

/-- C67 exactly, for a present key and entries that decode and encode: the proof is accepted if and only
if it names the root hash, begins with the root node and has, for each hashed node of the trie's own
proof, an entry which re-encodes to it; otherwise the answer is False. -/
theorem C67_exact {E : Env} {secure : Bool} {ops : List Op} {k now : Bytes} {g p : Proof Bytes}
    (h : Valid E secure ops [k]) (hk : contents ops k ≠ none)
    (hg : (MPT.after E secure ops).getPoi E now k = .ok g)
    (hc : CollFree E ((MPT.after E secure ops).store.written ++ checked p))
    (ht : p.type = mptPoi) (hkey : p.targetKey = g.targetKey) (hp : p.proof ≠ [])
    (hwf : ∀ v ∈ p.proof, reenc v ≠ none) :
    ((MPT.after E secure ops).verifyPoi E p = .ok true ↔
      p.trieRoot = (MPT.after E secure ops).rootHash E ∧
      (∃ first, p.proof.head? = some first ∧ E.keccak first = (MPT.after E secure ops).rootHash E) ∧
      ∀ e ∈ g.proof, 32 ≤ e.length → ∃ v ∈ p.proof, reenc v = some e) ∧
    ((MPT.after E secure ops).verifyPoi E p ≠ .ok true → (MPT.after E secure ops).verifyPoi E p = .ok false) := by
  obtain ⟨a, h1, h2, h3, h4⟩ := h.inv
  have hne : ∃ k, contents ops k ≠ none := ⟨k, hk⟩
  have hn : a ≠ .empty := (nonempty_iff h h2 h3 h4).1 hne
  obtain ⟨hgk, hgp⟩ := own_proof h h1 hn hg
  have hfit := fits_nibs (h.fit (k := k) (by simp))
  rw [keyOf_eq, after_secure, show (if secure = true then E.keccak k else k) = effective E secure k from rfl,
    ← hgk, ← hkey] at hfit
  have hlk : T.lookup a (toNibs p.targetKey) ≠ none := by
    rw [hkey, hgk, h3, show eff E secure ops (effective E secure k) = contents ops k from eff_eq h.keys (by simp)]
    exact hk
  have hv := (present_verdict h1.shape hn hlk).2
  obtain ⟨first, hfirst⟩ : ∃ first, p.proof.head? = some first := by
    cases hpp : p.proof with
    | nil => exact absurd hpp hp
    | cons x xs => exact ⟨x, rfl⟩
  by_cases hr : E.keccak first = (MPT.after E secure ops).rootHash E
  case neg =>
    have hvf : (MPT.after E secure ops).verifyPoi E p = .ok false :=
      (C66_root_partial (h.subset (by simp)) hne hfirst hr).1 ht
    rw [hvf]
    refine ⟨⟨fun h0 => by simp at h0, ?_⟩, fun _ => rfl⟩
    rintro ⟨_, ⟨first', h5, h6⟩, _⟩
    rw [hfirst] at h5
    cases h5
    exact absurd h6 hr
  have hany := h1.verifyPoi_any h.log hn ht hc hfit hfirst hr hwf
  rw [hgp, ← hgk, ← hkey]
  by_cases hall : ∀ x ∈ T.trail a (toNibs p.targetKey),
      (T.enc E x).length < 32 ∨ ∃ v ∈ p.proof, reenc v = some (T.enc E x)
  case neg =>
    have hvf : (MPT.after E secure ops).verifyPoi E p = .ok false := by
      refine hany.2 (Classical.byContradiction fun h0 => hall fun x hx => ?_)
      exact Classical.byContradiction fun h5 => h0 ⟨x, hx, h5⟩
    rw [hvf]
    refine ⟨⟨fun h0 => by simp at h0, ?_⟩, fun _ => rfl⟩
    rintro ⟨_, _, h5⟩
    refine absurd (fun x hx => ?_) hall
    by_cases hl : (T.enc E x).length < 32
    · exact .inl hl
    · exact .inr (h5 _ (List.mem_map.2 ⟨x, hx, rfl⟩) (by omega))
  have hvt : (MPT.after E secure ops).verifyPoi E p =
      .ok ((MPT.after E secure ops).rootHash E == p.trieRoot) := by
    rcases hany.1 hall with h0 | ⟨h0, _⟩
    · rw [h0, hv]; simp [Except.map]
    · rw [hv] at h0; cases h0
  rw [hvt]
  constructor
  · simp only [Except.ok.injEq, beq_iff_eq]
    constructor
    · intro h0
      refine ⟨h0.symm, ⟨first, hfirst, hr⟩, ?_⟩
      intro e he hl
      obtain ⟨x, hx, rfl⟩ := List.mem_map.1 he
      exact (hall x hx).resolve_left (by omega)
    · rintro ⟨h0, _, _⟩; exact h0.symm
  · intro h0
    cases hb : ((MPT.after E secure ops).rootHash E == p.trieRoot) with
    | true => rw [hb] at h0; exact absurd rfl h0
    | false => rfl

/-- C67 in part: an accepted proof of a present key, whoever made it, has for each hashed node of the
trie's own proof an entry which re-encodes to it.
Missing: that there are no other entries, and that they are the nodes themselves; the code accepts such
changes (`C67_exact`). -/
theorem C67_needed_partial {E : Env} {secure : Bool} {ops : List Op} {k now : Bytes} {g p : Proof Bytes}
    (h : Valid E secure ops [k]) (hk : contents ops k ≠ none)
    (hg : (MPT.after E secure ops).getPoi E now k = .ok g)
    (hc : CollFree E ((MPT.after E secure ops).store.written ++ checked p))
    (hkey : p.targetKey = g.targetKey) (hv : (MPT.after E secure ops).verifyPoi E p = .ok true) :
    ∀ e ∈ g.proof, 32 ≤ e.length → ∃ v ∈ p.proof, reenc v = some e := by
  have ht : p.type = mptPoi := Classical.byContradiction fun h0 => by
    unfold MPT.verifyPoi at hv; rw [if_pos h0] at hv; simp at hv
  have hnr : (MPT.after E secure ops).noRoot E ≠ true := fun h0 => by
    unfold MPT.verifyPoi at hv; rw [if_neg (by simp [ht]), if_pos h0] at hv; simp at hv
  unfold MPT.verifyPoi at hv
  rw [if_neg (by simp [ht]), if_neg hnr] at hv
  have hp : p.proof ≠ [] := by
    intro h0; rw [h0] at hv; simp [pyIndex] at hv
  have hwf : ∀ v ∈ p.proof, reenc v ≠ none := by
    refine (T.proofStorage_ok (E := E) []).1 ?_
    cases hps : MPT.proofStorage E p.proof [] with
    | ok ps => exact ⟨ps, rfl⟩
    | error e =>
      exfalso
      rw [hps] at hv
      cases hf : pyIndex p.proof 0 with
      | error e' => rw [hf] at hv; simp at hv
      | ok first =>
        rw [hf] at hv
        simp only [Except.bind_ok'] at hv
        split at hv
        · simp at hv
        · cases e <;> simp at hv
  refine ((C67_exact h hk hg hc ht hkey hp hwf).1.1 ?_).2.2
  unfold MPT.verifyPoi
  rw [if_neg (by simp [ht]), if_neg hnr]
  exact hv

/-- C67 in part: no accepted proof has fewer entries than the trie's own proof has hashed nodes. -/
theorem C67_minimal_partial {E : Env} {secure : Bool} {ops : List Op} {k now : Bytes} {g p : Proof Bytes}
    (h : Valid E secure ops [k]) (hk : contents ops k ≠ none)
    (hg : (MPT.after E secure ops).getPoi E now k = .ok g)
    (hc : CollFree E ((MPT.after E secure ops).store.written ++ checked p))
    (hkey : p.targetKey = g.targetKey) (hv : (MPT.after E secure ops).verifyPoi E p = .ok true) :
    (g.proof.filter fun e => decide (32 ≤ e.length)).length ≤ p.proof.length := by
  obtain ⟨a, h1, h2, h3, h4⟩ := h.inv
  have hn : a ≠ .empty := (nonempty_iff h h2 h3 h4).1 ⟨k, hk⟩
  obtain ⟨hgk, hgp⟩ := own_proof h h1 hn hg
  have hneed := C67_needed_partial h hk hg hc hkey hv
  have hcw : CollFree E (MPT.after E secure ops).store.written :=
    hc.mono fun x hx => List.mem_append_left _ hx
  have hlog := h1.stored.logged h1.good
  have hpw : g.proof.Pairwise (· ≠ ·) := by
    rw [hgp]
    refine List.pairwise_map.2 ?_
    refine (T.trail_decreasing a (toNibs (effective E secure k))).imp_of_mem ?_
    intro x y hx hy hlt he
    have := T.enc_inj hcw h.log.size (T.trail_logged hlog _ x hx) (T.trail_logged hlog _ y hy)
      (T.trail_len h1.stored _ x hx) he
    subst this
    omega
  refine Nat.le_trans (T.length_le_of_nodup (hpw.filter _) (m := p.proof.filterMap reenc) ?_)
    (List.length_filterMap_le _ _)
  intro e he
  obtain ⟨h5, h6⟩ := List.mem_filter.1 he
  obtain ⟨v, h7, h8⟩ := hneed e h5 (by simpa using h6)
  exact List.mem_filterMap.2 ⟨v, h7, h8⟩

/-- A proof with the entries in another order after the first, and a forged one among them. -/
example : ∃ g, (MPT.after toyEnv false sampleOps).getPoi toyEnv [] [0x12, 0x34] = .ok g ∧
    Valid toyEnv false sampleOps [[0x12, 0x34]] ∧ contents sampleOps [0x12, 0x34] ≠ none ∧
    ∃ p : Proof Bytes, p.targetKey = g.targetKey ∧ p.type = mptPoi ∧ p.proof ≠ g.proof ∧ p.proof ≠ [] ∧
      (∀ v ∈ p.proof, reenc v ≠ none) ∧
      CollFree toyEnv ((MPT.after toyEnv false sampleOps).store.written ++ checked p) ∧
      (MPT.after toyEnv false sampleOps).verifyPoi toyEnv p = .ok true := by
  obtain ⟨g, h1, h2⟩ := ok_of (m := (MPT.after toyEnv false sampleOps).getPoi toyEnv [] [0x12, 0x34])
    (f := fun g => decide (g.type = mptPoi) &&
      decide (g.proof.take 1 ++ forged ++ (g.proof.drop 1).reverse ≠ g.proof) &&
      decide (g.proof.take 1 ++ forged ++ (g.proof.drop 1).reverse ≠ []) &&
      decide (∀ v ∈ g.proof.take 1 ++ forged ++ (g.proof.drop 1).reverse, reenc v ≠ none) &&
      collFreeB toyEnv ((MPT.after toyEnv false sampleOps).store.written ++
        checked { g with proof := g.proof.take 1 ++ forged ++ (g.proof.drop 1).reverse }) &&
      decide ((MPT.after toyEnv false sampleOps).verifyPoi toyEnv
        { g with proof := g.proof.take 1 ++ forged ++ (g.proof.drop 1).reverse } = .ok true))
    (by decide +kernel)
  simp only [Bool.and_eq_true, decide_eq_true_eq] at h2
  exact ⟨g, h1, valid_of (by decide +kernel), by decide +kernel,
    { g with proof := g.proof.take 1 ++ forged ++ (g.proof.drop 1).reverse }, rfl,
    h2.1.1.1.1.1, h2.1.1.1.1.2, h2.1.1.1.2, h2.1.1.2, collFree_of h2.1.2, h2.2⟩

end Props
end Pymt
