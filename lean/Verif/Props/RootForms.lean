import Verif.Lemmas.RootForms
import Verif.Props.Received
import Verif.Spec.Merkle

/-!
# Property C119: checking proofs with the root hash

`t'` is any object whose `root_hash()` is that of a trie: made with `MPT(storage={}, root=…)`, or received from somebody.
Its storage plays no part in the checks.
-/

namespace Pymt
namespace Props

/-- The full statement of C119: such an object answers to every proof what the trie answers. -/
def C119 : Prop := ∀ (E : Env) (secure : Bool) (ops : List Op) (t' : MPT) (p : Proof Bytes),
  (∀ op ∈ ops, Fits E secure op.key) → LogOk E (MPT.after E secure ops).store.written →
  t'.rootHash E = (MPT.after E secure ops).rootHash E →
  CollFree E (Item.encode (.str []) :: t'.root.getD [] :: (hashed (MPT.after E secure ops) ++ checked p)) →
  t'.verifyPoi E p = (MPT.after E secure ops).verifyPoi E p ∧
  t'.verifyPoe E p = (MPT.after E secure ops).verifyPoe E p

/-- The trie of the counterexample: a single entry, with the value `null`. -/
def nullOps : List Op := [.update [0x12] MPT.nullBytes]

/-- An object made of its root hash: `MPT(storage={}, root=trie.root_hash())`. -/
def fromHash (E : Env) (t : MPT) : MPT := MPT.init E Store.empty (some (t.rootHash E)) t.secure

/-- The root node of it, offered as a proof that its only key is absent. -/
def nullProof : Proof Bytes :=
  { type := mptPoe, timestamp := [], targetKey := [0x12], trieRoot := [],
    proof := [(MPT.after realEnv false nullOps).root.getD []] }

theorem null_hyps : (∀ op ∈ nullOps, Fits realEnv false op.key) ∧
    LogOk realEnv (MPT.after realEnv false nullOps).store.written ∧
    (fromHash realEnv (MPT.after realEnv false nullOps)).rootHash realEnv =
      (MPT.after realEnv false nullOps).rootHash realEnv ∧
    CollFree realEnv (Item.encode (.str []) ::
      (fromHash realEnv (MPT.after realEnv false nullOps)).root.getD [] ::
        (hashed (MPT.after realEnv false nullOps) ++ checked nullProof)) :=
  ⟨by decide +kernel, logOk_of (by decide +kernel), by decide +kernel, collFree_of (by decide +kernel)⟩

theorem null_answers :
    (MPT.after realEnv false nullOps).contains realEnv [0x12] = .ok true ∧
    (MPT.after realEnv false nullOps).verifyPoe realEnv nullProof = .error .poe ∧
    (fromHash realEnv (MPT.after realEnv false nullOps)).verifyPoe realEnv nullProof = .ok true := by decide +kernel

/-- C119 is false: for a trie with the single entry `12 ↦ null`, an object made of the root hash accepts the root node as
a proof that `12` is absent; the trie itself raises PoeError. -/
theorem C119_false : ¬ C119 := fun h => by
  have := (h _ _ _ _ nullProof null_hyps.1 null_hyps.2.1 null_hyps.2.2.1 null_hyps.2.2.2).2
  rw [null_answers.2.1, null_answers.2.2] at this
  simp at this

/-- C119 in part: an inclusion proof, whoever made it, that the object accepts is accepted by the trie (C19 says what
follows). -/
theorem C119_inclusion_partial {E : Env} {secure : Bool} {ops : List Op} {t' : MPT} {p : Proof Bytes}
    (hf : ∀ op ∈ ops, Fits E secure op.key) (hl : LogOk E (MPT.after E secure ops).store.written)
    (hh : t'.rootHash E = (MPT.after E secure ops).rootHash E)
    (hc : CollFree E (Item.encode (.str []) :: t'.root.getD [] :: (hashed (MPT.after E secure ops) ++ checked p)))
    (hv : t'.verifyPoi E p = .ok true) : (MPT.after E secure ops).verifyPoi E p = .ok true := by
  have hb := Bears.after hf hl
  by_cases hne : T.grow .empty (ops.map (Op.mapKey (effective E secure))) = .empty
  · rw [hne] at hb
    refine absurd hv (hb.holds.verify_empty hh (hc.mono fun x hx => ?_)).1
    rcases List.mem_cons.1 hx with rfl | hx
    · simp
    · simp [checked, hx]
  · exact hb.holds.verifyPoi_form hl hne hh hc hv

/-- C119 in part: an exclusion proof, whoever made it, that the object accepts is accepted by the trie, unless it consists
of the root node alone and that is shorter than 32 bytes. -/
theorem C119_exclusion_partial {E : Env} {secure : Bool} {ops : List Op} {t' : MPT} {p : Proof Bytes}
    (hf : ∀ op ∈ ops, Fits E secure op.key) (hl : LogOk E (MPT.after E secure ops).store.written)
    (hh : t'.rootHash E = (MPT.after E secure ops).rootHash E)
    (hc : CollFree E (Item.encode (.str []) :: t'.root.getD [] :: (hashed (MPT.after E secure ops) ++ checked p)))
    (hv : t'.verifyPoe E p = .ok true) : (MPT.after E secure ops).verifyPoe E p = .ok true ∨
      ∃ r, (MPT.after E secure ops).root = some r ∧ r.length < 32 ∧ p.proof = [r] := by
  have hb := Bears.after hf hl
  by_cases hne : T.grow .empty (ops.map (Op.mapKey (effective E secure))) = .empty
  · rw [hne] at hb
    refine absurd hv (hb.holds.verify_empty hh (hc.mono fun x hx => ?_)).2
    rcases List.mem_cons.1 hx with rfl | hx
    · simp
    · simp [checked, hx]
  · refine (hb.holds.verifyPoe_form hne hh hc hv).imp_right fun ⟨h1, h2⟩ => ?_
    refine ⟨_, ?_, h1, h2⟩
    rcases hb.holds.root with ⟨e, _⟩ | ⟨_, e⟩
    · exact absurd e hne
    · rw [e, T.ref_of_ne hne, if_pos h1]

/-- C119 in part: an inclusion proof made by the trie, of which `root()` has 32 bytes, gets the same answer from the
object, whatever form its root has. -/
theorem C119_made_partial {E : Env} {secure : Bool} {ops : List Op} {t' : MPT} {k now r : Bytes} {p : Proof Bytes}
    (hf : ∀ op ∈ ops, Fits E secure op.key) (hk : Fits E secure k)
    (hl : LogOk E (MPT.after E secure ops).store.written)
    (hh : t'.rootHash E = (MPT.after E secure ops).rootHash E)
    (hc : CollFree E (Item.encode (.str []) :: t'.root.getD [] :: hashed (MPT.after E secure ops)))
    (hr : (MPT.after E secure ops).root = some r) (h32 : r.length = 32)
    (hp : (MPT.after E secure ops).getPoi E now k = .ok p) :
    t'.verifyPoi E p = (MPT.after E secure ops).verifyPoi E p := by
  have hb := Bears.after hf hl
  have hsec := after_secure E secure ops
  have hk' : Fits E (MPT.after E secure ops).secure k := by rw [hsec]; exact hk
  by_cases hne : T.grow .empty (ops.map (Op.mapKey (effective E secure))) = .empty
  · rw [hne] at hb
    rw [hb.holds.getPoi_empty hl] at hp
    simp at hp
  · have hlen : 32 ≤ (T.enc E (T.grow .empty (ops.map (Op.mapKey (effective E secure))))).length := by
      rcases hb.holds.root with ⟨e, _⟩ | ⟨_, e⟩
      · exact absurd e hne
      · rw [hr] at e
        simp only [Option.some.injEq] at e
        rw [T.ref_of_ne hne] at e
        split at e
        · rw [e] at h32; omega
        · omega
    obtain ⟨r', hr', hform, hno⟩ := hb.holds.root_forms hne hh hc
    rw [hb.holds.getPoi hl hne (fits_nibs hk')] at hp
    refine hb.holds.verifyPoi_made hl hne ?_ hlen hr' hform hno hh
    split at hp
    · simp at hp
    · simp only [Except.ok.injEq] at hp
      subst hp
      rfl

/-- C119 in part, where it fails: an object made of the root hash of a trie, of which `root()` has less than 32 bytes,
accepts no inclusion proof at all. -/
theorem C119_small_partial {E : Env} {secure : Bool} {ops : List Op} {t' : MPT} {r : Bytes} {p : Proof Bytes}
    (hf : ∀ op ∈ ops, Fits E secure op.key) (hl : LogOk E (MPT.after E secure ops).store.written)
    (hr : (MPT.after E secure ops).root = some r) (h32 : r.length < 32)
    (hr' : t'.root = some ((MPT.after E secure ops).rootHash E))
    (hc : CollFree E (Item.encode (.str []) :: (hashed (MPT.after E secure ops) ++ checked p))) :
    t'.verifyPoi E p ≠ .ok true := by
  have hb := Bears.after hf hl
  by_cases hne : T.grow .empty (ops.map (Op.mapKey (effective E secure))) = .empty
  · rw [hne] at hb
    refine (hb.holds.verify_empty ?_ (hc.mono fun x hx => ?_)).1
    · have := hb.holds.rootHash
      rw [this] at hr' ⊢
      unfold MPT.rootHash
      rw [hr', Option.getD_some]
      have hlen := E.keccak_len (T.enc E T.empty)
      simp only
      rw [if_neg (fun e => by rw [e] at hlen; simp at hlen), if_pos hlen]
    · rcases List.mem_cons.1 hx with rfl | hx
      · simp
      · simp [checked, hx]
  · have hs : (T.enc E (T.grow .empty (ops.map (Op.mapKey (effective E secure))))).length < 32 := by
      rcases hb.holds.root with ⟨e, _⟩ | ⟨_, e⟩
      · exact absurd e hne
      · rw [hr] at e
        simp only [Option.some.injEq] at e
        rw [T.ref_of_ne hne] at e
        split at e
        · assumption
        · rw [e, E.keccak_len] at h32; omega
    rw [hb.holds.rootHash] at hr'
    exact hb.holds.verifyPoi_small hne hs hr' (hc.mono fun x hx => List.mem_cons_of_mem _ hx)

/-- C119 in part: proofs made by an object that was received as bytes, with the right mode: KeyError, or the proof the
trie makes; an inclusion proof names the `root()` of the received object, which may have the other form. -/
theorem C119_makes_partial {E : Env} {secure : Bool} {ops : List Op} {k k0 b : Bytes} {t' : MPT} (now : Bytes)
    (hf : ∀ op ∈ ops, Fits E secure op.key) (hk : Fits E secure k)
    (hl : LogOk E (MPT.after E secure ops).store.written) (hr : Received E b t' (MPT.after E secure ops))
    (hs : t'.secure = secure) (h0 : (MPT.after E secure ops).contains E k0 = .ok true) :
    (t'.getPoi E now k = .error .keyError ∨
      t'.getPoi E now k =
        ((MPT.after E secure ops).getPoi E now k).map (fun p => { p with trieRoot := t'.root.getD [] })) ∧
    (t'.getPoe E now k = .error .keyError ∨ t'.getPoe E now k = (MPT.after E secure ops).getPoe E now k) := by
  have hb := Bears.after hf hl
  have hne := hb.holds.ne_of_contains hl h0
  have hsec := after_secure E secure ops
  have hk' : Fits E (MPT.after E secure ops).secure k := by rw [hsec]; exact hk
  obtain ⟨r', ht⟩ := hr.twin_same hb hl hne (hs.trans hsec.symm)
  refine ⟨?_, ht.getPoe hb hne hl hk' now⟩
  rw [ht.root', Option.getD_some]
  exact ht.getPoi hb hne hl hk' now

/-! ### Cases -/

/-- The object of the examples for C99 (`sentBytes`: the root node in place of its hash, a leaf left out): the proof the
trie makes for `99` is accepted by it, the one for the leaf that was left out, too; all hypotheses are met. -/
example :
    let t := MPT.after toyEnv false sentOps
    let t' := decoded toyEnv (sentBytes (.str []))
    (∀ op ∈ sentOps, Fits toyEnv false op.key) ∧ LogOk toyEnv t.store.written ∧
    t'.rootHash toyEnv = t.rootHash toyEnv ∧ t'.root ≠ t.root ∧ (t.root.getD []).length = 32 ∧
    ∀ k ∈ ([[0x99], [0x12, 0x34]] : List Bytes), ∃ p, t.getPoi toyEnv [] k = .ok p ∧
      CollFree toyEnv (Item.encode (.str []) :: t'.root.getD [] :: (hashed t ++ checked p)) ∧
      t'.verifyPoi toyEnv p = .ok true := by
  refine ⟨by decide, logOk_of (by decide +kernel), by decide +kernel, by decide +kernel, by decide +kernel, ?_⟩
  intro k hk
  have : okAnd ((MPT.after toyEnv false sentOps).getPoi toyEnv [] k) (fun p =>
      collFreeB toyEnv (Item.encode (.str []) :: (decoded toyEnv (sentBytes (.str []))).root.getD [] ::
        (hashed (MPT.after toyEnv false sentOps) ++ checked p)) &&
      decide ((decoded toyEnv (sentBytes (.str []))).verifyPoi toyEnv p = .ok true)) = true := by
    revert k; decide +kernel
  obtain ⟨p, h1, h2⟩ := ok_of this
  simp only [Bool.and_eq_true, decide_eq_true_eq] at h2
  exact ⟨p, h1, collFree_of h2.1, h2.2⟩

/-- The same object makes the proof for `99`, with its own root in it, raises KeyError for the leaf left out, and makes
the exclusion proof for `98`. -/
example :
    let t := MPT.after toyEnv false sentOps
    let t' := decoded toyEnv (sentBytes (.str []))
    (∀ op ∈ sentOps, Fits toyEnv false op.key) ∧ Fits toyEnv false [0x99] ∧ LogOk toyEnv t.store.written ∧
    Received toyEnv (sentBytes (.str [])) t' t ∧ t'.secure = false ∧ t.contains toyEnv [0x99] = .ok true ∧
    t'.getPoi toyEnv [] [0x12, 0x34] = .error .keyError ∧
    (∃ p, t'.getPoi toyEnv [] [0x99] = .ok p ∧ t.getPoi toyEnv [] [0x99] ≠ .ok p) ∧
    (∃ p, t'.getPoe toyEnv [] [0x98] = .ok p ∧ t.getPoe toyEnv [] [0x98] = .ok p) := by
  refine ⟨by decide, by decide, logOk_of (by decide +kernel),
    received_of (by decide +kernel) (by decide +kernel) (by decide +kernel), by decide +kernel, by decide +kernel,
    by decide +kernel, ?_, ?_⟩
  · obtain ⟨p, h1, h2⟩ := ok_of (m := (decoded toyEnv (sentBytes (.str []))).getPoi toyEnv [] [0x99])
      (f := fun p => decide ((MPT.after toyEnv false sentOps).getPoi toyEnv [] [0x99] ≠ .ok p)) (by decide +kernel)
    exact ⟨p, h1, by simpa using h2⟩
  · obtain ⟨p, h1, h2⟩ := ok_of (m := (decoded toyEnv (sentBytes (.str []))).getPoe toyEnv [] [0x98])
      (f := fun p => decide ((MPT.after toyEnv false sentOps).getPoe toyEnv [] [0x98] = .ok p)) (by decide +kernel)
    exact ⟨p, h1, by simpa using h2⟩

/-- An exclusion proof the trie accepts makes an object with the root node in place of its hash raise PoeError. -/
example : ∃ p, (MPT.after toyEnv false sentOps).getPoe toyEnv [] [0x98] = .ok p ∧
    (MPT.after toyEnv false sentOps).verifyPoe toyEnv p = .ok true ∧
    (fromHash toyEnv (MPT.after toyEnv false sentOps)).verifyPoe toyEnv p = .ok true ∧
    CollFree toyEnv (Item.encode (.str []) :: (fromHash toyEnv (MPT.after toyEnv false sentOps)).root.getD [] ::
      (hashed (MPT.after toyEnv false sentOps) ++ checked p)) ∧
    (decoded toyEnv (sentBytes (.str []))).verifyPoe toyEnv p = .error .poe := by
  obtain ⟨p, h1, h2⟩ := ok_of (m := (MPT.after toyEnv false sentOps).getPoe toyEnv [] [0x98])
    (f := fun p => decide ((MPT.after toyEnv false sentOps).verifyPoe toyEnv p = .ok true) &&
      decide ((fromHash toyEnv (MPT.after toyEnv false sentOps)).verifyPoe toyEnv p = .ok true) &&
      collFreeB toyEnv (Item.encode (.str []) :: (fromHash toyEnv (MPT.after toyEnv false sentOps)).root.getD [] ::
        (hashed (MPT.after toyEnv false sentOps) ++ checked p)) &&
      decide ((decoded toyEnv (sentBytes (.str []))).verifyPoe toyEnv p = .error .poe)) (by decide +kernel)
  simp only [Bool.and_eq_true, decide_eq_true_eq] at h2
  exact ⟨p, h1, h2.1.1.1, h2.1.1.2, collFree_of h2.1.2, h2.2⟩

/-- A small trie, the proof it makes, and the same proof with the root hash written in: the trie accepts the latter, an
object made of the root hash does not. -/
example :
    let t := MPT.after realEnv false [.update [0x12] [1]]
    (∀ op ∈ [Op.update [0x12] [1]], Fits realEnv false op.key) ∧ LogOk realEnv t.store.written ∧
    (t.root.getD []).length < 32 ∧ (fromHash realEnv t).root = some (t.rootHash realEnv) ∧
    ∃ p, t.getPoi realEnv [] [0x12] = .ok p ∧
      CollFree realEnv (Item.encode (.str []) ::
        (hashed t ++ checked { p with trieRoot := t.rootHash realEnv })) ∧
      t.verifyPoi realEnv { p with trieRoot := t.rootHash realEnv } = .ok true ∧
      (fromHash realEnv t).verifyPoi realEnv { p with trieRoot := t.rootHash realEnv } = .ok false := by
  refine ⟨by decide +kernel, logOk_of (by decide +kernel), by decide +kernel, by decide +kernel, ?_⟩
  obtain ⟨p, h1, h2⟩ := ok_of (m := (MPT.after realEnv false [.update [0x12] [1]]).getPoi realEnv [] [0x12])
    (f := fun p =>
      let t := MPT.after realEnv false [.update [0x12] [1]]
      collFreeB realEnv (Item.encode (.str []) ::
        (hashed t ++ checked { p with trieRoot := t.rootHash realEnv })) &&
      decide (t.verifyPoi realEnv { p with trieRoot := t.rootHash realEnv } = .ok true) &&
      decide ((fromHash realEnv t).verifyPoi realEnv { p with trieRoot := t.rootHash realEnv } = .ok false))
    (by decide +kernel)
  simp only [Bool.and_eq_true, decide_eq_true_eq] at h2
  exact ⟨p, h1, collFree_of h2.1.1, h2.1.2, h2.2⟩

end Props
end Pymt
