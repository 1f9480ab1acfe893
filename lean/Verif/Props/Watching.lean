import Verif.Lemmas.WatchProofs
import Verif.Props.Threads
import Verif.Spec.Merkle

/-!
# Proofs made and checked while another thread writes (C92, C93, C94)

One thread writes to each trie (`Peaceful`); a further thread makes or checks a proof.  The writers take the steps of
a schedule; the `n`-th access of the further thread happens after `mom n` of these steps (`Moments`).  That thread
writes nothing, so the writers do not notice it.
-/

namespace Pymt.Props
open Prog

/-! ## C92: proofs of inclusion -/

/-- **C92** (full statement; false) A proof of inclusion asked for while another thread writes to the trie is the
proof that the trie would have given at some moment while the call ran (or the exception it would have raised). -/
def C92 : Prop :=
  ∀ (E : Env) (secure : Nat → Bool) (calls : Nat → List (Nat × Call)) (log : List Bytes),
    Peaceful E secure calls log → ∀ (sched : List Nat) (i : Nat) (mom : Nat → Nat) (a b : Nat), Moments mom a b →
    ∀ (now k : Bytes), Fits E (secure i) k →
    ∃ q, (worldAt E secure calls sched a).ended i ≤ q ∧ q ≤ (worldAt E secure calls sched b).ended i ∧
      watch (viewAt E secure calls sched i mom) (MPT.getPoiCallP E now (storedKey E (secure i) k)) =
        (MPT.after E (secure i) (writesOf ((calls i).take q))).getPoi E now k

/-- **C92** (part) As stated, with two exceptions.  If the writer deletes the last key while the call runs, the call
may raise TypeError.  If the root changes after the nodes were collected, the proof has the nodes of one moment and the
root of a later one. -/
theorem C92_moment_partial (E : Env) (secure : Nat → Bool) (calls : Nat → List (Nat × Call)) (log : List Bytes)
    (h : Peaceful E secure calls log) (sched : List Nat) (i : Nat) (mom : Nat → Nat) (a b : Nat) (hm : Moments mom a b)
    (now k : Bytes) (hf : Fits E (secure i) k) :
    let lo := (worldAt E secure calls sched a).ended i
    let hi := (worldAt E secure calls sched b).ended i
    let x := watch (viewAt E secure calls sched i mom) (MPT.getPoiCallP E now (storedKey E (secure i) k))
    let st := fun q => MPT.after E (secure i) (writesOf ((calls i).take q))
    (∃ q, lo ≤ q ∧ q ≤ hi ∧ x = (st q).getPoi E now k) ∨
    (x = .error .typeError ∧ ∃ q q', lo ≤ q ∧ q < q' ∧ q' ≤ hi ∧ (st q).root ≠ none ∧ (st q').root = none) ∨
    (∃ q q' p r, lo ≤ q ∧ q < q' ∧ q' ≤ hi ∧ (st q).getPoi E now k = .ok p ∧ (st q').root = some r ∧
      (st q).root ≠ some r ∧ x = .ok { p with trieRoot := r }) := by
  intro lo hi x st
  have lt : ∀ {q q' : Nat}, q ≤ q' → (st q).root ≠ (st q').root → q < q' :=
    fun {q q'} h1 h2 => (Nat.lt_or_eq_of_le h1).resolve_right fun e => h2 (by rw [e])
  rcases (h.views sched i hm).poi hf now (fun n => hm.ended_bounds i n) with
    h1 | ⟨hx, q, q', h1, h2, h3, h4, h5⟩ | ⟨q, q', p, r, h1, h2, h3, h4, h5, hx⟩
  · exact .inl h1
  · exact .inr (.inl ⟨hx, q, q', h1, lt h2 (by show (stateAt E secure calls i q).root ≠ (stateAt E secure calls i q').root; rw [h5]; exact h4), h3, h4, h5⟩)
  · by_cases he : (stateAt E secure calls i q).root = some r
    · refine .inl ⟨q, h1, Nat.le_trans h2 h3, ?_⟩
      have hp : { p with trieRoot := r } = p := by
        have h4' := h4
        unfold MPT.getPoi at h4'
        rw [he] at h4'
        split at h4'
        · exact (nomatch h4')
        · simp only [Option.getD_some] at h4'
          cases hl : MPT.getPoiAux (stateAt E secure calls i q).store.kv E.limit r
              { data := (stateAt E secure calls i q).keyOf E k } [] with
          | error er => rw [hl] at h4'; exact (nomatch h4')
          | ok l =>
            rw [hl] at h4'
            injection h4' with h4'
            rw [← h4']
      rw [hp] at hx
      exact hx.trans h4.symm
    · exact .inr (.inr ⟨q, q', p, r, h1, lt h2 (by show (stateAt E secure calls i q).root ≠ (stateAt E secure calls i q').root; rw [h5]; exact he), h3, h4, h5, he, hx⟩)

/-- **C92** (part) If no call of the writer had its effect while the proof was made, it is exactly the proof of the
trie at that time. -/
theorem C92_undisturbed_partial (E : Env) (secure : Nat → Bool) (calls : Nat → List (Nat × Call)) (log : List Bytes)
    (h : Peaceful E secure calls log) (sched : List Nat) (i : Nat) (mom : Nat → Nat) (a b : Nat) (hm : Moments mom a b)
    (now k : Bytes) (hf : Fits E (secure i) k)
    (he : (worldAt E secure calls sched b).ended i = (worldAt E secure calls sched a).ended i) :
    watch (viewAt E secure calls sched i mom) (MPT.getPoiCallP E now (storedKey E (secure i) k)) =
      (MPT.after E (secure i) (writesOf ((calls i).take ((worldAt E secure calls sched a).ended i)))).getPoi E now k := by
  rcases C92_moment_partial E secure calls log h sched i mom a b hm now k hf with
    ⟨q, h1, h2, hx⟩ | ⟨_, q, q', h1, h2, h3, _⟩ | ⟨q, q', p, r, h1, h2, h3, _⟩
  · rw [he] at h2
    rw [hx, Nat.le_antisymm h2 h1]
  · rw [he] at h3; omega
  · rw [he] at h3; omega

/-- **C92** (part) Whatever happens meanwhile, the proof returned is one that the trie would have given at some moment
of the call, or it is useless: no trie at all accepts it. -/
theorem C92_harmless_partial (E : Env) (secure : Nat → Bool) (calls : Nat → List (Nat × Call)) (log : List Bytes)
    (h : Peaceful E secure calls log) (sched : List Nat) (i : Nat) (mom : Nat → Nat) (a b : Nat) (hm : Moments mom a b)
    (now k : Bytes) (hf : Fits E (secure i) k) (p : Proof Bytes)
    (hp : watch (viewAt E secure calls sched i mom) (MPT.getPoiCallP E now (storedKey E (secure i) k)) = .ok p)
    (hc : ∀ w ∈ log, ∀ v ∈ p.proof, E.keccak v = E.keccak w → v = w) :
    (∃ q, (worldAt E secure calls sched a).ended i ≤ q ∧ q ≤ (worldAt E secure calls sched b).ended i ∧
      (MPT.after E (secure i) (writesOf ((calls i).take q))).getPoi E now k = .ok p) ∨
    ∀ t : MPT, t.verifyPoi E p ≠ .ok true := by
  rcases C92_moment_partial E secure calls log h sched i mom a b hm now k hf with
    ⟨q, h1, h2, hx⟩ | ⟨hx, _⟩ | ⟨q, q', p0, r, h1, h2, h3, h4, h5, h6, hx⟩
  · exact .inl ⟨q, h1, h2, hx.symm.trans hp⟩
  · rw [hx] at hp; exact (nomatch hp)
  · rw [hx] at hp
    injection hp with hp
    subst hp
    right
    intro t ht
    obtain ⟨⟨a0, ha0, _⟩, hw0, hsec0, hg0⟩ := h.stOk i q
    obtain ⟨⟨a1, ha1, _⟩, hw1, hsec1, hg1⟩ := h.stOk i q'
    have hf' := fits_nibs (E := E) (t := stateAt E secure calls i q) (k := k) (by rw [hsec0]; exact hf)
    have hne0 : a0 ≠ .empty := by
      rintro rfl
      have := ha0.getPoi_empty (h.log.mono hw0) now k
      rw [show (stateAt E secure calls i q).getPoi E now k = .ok p0 from h4] at this
      exact (nomatch this)
    have hroot0 : (stateAt E secure calls i q).root = some (T.ref E a0) := by
      rcases ha0.root with ⟨g, _⟩ | ⟨_, g⟩
      · exact absurd g hne0
      · exact g
    have hpf : ∃ l, p0.proof = T.enc E a0 :: l := by
      have := ha0.getPoi (h.log.mono hw0) hne0 (now := now) hf'
      rw [show (stateAt E secure calls i q).getPoi E now k = .ok p0 from h4] at this
      obtain ⟨l, hl0⟩ := T.trail_head (t := a0) (toNibs ((stateAt E secure calls i q).keyOf E k))
      rw [hl0] at this
      split at this
      · exact (nomatch this)
      · injection this with this
        exact ⟨_, by rw [this]; rfl⟩
    obtain ⟨l, hpf⟩ := hpf
    -- the root of the later moment
    have hr1 : a1 ≠ .empty ∧ r = T.ref E a1 :=
      (h.views sched i hm).rooted (Nat.le_of_lt h2) (ha0.root_ne (h.log.mono hw0) hne0) h5 ha1
    -- what acceptance needs
    have hacc : r = E.keccak (T.enc E a0) := by
      unfold MPT.verifyPoi at ht
      split at ht
      · exact (nomatch ht)
      split at ht
      · exact (nomatch ht)
      have hfst : pyIndex ({ p0 with trieRoot := r } : Proof Bytes).proof 0 = .ok (T.enc E a0) := by
        show pyIndex p0.proof 0 = _
        rw [hpf]; rfl
      rw [hfst] at ht
      simp only [Except.bind_ok'] at ht
      split at ht
      · exact (nomatch ht)
      rename_i hh
      have hh : t.rootHash E = E.keccak (T.enc E a0) := Decidable.not_not.1 hh
      split at ht
      · exact (nomatch ht)
      · exact (nomatch ht)
      · rename_i ps _
        cases hv : MPT.verifyPoiAux ps E.limit (t.root.getD []) { data := p0.targetKey } with
        | error er => rw [hv] at ht; exact (nomatch ht)
        | ok b =>
          rw [hv] at ht
          simp only [Except.bind_ok', Except.pure_ok', Except.ok.injEq, Bool.and_eq_true, beq_iff_eq] at ht
          rw [← hh, ht.2]
    have hk32 : (E.keccak (T.enc E a0)).length = 32 := E.keccak_len _
    rw [hr1.2, T.ref_of_ne hr1.1] at hacc
    split at hacc
    · rw [← hacc] at hk32; omega
    · rename_i hlen
      rcases ha1.stored.here hr1.1 with hs | ⟨hs, _⟩
      · exact hlen hs
      · have hmem := (hg1 _ _ hs).2.1
        have heq := hc _ hmem (T.enc E a0) (by show _ ∈ p0.proof; rw [hpf]; exact List.mem_cons_self) hacc.symm
        apply h6
        rw [show (MPT.after E (secure i) (writesOf ((calls i).take q))).root = some (T.ref E a0) from hroot0, hr1.2,
          T.ref_of_ne hne0, T.ref_of_ne hr1.1, heq]

/-- One thread inserts two keys. -/
def growing : Nat → List (Nat × Call)
  | 0 => [(0, .update [1, 2] (bigValue 5)), (0, .update [1, 3] (bigValue 6)), (0, .delete [1, 2]), (0, .delete [1, 3])]
  | _ => []

/-- All the nodes written. -/
def growingLog : List Bytes := (MPT.after toyEnv false (writesOf (growing 0))).store.written

theorem growing_peaceful : Peaceful toyEnv (fun _ => false) growing growingLog :=
  peaceful_of (fun _ => rfl) (by decide +kernel)

/-- The first `n` accesses after step `a`, the others after step `b`. -/
def twice (n a b m : Nat) : Nat := if m < n then a else b

theorem twice_moments {n a b : Nat} (h : a ≤ b) : Moments (twice n a b) a b where
  mono m := by unfold twice; split <;> split <;> omega
  low m := by unfold twice; split <;> omega
  high m := by unfold twice; split <;> omega

/-- The steps of the writer. -/
def alone0 (n : Nat) : List Nat := List.replicate n 0

/-- The proof asked for between the steps 6 and 20 of the writer: one access more or less before step 20. -/
def caught (n : Nat) : Py (Proof Bytes) :=
  watch (viewAt toyEnv (fun _ => false) growing (alone0 60) 0 (twice n 6 20)) (MPT.getPoiCallP toyEnv [] [1, 2])

theorem C92_false : ¬ C92 := by
  intro h
  obtain ⟨q, h1, h2, h3⟩ := h toyEnv (fun _ => false) growing growingLog growing_peaceful (alone0 60) 0 (twice 4 6 20) 6 20
    (twice_moments (by decide)) [] [1, 2] (by decide +kernel)
  have e1 : (worldAt toyEnv (fun _ => false) growing (alone0 60) 6).ended 0 = 1 := by decide +kernel
  have e2 : (worldAt toyEnv (fun _ => false) growing (alone0 60) 20).ended 0 = 2 := by decide +kernel
  rw [e1] at h1
  rw [e2] at h2
  have hq : q = 1 ∨ q = 2 := by omega
  rcases hq with rfl | rfl
  · exact absurd h3 (by decide +kernel)
  · exact absurd h3 (by decide +kernel)

-- The hypotheses of the parts hold for this writer; what the call returns depends on where the writer gets in between.
-- The nodes and the root of the first moment:
example : caught 5 = (MPT.after toyEnv false [.update [1, 2] (bigValue 5)]).getPoi toyEnv [] [1, 2] := by
  decide +kernel
-- The nodes and the root of the second:
example : caught 2 =
    (MPT.after toyEnv false [.update [1, 2] (bigValue 5), .update [1, 3] (bigValue 6)]).getPoi toyEnv [] [1, 2] := by
  decide +kernel
-- The nodes of the first and the root of the second.  No trie accepts it:
example : ∀ p, caught 4 = .ok p → ∀ t : MPT, t.verifyPoi toyEnv p ≠ .ok true := by
  intro p hp
  have e1 : (worldAt toyEnv (fun _ => false) growing (alone0 60) 6).ended 0 = 1 := by decide +kernel
  have e2 : (worldAt toyEnv (fun _ => false) growing (alone0 60) 20).ended 0 = 2 := by decide +kernel
  have hc : ∀ w ∈ growingLog, ∀ v ∈ (match caught 4 with | .ok p => p.proof | .error _ => []),
      toyEnv.keccak v = toyEnv.keccak w → v = w := by decide +kernel
  rw [hp] at hc
  rcases C92_harmless_partial toyEnv (fun _ => false) growing growingLog growing_peaceful (alone0 60) 0 (twice 4 6 20) 6 20
    (twice_moments (by decide)) [] [1, 2] (by decide +kernel) p hp hc with ⟨q, h1, h2, h3⟩ | h
  · rw [e1] at h1
    rw [e2] at h2
    have hq : q = 1 ∨ q = 2 := by omega
    rw [← hp] at h3
    rcases hq with rfl | rfl
    · exact absurd h3 (by decide +kernel)
    · exact absurd h3 (by decide +kernel)
  · exact h
-- The last key is deleted while the call runs:
example : watch (viewAt toyEnv (fun _ => false) growing (alone0 60) 0 (twice 4 30 40)) (MPT.getPoiCallP toyEnv [] [1, 3]) =
    .error .typeError := by decide +kernel
-- Nothing happens between the steps 6 and 10:
example : (worldAt toyEnv (fun _ => false) growing (alone0 60) 10).ended 0 =
    (worldAt toyEnv (fun _ => false) growing (alone0 60) 6).ended 0 := by decide +kernel

/-! ## C93: proofs of exclusion -/

/-- **C93** (full statement; false) A proof of exclusion asked for while another thread writes to the trie is the
proof that the trie would have given at some moment while the call ran (or the exception it would have raised). -/
def C93 : Prop :=
  ∀ (E : Env) (secure : Nat → Bool) (calls : Nat → List (Nat × Call)) (log : List Bytes),
    Peaceful E secure calls log → ∀ (sched : List Nat) (i : Nat) (mom : Nat → Nat) (a b : Nat), Moments mom a b →
    ∀ (now k : Bytes), Fits E (secure i) k →
    ∃ q, (worldAt E secure calls sched a).ended i ≤ q ∧ q ≤ (worldAt E secure calls sched b).ended i ∧
      watch (viewAt E secure calls sched i mom) (MPT.getPoeCallP E now (storedKey E (secure i) k)) =
        (MPT.after E (secure i) (writesOf ((calls i).take q))).getPoe E now k

theorem C93_false : ¬ C93 := by
  intro h
  obtain ⟨q, h1, h2, h3⟩ := h toyEnv (fun _ => false) growing growingLog growing_peaceful (alone0 60) 0 (twice 9 6 20) 6 20
    (twice_moments (by decide)) [] [9] (by decide +kernel)
  have e1 : (worldAt toyEnv (fun _ => false) growing (alone0 60) 6).ended 0 = 1 := by decide +kernel
  have e2 : (worldAt toyEnv (fun _ => false) growing (alone0 60) 20).ended 0 = 2 := by decide +kernel
  rw [e1] at h1
  rw [e2] at h2
  have hq : q = 1 ∨ q = 2 := by omega
  rcases hq with rfl | rfl
  · exact absurd h3 (by decide +kernel)
  · exact absurd h3 (by decide +kernel)

/-- **C93** (part) As stated, except that the call may raise TypeError if the writer deletes the last key meanwhile,
and that the root written into the proof may be another one.  Checking ignores that root: every trie gives the proof
the verdict that it gives to the proof of the moment. -/
theorem C93_moment_partial (E : Env) (secure : Nat → Bool) (calls : Nat → List (Nat × Call)) (log : List Bytes)
    (h : Peaceful E secure calls log) (sched : List Nat) (i : Nat) (mom : Nat → Nat) (a b : Nat) (hm : Moments mom a b)
    (now k : Bytes) (hf : Fits E (secure i) k) :
    let lo := (worldAt E secure calls sched a).ended i
    let hi := (worldAt E secure calls sched b).ended i
    let x := watch (viewAt E secure calls sched i mom) (MPT.getPoeCallP E now (storedKey E (secure i) k))
    let st := fun q => MPT.after E (secure i) (writesOf ((calls i).take q))
    (∃ q, lo ≤ q ∧ q ≤ hi ∧ x = (st q).getPoe E now k) ∨
    (x = .error .typeError ∧ ∃ q q', lo ≤ q ∧ q < q' ∧ q' ≤ hi ∧ (st q).root ≠ none ∧ (st q').root = none) ∨
    (∃ q p r, lo ≤ q ∧ q < hi ∧ (st q).getPoe E now k = .ok p ∧ x = .ok { p with trieRoot := r } ∧
      ∀ t : MPT, t.verifyPoe E { p with trieRoot := r } = t.verifyPoe E p) := by
  intro lo hi x st
  have lt : ∀ {q q' : Nat}, q ≤ q' → (st q).root ≠ (st q').root → q < q' :=
    fun {q q'} h1 h2 => (Nat.lt_or_eq_of_le h1).resolve_right fun e => h2 (by rw [e])
  rcases (h.views sched i hm).poe hf now (fun n => hm.ended_bounds i n) with
    h1 | ⟨hx, q, q', h1, h2, h3, h4, h5⟩ | ⟨q, q', p, h1, h2, h3, h4, hx⟩ |
      ⟨q, q'', q', p, b, c, r, h1, h2, h2', h3, h4, hb, hc, hr, hx⟩
  · exact .inl h1
  · exact .inr (.inl ⟨hx, q, q', h1, lt h2 (by show (stateAt E secure calls i q).root ≠ (stateAt E secure calls i q').root; rw [h5]; exact h4), h3, h4, h5⟩)
  · rcases Nat.lt_or_eq_of_le h2 with hlt | rfl
    · exact .inr (.inr ⟨q, p, _, h1, Nat.lt_of_lt_of_le hlt h3, h4, hx, fun t => rfl⟩)
    · refine .inl ⟨q, h1, h3, ?_⟩
      have hr := getPoe_root h4
      rw [← hr] at hx
      exact hx.trans h4.symm
  · have hlt : q'' < q' := lt h2' (by
      show (stateAt E secure calls i q'').root ≠ (stateAt E secure calls i q').root
      rw [hb, hc]
      intro e
      injection e with e
      rw [e] at hr
      rcases hr with ⟨g1, g2, _⟩ | ⟨g1, g2, _⟩
      · exact g2 g1
      · exact g1 g2)
    exact .inr (.inr ⟨q, p, r, h1, Nat.lt_of_le_of_lt h2 (Nat.lt_of_lt_of_le hlt h3), h4, hx, fun t => rfl⟩)

/-- **C93** (part) If no call of the writer had its effect while the proof was made, it is exactly the proof of the
trie at that time. -/
theorem C93_undisturbed_partial (E : Env) (secure : Nat → Bool) (calls : Nat → List (Nat × Call)) (log : List Bytes)
    (h : Peaceful E secure calls log) (sched : List Nat) (i : Nat) (mom : Nat → Nat) (a b : Nat) (hm : Moments mom a b)
    (now k : Bytes) (hf : Fits E (secure i) k)
    (he : (worldAt E secure calls sched b).ended i = (worldAt E secure calls sched a).ended i) :
    watch (viewAt E secure calls sched i mom) (MPT.getPoeCallP E now (storedKey E (secure i) k)) =
      (MPT.after E (secure i) (writesOf ((calls i).take ((worldAt E secure calls sched a).ended i)))).getPoe E now k := by
  rcases C93_moment_partial E secure calls log h sched i mom a b hm now k hf with
    ⟨q, h1, h2, hx⟩ | ⟨_, q, q', h1, h2, h3, _⟩ | ⟨q, p, r, h1, h2, _⟩
  · rw [he] at h2
    rw [hx, Nat.le_antisymm h2 h1]
  · rw [he] at h3; omega
  · rw [he] at h2; omega

-- The nodes of the first moment and the root of the second; the trie of the first moment accepts the proof, that of
-- the second does not.
example : okAnd (watch (viewAt toyEnv (fun _ => false) growing (alone0 60) 0 (twice 9 6 20))
      (MPT.getPoeCallP toyEnv [] [9])) (fun p =>
    p.trieRoot == (MPT.after toyEnv false [.update [1, 2] (bigValue 5), .update [1, 3] (bigValue 6)]).rootHash toyEnv &&
    (MPT.after toyEnv false [.update [1, 2] (bigValue 5)]).verifyPoe toyEnv p == .ok true &&
    (MPT.after toyEnv false [.update [1, 2] (bigValue 5), .update [1, 3] (bigValue 6)]).verifyPoe toyEnv p ==
      .ok false) = true := by
  decide +kernel
-- The last key is deleted while the call runs:
example : watch (viewAt toyEnv (fun _ => false) growing (alone0 60) 0 (twice 10 30 40)) (MPT.getPoeCallP toyEnv [] [9]) =
    .error .typeError := by decide +kernel

/-- One thread makes a big value small. -/
def shrinking : Nat → List (Nat × Call)
  | 0 => [(0, .update [1, 2] (bigValue 5)), (0, .update [1, 2] [7])]
  | _ => []

theorem shrinking_peaceful : Peaceful toyEnv (fun _ => false) shrinking
    (MPT.after toyEnv false (writesOf (shrinking 0))).store.written :=
  peaceful_of (fun _ => rfl) (by decide +kernel)

-- The root is first a hash and then a short node: the proof has the node itself (6 bytes) where a hash of 32 bytes
-- should be.
example : okAnd (watch (viewAt toyEnv (fun _ => false) shrinking (alone0 60) 0 (twice 11 6 20))
    (MPT.getPoeCallP toyEnv [] [9])) (fun p => p.trieRoot.length == 6) = true := by
  decide +kernel

/-! ## C94: checking a proof -/

/-- **C94** (full statement; false) If `verify_proof_of_inclusion` says True while another thread writes to the trie,
the trie would have accepted the proof at some moment while the call ran. -/
def C94 : Prop :=
  ∀ (E : Env) (secure : Nat → Bool) (calls : Nat → List (Nat × Call)) (log : List Bytes),
    Peaceful E secure calls log → ∀ (sched : List Nat) (i : Nat) (mom : Nat → Nat) (a b : Nat), Moments mom a b →
    ∀ p : Proof Bytes, CollFree E (log ++ checked p) →
    watch (viewAt E secure calls sched i mom) (MPT.verifyPoiCallP E p) = .ok true →
    ∃ q, (worldAt E secure calls sched a).ended i ≤ q ∧ q ≤ (worldAt E secure calls sched b).ended i ∧
      (MPT.after E (secure i) (writesOf ((calls i).take q))).verifyPoi E p = .ok true

/-- The proof with the nodes of the first moment and the root of the second. -/
def mixed : Proof Bytes :=
  match caught 4 with
  | .ok p => p
  | .error _ => { type := [], timestamp := [], targetKey := [], trieRoot := [], proof := [] }

theorem C94_false : ¬ C94 := by
  intro h
  obtain ⟨q, h1, h2, h3⟩ := h toyEnv (fun _ => false) growing growingLog growing_peaceful (alone0 60) 0 (twice 6 6 20) 6 20
    (twice_moments (by decide)) mixed (collFree_of (by decide +kernel)) (by decide +kernel)
  have e1 : (worldAt toyEnv (fun _ => false) growing (alone0 60) 6).ended 0 = 1 := by decide +kernel
  have e2 : (worldAt toyEnv (fun _ => false) growing (alone0 60) 20).ended 0 = 2 := by decide +kernel
  rw [e1] at h1
  rw [e2] at h2
  have hq : q = 1 ∨ q = 2 := by omega
  rcases hq with rfl | rfl
  · exact absurd h3 (by decide +kernel)
  · exact absurd h3 (by decide +kernel)

/-- **C94** (part) What the verdict True says about the keys: at some moment while the call ran, a stored key began
with the target key of the proof. -/
theorem C94_present_partial (E : Env) (secure : Nat → Bool) (calls : Nat → List (Nat × Call)) (log : List Bytes)
    (h : Peaceful E secure calls log) (sched : List Nat) (i : Nat) (mom : Nat → Nat) (a b : Nat) (hm : Moments mom a b)
    (p : Proof Bytes) (hc : CollFree E (log ++ checked p))
    (hv : watch (viewAt E secure calls sched i mom) (MPT.verifyPoiCallP E p) = .ok true) :
    ∃ q e, (worldAt E secure calls sched a).ended i ≤ q ∧ q ≤ (worldAt E secure calls sched b).ended i ∧
      Present E (secure i) (writesOf ((calls i).take q)) e ∧ p.targetKey <+: e := by
  obtain ⟨n, hn⟩ := (h.views sched i hm).verifyPoi_sound hc hv
  have hb := hm.ended_bounds (E := E) (secure := secure) (calls := calls) (sched := sched) i n
  obtain ⟨e, h1, h2⟩ := accepts_present (h.state_fits i _) (h.log.mono (h.state_written i _)) hn
  exact ⟨_, e, hb.1, hb.2, h1, h2⟩

/-- **C94** (part) If no call of the writer had its effect meanwhile, the verdict is that of the trie at that time. -/
theorem C94_undisturbed_partial (E : Env) (secure : Nat → Bool) (calls : Nat → List (Nat × Call)) (log : List Bytes)
    (h : Peaceful E secure calls log) (sched : List Nat) (i : Nat) (mom : Nat → Nat) (a b : Nat) (hm : Moments mom a b)
    (p : Proof Bytes)
    (he : (worldAt E secure calls sched b).ended i = (worldAt E secure calls sched a).ended i) :
    let t := MPT.after E (secure i) (writesOf ((calls i).take ((worldAt E secure calls sched a).ended i)))
    watch (viewAt E secure calls sched i mom) (MPT.verifyPoiCallP E p) = t.verifyPoi E p ∧
    watch (viewAt E secure calls sched i mom) (MPT.verifyPoeCallP E p) = t.verifyPoe E p := by
  intro t
  have hV := h.views sched i hm
  have hen : ∀ n, (worldAt E secure calls sched (mom n)).ended i = (worldAt E secure calls sched a).ended i := by
    intro n
    have hb := hm.ended_bounds (E := E) (secure := secure) (calls := calls) (sched := sched) i n
    rw [he] at hb
    exact Nat.le_antisymm hb.2 hb.1
  have hr : ∀ n, (viewAt E secure calls sched i mom n).root = t.root := by
    intro n
    have := hV.root n
    simp only [hen] at this
    exact this
  have hs : ∀ n, Sub t.store (viewAt E secure calls sched i mom n).store := by
    intro n
    have := hV.sub n
    simp only [hen] at this
    exact this
  have hnil : t.root ≠ some [] := (h.stOk i _).root_ne_nil
  constructor
  · unfold watch
    rw [still h.log (Roots.verifyPoiCall E p).quiet (Roots.verifyPoiCall E p).fine hr hs hV.gs 0,
      show (MPT.verifyPoiCallP E p).alone t = _ from Reads.verifyPoiCall hnil p]
  · unfold watch
    rw [still h.log (Roots.verifyPoeCall E p).quiet (Roots.verifyPoeCall E p).fine hr hs hV.gs 0,
      show (MPT.verifyPoeCallP E p).alone t = _ from Reads.verifyPoeCall hnil p]

-- The mixed proof is accepted if the writer gets in between the walk and the last look at the root; it is for a key
-- that was there all the time.
example : watch (viewAt toyEnv (fun _ => false) growing (alone0 60) 0 (twice 6 6 20)) (MPT.verifyPoiCallP toyEnv mixed) =
    .ok true ∧ mixed.targetKey = [1, 2] := by decide +kernel
-- An honest proof is rejected if the writer gets in between:
example : watch (viewAt toyEnv (fun _ => false) growing (alone0 60) 0 (twice 6 6 20))
      (MPT.verifyPoiCallP toyEnv (match caught 9 with | .ok p => p | .error _ => mixed)) = .ok false ∧
    watch (viewAt toyEnv (fun _ => false) growing (alone0 60) 0 (twice 9 6 20))
      (MPT.verifyPoiCallP toyEnv (match caught 9 with | .ok p => p | .error _ => mixed)) = .ok true := by
  decide +kernel

end Pymt.Props
