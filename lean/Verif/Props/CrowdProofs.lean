import Verif.Lemmas.CrowdViews
import Verif.Props.Crowd
import Verif.Props.Watching

/-!
# Proofs made and checked while several threads write to one trie (C116)

Any number of threads write to each trie (`Crowd`); a further thread makes or checks a proof.  As in `Props/Watching.lean`
the `n`-th access of the further thread happens after `mom n` steps of the schedule (`Moments`).  C88 says what the
states of the trie after these steps are.
-/

namespace Pymt.Props
open Prog

/-- **C116** (full statement; false) A proof asked for while several threads write to the trie is the proof that the trie
would have given at some moment while the call ran (or the exception it would have raised); and if
`verify_proof_of_inclusion` says True, the trie would have accepted the proof at some such moment. -/
def C116 : Prop :=
  ∀ (E : Env) (secure : Nat → Bool) (calls : Nat → List (Nat × Call)) (log : List Bytes), Crowd E secure calls log →
    ∀ (sched : List Nat) (i : Nat) (mom : Nat → Nat) (a b : Nat), Moments mom a b →
    ∀ (now k : Bytes) (p : Proof Bytes), Fits E (secure i) k →
    let V := viewAt E secure calls sched i mom
    let st := fun q => (worldAt E secure calls sched q).obj i
    (∃ q, a ≤ q ∧ q ≤ b ∧ watch V (MPT.getPoiCallP E now (storedKey E (secure i) k)) = (st q).getPoi E now k) ∧
    (∃ q, a ≤ q ∧ q ≤ b ∧ watch V (MPT.getPoeCallP E now (storedKey E (secure i) k)) = (st q).getPoe E now k) ∧
    (CollFree E (log ++ checked p) → watch V (MPT.verifyPoiCallP E p) = .ok true →
      ∃ q, a ≤ q ∧ q ≤ b ∧ (st q).verifyPoi E p = .ok true)

/-- **C116** (part) Proofs of inclusion: as stated, with two exceptions.  If the last key is deleted while the call runs, it
may raise TypeError.  If the root changes after the nodes were collected, the proof has the nodes of one moment and the
root of a later one. -/
theorem C116_poi_partial (E : Env) (secure : Nat → Bool) (calls : Nat → List (Nat × Call)) (log : List Bytes)
    (h : Crowd E secure calls log) (sched : List Nat) (i : Nat) (mom : Nat → Nat) (a b : Nat) (hm : Moments mom a b)
    (now k : Bytes) (hf : Fits E (secure i) k) :
    let x := watch (viewAt E secure calls sched i mom) (MPT.getPoiCallP E now (storedKey E (secure i) k))
    let st := fun q => (worldAt E secure calls sched q).obj i
    (∃ q, a ≤ q ∧ q ≤ b ∧ x = (st q).getPoi E now k) ∨
    (x = .error .typeError ∧ ∃ q q', a ≤ q ∧ q < q' ∧ q' ≤ b ∧ (st q).root ≠ none ∧ (st q').root = none) ∨
    (∃ q q' p r, a ≤ q ∧ q < q' ∧ q' ≤ b ∧ (st q).getPoi E now k = .ok p ∧ (st q').root = some r ∧
      (st q).root ≠ some r ∧ x = .ok { p with trieRoot := r }) :=
  ((h.on sched).views i hm).poi_cases hf now fun n => ⟨hm.low n, hm.high n⟩

/-- **C116** (part) However many threads write meanwhile, a proof of inclusion that comes out is one that the trie would
have given at some moment of the call, or it is useless: no trie at all accepts it. -/
theorem C116_harmless_partial (E : Env) (secure : Nat → Bool) (calls : Nat → List (Nat × Call)) (log : List Bytes)
    (h : Crowd E secure calls log) (sched : List Nat) (i : Nat) (mom : Nat → Nat) (a b : Nat) (hm : Moments mom a b)
    (now k : Bytes) (hf : Fits E (secure i) k) (p : Proof Bytes)
    (hp : watch (viewAt E secure calls sched i mom) (MPT.getPoiCallP E now (storedKey E (secure i) k)) = .ok p)
    (hc : ∀ w ∈ log, ∀ v ∈ p.proof, E.keccak v = E.keccak w → v = w) :
    (∃ q, a ≤ q ∧ q ≤ b ∧ ((worldAt E secure calls sched q).obj i).getPoi E now k = .ok p) ∨
    ∀ t : MPT, t.verifyPoi E p ≠ .ok true :=
  ((h.on sched).views i hm).harmless hf (fun n => ⟨hm.low n, hm.high n⟩) hp hc

/-- **C116** (part) Proofs of exclusion: as stated, except that the call may raise TypeError if the last key is deleted
meanwhile, and that the root written into the proof may be another one.  Checking ignores that root: every trie gives
the proof the verdict that it gives to the proof of the moment. -/
theorem C116_poe_partial (E : Env) (secure : Nat → Bool) (calls : Nat → List (Nat × Call)) (log : List Bytes)
    (h : Crowd E secure calls log) (sched : List Nat) (i : Nat) (mom : Nat → Nat) (a b : Nat) (hm : Moments mom a b)
    (now k : Bytes) (hf : Fits E (secure i) k) :
    let x := watch (viewAt E secure calls sched i mom) (MPT.getPoeCallP E now (storedKey E (secure i) k))
    let st := fun q => (worldAt E secure calls sched q).obj i
    (∃ q, a ≤ q ∧ q ≤ b ∧ x = (st q).getPoe E now k) ∨
    (x = .error .typeError ∧ ∃ q q', a ≤ q ∧ q < q' ∧ q' ≤ b ∧ (st q).root ≠ none ∧ (st q').root = none) ∨
    (∃ q p r, a ≤ q ∧ q < b ∧ (st q).getPoe E now k = .ok p ∧ x = .ok { p with trieRoot := r } ∧
      ∀ t : MPT, t.verifyPoe E { p with trieRoot := r } = t.verifyPoe E p) := by
  rcases ((h.on sched).views i hm).poe_cases hf now (fun n => ⟨hm.low n, hm.high n⟩) with
    h1 | h1 | ⟨q, q', q'', p, r, h1, h2, h3, h4, _, h5, hx⟩ | ⟨q, q', p, h1, h2, h3, _, h5, hx⟩
  · exact .inl h1
  · exact .inr (.inl h1)
  · exact .inr (.inr ⟨q, p, r, h1, by omega, h5, hx, fun t => rfl⟩)
  · exact .inr (.inr ⟨q, p, _, h1, by omega, h5, hx, fun t => rfl⟩)

/-- **C116** (part) What the verdict True says about the keys, whatever proof was checked and whoever wrote meanwhile: at
some moment of the call the trie had the contents of some sequence of the threads' calls, and one of its keys began with
the target key of the proof. -/
theorem C116_present_partial (E : Env) (secure : Nat → Bool) (calls : Nat → List (Nat × Call)) (log : List Bytes)
    (h : Crowd E secure calls log) (sched : List Nat) (i : Nat) (mom : Nat → Nat) (a b : Nat) (hm : Moments mom a b)
    (p : Proof Bytes) (hc : CollFree E (log ++ checked p))
    (hv : watch (viewAt E secure calls sched i mom) (MPT.verifyPoiCallP E p) = .ok true) :
    ∃ q, a ≤ q ∧ q ≤ b ∧ ∃ ops, FromCalls calls i ops ∧ ReadsAs E ((worldAt E secure calls sched q).obj i) ops ∧
      ∃ e, Present E (secure i) ops e ∧ p.targetKey <+: e := by
  obtain ⟨n, hn⟩ := ((h.on sched).views i hm).verifyPoi_sound hc hv
  have hok := (h.on sched).stOk i (mom n)
  have := ((h.on sched).made i (mom n)).accepts (h.log.mono hok.written) hn
  rw [hok.sec] at this
  exact ⟨mom n, hm.low n, hm.high n, this⟩

/-- **C116** (part) If the root of the trie does not change meanwhile, both kinds of proofs and both kinds of verdicts are
exactly those of the trie at that time, however busy the other threads are. -/
theorem C116_undisturbed_partial (E : Env) (secure : Nat → Bool) (calls : Nat → List (Nat × Call)) (log : List Bytes)
    (h : Crowd E secure calls log) (sched : List Nat) (i : Nat) (mom : Nat → Nat) (a b : Nat) (hm : Moments mom a b)
    (hr : ∀ q, a ≤ q → q ≤ b → (worldAt E secure calls sched q).roots i = (worldAt E secure calls sched a).roots i) :
    let V := viewAt E secure calls sched i mom
    let t := (worldAt E secure calls sched a).obj i
    (∀ now k, Fits E (secure i) k →
      watch V (MPT.getPoiCallP E now (storedKey E (secure i) k)) = t.getPoi E now k ∧
      watch V (MPT.getPoeCallP E now (storedKey E (secure i) k)) = t.getPoe E now k) ∧
    ∀ p, watch V (MPT.verifyPoiCallP E p) = t.verifyPoi E p ∧ watch V (MPT.verifyPoeCallP E p) = t.verifyPoe E p := by
  refine ((h.on sched).views i hm).undisturbed (fun n => ⟨hm.low n, hm.high n⟩) (fun n => ?_) hr
  refine Sub.ofKeys ((h.on sched).stOk i _).gs ((h.on sched).stOk i _).gs h.log ?_
  obtain ⟨l, e⟩ := worldAt_split (E := E) (secure := secure) (calls := calls) (sched := sched) (hm.low n)
  show KeysGrow (worldAt E secure calls sched a).store.kv (worldAt E secure calls sched (mom n)).store.kv
  rw [e]
  exact (World.run_taller E l _).1

/-- A proof asked for while two threads overwrite each other's work (`race`): the first `n` accesses come after step 7, when
one key is in, the others after step 10, when the other thread has put its own trie in place. -/
def overtaken (n : Nat) (k : Bytes) : Py (Proof Bytes) :=
  watch (viewAt toyEnv (fun _ => false) rivals race 0 (twice n 7 10)) (MPT.getPoiCallP toyEnv [] k)

theorem C116_false : ¬ C116 := by
  intro h
  obtain ⟨⟨q, h1, h2, h3⟩, _⟩ := h toyEnv (fun _ => false) rivals rivalsLog rivals_crowd race 0 (twice 4 7 10) 7 10
    (twice_moments (by decide)) [] [1, 2] mixed (by decide +kernel)
  have hq : q = 7 ∨ q = 8 ∨ q = 9 ∨ q = 10 := by omega
  rcases hq with rfl | rfl | rfl | rfl <;> exact absurd h3 (by decide +kernel)

-- The hypotheses of the parts hold for these threads (`rivals_crowd`, `twice_moments`).  The nodes and the root of the
-- first moment; the key is no longer there, and nobody deleted it:
example : overtaken 5 [1, 2] = ((worldAt toyEnv (fun _ => false) rivals race 7).obj 0).getPoi toyEnv [] [1, 2] := by
  decide +kernel
-- What comes of the call at the second moment:
example : (overtaken 2 [1, 2]).isOk = false ∧ overtaken 2 [1, 2] =
    ((worldAt toyEnv (fun _ => false) rivals race 10).obj 0).getPoi toyEnv [] [1, 2] := by
  decide +kernel
-- The nodes of the first and the root of the second.  No trie accepts it:
example : ∀ p, overtaken 4 [1, 2] = .ok p → ∀ t : MPT, t.verifyPoi toyEnv p ≠ .ok true := by
  intro p hp
  have hc : ∀ w ∈ rivalsLog, ∀ v ∈ (match overtaken 4 [1, 2] with | .ok p => p.proof | .error _ => []),
      toyEnv.keccak v = toyEnv.keccak w → v = w := by decide +kernel
  rw [hp] at hc
  rcases C116_harmless_partial toyEnv (fun _ => false) rivals rivalsLog rivals_crowd race 0 (twice 4 7 10) 7 10
    (twice_moments (by decide)) [] [1, 2] (by decide +kernel) p hp hc with ⟨q, h1, h2, h3⟩ | h
  · have hq : q = 7 ∨ q = 8 ∨ q = 9 ∨ q = 10 := by omega
    rw [← hp] at h3
    rcases hq with rfl | rfl | rfl | rfl <;> exact absurd h3 (by decide +kernel)
  · exact h
-- A proof of exclusion with the root of the second trie; the first trie accepts it:
example : okAnd (watch (viewAt toyEnv (fun _ => false) rivals race 0 (twice 9 7 10)) (MPT.getPoeCallP toyEnv [] [9]))
    (fun p => p.trieRoot == ((worldAt toyEnv (fun _ => false) rivals race 10).obj 0).rootHash toyEnv &&
      p.trieRoot != ((worldAt toyEnv (fun _ => false) rivals race 7).obj 0).rootHash toyEnv &&
      ((worldAt toyEnv (fun _ => false) rivals race 7).obj 0).verifyPoe toyEnv p == .ok true) = true := by
  decide +kernel
-- The verdict True on the proof of the first moment, checked while the other thread puts its trie in place:
example : okAnd (overtaken 5 [1, 2]) (fun p =>
    watch (viewAt toyEnv (fun _ => false) rivals race 0 (twice 9 7 10)) (MPT.verifyPoiCallP toyEnv p) == .ok true &&
    decide (∀ w ∈ rivalsLog ++ checked p, ∀ v ∈ rivalsLog ++ checked p,
      toyEnv.keccak v = toyEnv.keccak w → v = w)) = true := by
  decide +kernel
-- The root stays the same between the steps 6 and 8, although the second thread has begun its own trie:
example : ∀ q ∈ [6, 7, 8], (worldAt toyEnv (fun _ => false) rivals race q).roots 0 =
      (worldAt toyEnv (fun _ => false) rivals race 6).roots 0 ∧
    (worldAt toyEnv (fun _ => false) rivals race 8).store.written.length ≠
      (worldAt toyEnv (fun _ => false) rivals race 6).store.written.length ∧
    (worldAt toyEnv (fun _ => false) rivals race 9).roots 0 ≠
      (worldAt toyEnv (fun _ => false) rivals race 6).roots 0 := by decide +kernel

end Pymt.Props
