import Verif.Lemmas.EmptCrowdViews
import Verif.Lemmas.EmptWatching
import Verif.Model.EmptThreadProofs
import Verif.Model.EmptProofs
import Verif.Props.Watching
import Verif.Props.Copies

/-!
# Proofs and sparse copies of an `EMPT` that several threads write to (C118)

Any number of threads use one `EMPT` (`ECrowd`); a further thread makes or checks a proof, or takes a sparse copy.  Its
`n`-th access happens after `mom n` steps of the schedule (`Moments`).
-/

namespace Pymt

theorem EProg.watch_trie {α : Type} (V : Nat → EMPT) (p : Prog α) :
    EProg.watch V (.trie p) = Prog.watch (fun n => (V n).trie) p := by
  unfold EProg.watch Prog.watch
  rw [EProg.trie_along]

/-- The trie inside has the contents of a sequence of the threads' calls. -/
theorem ECrowd.made {E : Env} {secure : Bool} {calls : Nat → List ECall} {log : List Bytes} (h : ECrowd E secure calls log)
    (sched : List Nat) {k : Bytes} (hacc : ∀ a, T.Holds E ((EWorld.new E secure calls).run E sched).obj.trie a →
      a ≠ .empty ∧ T.Accepts (T.seek a (toNibs k)).1 (T.seek a (toNibs k)).2) :
    ∃ ops : List EOp, (∀ op ∈ ops, ∃ j c, c ∈ calls j ∧ c.op? = some op) ∧
      (∀ k', Fits E secure k' → (secure = true → CollFree E (k' :: ops.map EOp.key)) → ∀ v, econtents ops k' = some v →
        ((EWorld.new E secure calls).run E sched).obj.contains E k' = .ok true) ∧
      ∃ k' v, econtents ops k' = some v ∧ k <+: effective E secure k' := by
  obtain ⟨cs, s, w, hsh, hon, hobj⟩ := h.shadow sched
  have hm := hon.made 0 s.length
  rw [hobj] at hm
  have hsec := hsh.secure
  obtain ⟨ops, h1, h2, e, ⟨k', hk', rfl⟩, hpre⟩ := hm.accepts (h.log.mono (h.stOk sched).written) hacc
  obtain ⟨eops, he1, he2⟩ := refOps_of_inner (E := E) (calls := calls) (ops := ops) (fun op ho => by
    obtain ⟨j, c, hc, hop⟩ := h1 op ho
    exact ⟨c, (hsh.shadow.allowed j _ hc).2, hop⟩)
  refine ⟨eops, fun op ho => ?_, fun k'' hf hcoll v hv => ?_, ?_⟩
  · obtain ⟨j, c, h1, h2, _⟩ := he2 op ho
    exact ⟨j, c, h1, h2⟩
  · have hkeys : ops.map Op.key = eops.map EOp.key := by
      rw [← he1]
      clear he1 h1 h2 hk' hpre hv hcoll
      induction eops with
      | nil => rfl
      | cons o eops ih =>
        have ih := ih fun op ho => he2 op (by simp [ho])
        have : refOps E (o :: eops) = refOp E o ++ refOps E eops := by simp [refOps]
        rw [this, List.map_append, ih]
        cases o with
        | delete k => rfl
        | update k x =>
          obtain ⟨_, _, _, _, hs⟩ := he2 (.update k x) (by simp)
          simp [refOp, hs k x rfl, Op.key, EOp.key]
    have h3 := h2 k'' (by rw [hsec]; exact hf) (by rw [hsec, hkeys]; exact hcoll)
    refine (h3.1 (refOf E k'' v) ((Props.stored_iff _ _ (fun _ => he1 ▸ refOps_nonempty E eops) _ _).2 ?_)).2
    rw [← he1, contents_refOps, hv]; rfl
  · rw [← he1, contents_refOps] at hk'
    cases hc : econtents eops k' with
    | none => rw [hc] at hk'; exact absurd rfl hk'
    | some v => exact ⟨k', v, hc, hsec ▸ hpre⟩

namespace Props
open EProg (watch)

variable {E : Env} {secure : Bool} {calls : Nat → List ECall} {log : List Bytes}

/-- **C118** (full statement; false) A proof asked of an `EMPT` while several threads write to it is the proof that it would
have given at some moment while the call ran (or the exception it would have raised); if `verify_proof_of_inclusion` says
True, the `EMPT` would have accepted the proof at some such moment; and a sparse copy taken meanwhile gives the answers of
one taken at some such moment. -/
def C118 : Prop :=
  ∀ (E : Env) (secure : Bool) (calls : Nat → List ECall) (log : List Bytes), ECrowd E secure calls log →
    ∀ (sched : List Nat) (mom : Nat → Nat) (a b : Nat), Moments mom a b → ∀ (now k : Bytes) (p : Proof Bytes),
    Fits E secure k →
    let V := eviewAt E secure calls sched mom
    let st := fun q => (eworldAt E secure calls sched q).obj
    (∃ q, a ≤ q ∧ q ≤ b ∧ watch V (EMPT.getPoiCallP E secure now k) = (st q).getPoi E now k) ∧
    (∃ q, a ≤ q ∧ q ≤ b ∧ watch V (EMPT.getPoeCallP E secure now k) = (st q).getPoe E now k) ∧
    (CollFree E (log ++ checked p) → watch V (EMPT.verifyPoiCallP E p) = .ok true →
      ∃ q, a ≤ q ∧ q ≤ b ∧ (st q).verifyPoi E p = .ok true) ∧
    ∃ q c, a ≤ q ∧ q ≤ b ∧ (EMPT.getSparseP E secure).watch (fun n => (V n).trie) = .ok c ∧
      SameAnswers E c ((st q).getSparse E) k

/-- **C118** (part) Proofs of inclusion: as stated, with two exceptions.  If the last key is deleted while the call runs, it
may raise TypeError.  If the root changes after the nodes were collected, the proof has the nodes of one moment and the
root of a later one. -/
theorem C118_poi_partial (h : ECrowd E secure calls log) (sched : List Nat) {mom : Nat → Nat} {a b : Nat}
    (hm : Moments mom a b) (now : Bytes) {k : Bytes} (hf : Fits E secure k) :
    let x := watch (eviewAt E secure calls sched mom) (EMPT.getPoiCallP E secure now k)
    let st := fun q => (eworldAt E secure calls sched q).obj
    (∃ q, a ≤ q ∧ q ≤ b ∧ x = (st q).getPoi E now k) ∨
    (x = .error .typeError ∧ ∃ q q', a ≤ q ∧ q < q' ∧ q' ≤ b ∧ (st q).trie.root ≠ none ∧ (st q').trie.root = none) ∨
    (∃ q q' p r, a ≤ q ∧ q < q' ∧ q' ≤ b ∧ (st q).getPoi E now k = .ok p ∧ (st q').trie.root = some r ∧
      (st q).trie.root ≠ some r ∧ x = .ok { p with trieRoot := r }) := by
  intro x
  have hx : x = _ := EProg.watch_trie _ _
  rw [hx]
  exact (h.views sched hm).poi_cases hf now fun n => ⟨hm.low n, hm.high n⟩

/-- **C118** (part) A proof of inclusion that comes out is one that the `EMPT` would have given at some moment of the call,
or it is useless: no trie at all accepts it. -/
theorem C118_harmless_partial (h : ECrowd E secure calls log) (sched : List Nat) {mom : Nat → Nat} {a b : Nat}
    (hm : Moments mom a b) {now k : Bytes} (hf : Fits E secure k) {p : Proof Bytes}
    (hp : watch (eviewAt E secure calls sched mom) (EMPT.getPoiCallP E secure now k) = .ok p)
    (hc : ∀ w ∈ log, ∀ v ∈ p.proof, E.keccak v = E.keccak w → v = w) :
    (∃ q, a ≤ q ∧ q ≤ b ∧ (eworldAt E secure calls sched q).obj.getPoi E now k = .ok p) ∨
    ∀ t : MPT, t.verifyPoi E p ≠ .ok true := by
  have hp := (EProg.watch_trie _ _).symm.trans hp
  exact (h.views sched hm).harmless hf (fun n => ⟨hm.low n, hm.high n⟩) hp hc

/-- **C118** (part) Proofs of exclusion: as stated, except that the call may raise TypeError if the last key is deleted
meanwhile, and that the root written into the proof may be another one; every trie gives the proof the verdict that it
gives to the proof of the moment. -/
theorem C118_poe_partial (h : ECrowd E secure calls log) (sched : List Nat) {mom : Nat → Nat} {a b : Nat}
    (hm : Moments mom a b) (now : Bytes) {k : Bytes} (hf : Fits E secure k) :
    let x := watch (eviewAt E secure calls sched mom) (EMPT.getPoeCallP E secure now k)
    let st := fun q => (eworldAt E secure calls sched q).obj
    (∃ q, a ≤ q ∧ q ≤ b ∧ x = (st q).getPoe E now k) ∨
    (x = .error .typeError ∧ ∃ q q', a ≤ q ∧ q < q' ∧ q' ≤ b ∧ (st q).trie.root ≠ none ∧ (st q').trie.root = none) ∨
    (∃ q p r, a ≤ q ∧ q < b ∧ (st q).getPoe E now k = .ok p ∧ x = .ok { p with trieRoot := r } ∧
      ∀ t : MPT, t.verifyPoe E { p with trieRoot := r } = t.verifyPoe E p) := by
  intro x
  have hx : x = _ := EProg.watch_trie _ _
  rw [hx]
  rcases (h.views sched hm).poe_cases hf now (fun n => ⟨hm.low n, hm.high n⟩) with
    h1 | h1 | ⟨q, q', q'', p, r, h1, h2, h3, h4, _, h5, hx⟩ | ⟨q, q', p, h1, h2, h3, _, h5, hx⟩
  · exact .inl h1
  · exact .inr (.inl h1)
  · exact .inr (.inr ⟨q, p, r, h1, by omega, h5, hx, fun t => rfl⟩)
  · exact .inr (.inr ⟨q, p, _, h1, by omega, h5, hx, fun t => rfl⟩)

/-- **C118** (part) What the verdict True says about the keys, whatever proof was checked and whoever wrote meanwhile: at
some moment of the call the trie inside had the contents of some sequence of the threads' calls, and one of its keys (in
secure mode, the hash of one) began with the target key of the proof. -/
theorem C118_present_partial (h : ECrowd E secure calls log) (sched : List Nat) {mom : Nat → Nat} {a b : Nat}
    (hm : Moments mom a b) {p : Proof Bytes} (hc : CollFree E (log ++ checked p))
    (hv : watch (eviewAt E secure calls sched mom) (EMPT.verifyPoiCallP E p) = .ok true) :
    ∃ q, a ≤ q ∧ q ≤ b ∧ ∃ ops : List EOp, (∀ op ∈ ops, ∃ j c, c ∈ calls j ∧ c.op? = some op) ∧
      (∀ k, Fits E secure k → (secure = true → CollFree E (k :: ops.map EOp.key)) → ∀ v, econtents ops k = some v →
        (eworldAt E secure calls sched q).obj.contains E k = .ok true) ∧
      ∃ k v, econtents ops k = some v ∧ p.targetKey <+: effective E secure k := by
  have hv := (EProg.watch_trie _ _).symm.trans hv
  obtain ⟨n, hn⟩ := (h.views sched hm).verifyPoi_sound hc hv
  exact ⟨mom n, hm.low n, hm.high n, h.made _ hn⟩

/-- **C118** (part) If the root does not change meanwhile, both kinds of proofs and both kinds of verdicts are exactly those
of the `EMPT` at that time, however busy the other threads are. -/
theorem C118_undisturbed_partial (h : ECrowd E secure calls log) (sched : List Nat) {mom : Nat → Nat} {a b : Nat}
    (hm : Moments mom a b) (hr : ∀ q, a ≤ q → q ≤ b →
      (eworldAt E secure calls sched q).obj.trie.root = (eworldAt E secure calls sched a).obj.trie.root) :
    let V := eviewAt E secure calls sched mom
    let s := (eworldAt E secure calls sched a).obj
    (∀ now k, Fits E secure k →
      watch V (EMPT.getPoiCallP E secure now k) = s.getPoi E now k ∧
      watch V (EMPT.getPoeCallP E secure now k) = s.getPoe E now k) ∧
    ∀ p, watch V (EMPT.verifyPoiCallP E p) = s.verifyPoi E p ∧ watch V (EMPT.verifyPoeCallP E p) = s.verifyPoe E p := by
  intro V s
  have := (h.views sched hm).undisturbed (fun n => ⟨hm.low n, hm.high n⟩) (fun n => by
    refine Sub.ofKeys (h.stOk _).gs (h.stOk _).gs h.log ?_
    obtain ⟨l, e⟩ := eworldAt_split (E := E) (secure := secure) (calls := calls) (sched := sched) (hm.low n)
    show KeysGrow (eworldAt E secure calls sched a).obj.trie.store.kv
      (eworldAt E secure calls sched (mom n)).obj.trie.store.kv
    rw [e]
    exact (EWorld.run_taller E l _).1) hr
  refine ⟨fun now k hf => ⟨?_, ?_⟩, fun p => ⟨?_, ?_⟩⟩
  · exact (EProg.watch_trie _ _).trans (this.1 now k hf).1
  · exact (EProg.watch_trie _ _).trans (this.1 now k hf).2
  · exact (EProg.watch_trie _ _).trans (this.2 p).1
  · exact (EProg.watch_trie _ _).trans (this.2 p).2

/-- **C118** (part) A sparse copy has the root of some moment, gives the answers of that moment or raises KeyError, and
checks proofs as at that moment.  (Missing: RuntimeError, and the KeyErrors.) -/
theorem C118_sparse_partial (h : ECrowd E secure calls log) (sched : List Nat) {mom : Nat → Nat} {a b : Nat}
    (hm : Moments mom a b) {c : MPT}
    (hc : (EMPT.getSparseP E secure).watch (fun n => (eviewAt E secure calls sched mom n).trie) = .ok c) :
    ∃ q, a ≤ q ∧ q ≤ b ∧
      let s := (eworldAt E secure calls sched q).obj.getSparse E
      c.root = s.root ∧ (∀ k, Fits E secure k → SameOrKeyError E c s k) ∧
      (∀ p, c.verifyPoi E p = s.verifyPoi E p) ∧ ∀ p, c.verifyPoe E p = s.verifyPoe E p := by
  have hsh := h.shelves sched hm
  have hv := h.views sched hm
  have hx := hsh.getSparse E secure
  change (EMPT.getSparseP E secure).watch (fun n => (eworldAt E secure calls sched (mom n)).obj.trie) = .ok c at hc
  rw [hc] at hx
  split at hx
  · injection hx with hx
    generalize (eworldAt E secure calls sched (mom 0)).obj.trie.store.kv.length = n at hx
    have hsec : ∀ q, (eworldAt E secure calls sched q).obj.trie.secure = secure := fun q => (h.stOk _).sec
    have hroot : c.root = ((eworldAt E secure calls sched (mom (2 * n + 2))).obj.getSparse E).root := by
      rw [hx, getSparse_eq (hsec _)]
      rfl
    refine ⟨mom (2 * n + 2), hm.low _, hm.high _, hroot, fun k hk => ?_, fun p => ?_, fun p => ?_⟩
    · rw [getSparse_eq (hsec _)]
      exact hv.torn (2 * n + 1) (2 * n + 2) (by rw [hx]; rfl) (by rw [hx]; rfl) (by rw [hx]; rfl) hk
    · unfold MPT.verifyPoi MPT.noRoot MPT.rootHash
      rw [hroot]
    · unfold MPT.verifyPoe MPT.noRoot MPT.rootHash
      rw [hroot]
  · exact (nomatch hx)

/-- **C118** (part) If the root does not change between the last look at the dict and the look at the root, the copy gives
the answers of one taken at a moment.  (Missing: other copies.) -/
theorem C118_whole_partial (h : ECrowd E secure calls log) (sched : List Nat) {mom : Nat → Nat} {a b : Nat}
    (hm : Moments mom a b) {c : MPT}
    (hc : (EMPT.getSparseP E secure).watch (fun n => (eviewAt E secure calls sched mom n).trie) = .ok c)
    (hr : (eviewAt E secure calls sched mom (2 * c.store.kv.length + 2)).trie.root =
      (eviewAt E secure calls sched mom (2 * c.store.kv.length + 1)).trie.root) :
    ∃ q, a ≤ q ∧ q ≤ b ∧ ∀ k, Fits E secure k →
      SameAnswers E c ((eworldAt E secure calls sched q).obj.getSparse E) k := by
  have hsh := h.shelves sched hm
  have hv := h.views sched hm
  have hx := hsh.getSparse E secure
  change (EMPT.getSparseP E secure).watch (fun n => (eworldAt E secure calls sched (mom n)).obj.trie) = .ok c at hc
  rw [hc] at hx
  split at hx
  · rename_i hl
    injection hx with hx
    have hn : c.store.kv.length = (eworldAt E secure calls sched (mom 0)).obj.trie.store.kv.length := by rw [hx]; exact hl
    rw [hn] at hr
    generalize (eworldAt E secure calls sched (mom 0)).obj.trie.store.kv.length = n at hx hr
    have hsec : ∀ q, (eworldAt E secure calls sched q).obj.trie.secure = secure := fun q => (h.stOk _).sec
    refine ⟨mom (2 * n + 1), hm.low _, hm.high _, fun k hk => ?_⟩
    rw [getSparse_eq (hsec _)]
    exact hv.whole (2 * n + 1) (by rw [hx]; rfl) (by rw [hx]; rfl) (hsh.nodup _) (by rw [hx]; exact congrArg (fun r => (MPT.init E _ r secure).root) hr)
      (by rw [hx]; rfl) hk
  · exact (nomatch hx)

/-- A proof asked for while two threads overwrite each other's work (`erace`): the first `n` accesses come after step 7,
when one key is in, the others after step 10, when the other thread has put its own trie in place. -/
def eovertaken (n : Nat) (k : Bytes) : Py (Proof Bytes) :=
  watch (eviewAt toyEnv false erivals erace (twice n 7 10)) (EMPT.getPoiCallP toyEnv false [] k)

/-- A sparse copy taken meanwhile. -/
def ecopied (n : Nat) : Py MPT :=
  (EMPT.getSparseP toyEnv false).watch fun m => (eviewAt toyEnv false erivals erace (twice n 7 10) m).trie

theorem C118_false : ¬ C118 := by
  intro h
  obtain ⟨⟨q, h1, h2, h3⟩, _⟩ := h toyEnv false erivals erivalsLog erivals_crowd erace (twice 4 7 10) 7 10
    (twice_moments (by decide)) [] [1, 2] mixed (by decide +kernel)
  have hq : q = 7 ∨ q = 8 ∨ q = 9 ∨ q = 10 := by omega
  rcases hq with rfl | rfl | rfl | rfl <;> exact absurd h3 (by decide +kernel)

-- The hypotheses of the parts hold for these threads (`erivals_crowd`, `twice_moments`).  The nodes and the root of the
-- first moment:
example : (eovertaken 5 [1, 2]).isOk = true ∧
    eovertaken 5 [1, 2] = (eworldAt toyEnv false erivals erace 7).obj.getPoi toyEnv [] [1, 2] := by decide +kernel
-- The nodes of the first and the root of the second.  No trie accepts it:
example : ∀ p, eovertaken 4 [1, 2] = .ok p → ∀ t : MPT, t.verifyPoi toyEnv p ≠ .ok true := by
  intro p hp
  have hc : ∀ w ∈ erivalsLog, ∀ v ∈ (match eovertaken 4 [1, 2] with | .ok p => p.proof | .error _ => []),
      toyEnv.keccak v = toyEnv.keccak w → v = w := by decide +kernel
  rw [hp] at hc
  rcases C118_harmless_partial erivals_crowd erace (twice_moments (n := 4) (a := 7) (b := 10) (by decide))
    (now := []) (k := [1, 2]) (by decide +kernel) hp hc with ⟨q, h1, h2, h3⟩ | h
  · have hq : q = 7 ∨ q = 8 ∨ q = 9 ∨ q = 10 := by omega
    rw [← hp] at h3
    rcases hq with rfl | rfl | rfl | rfl <;> exact absurd h3 (by decide +kernel)
  · exact h
-- The verdict True on the proof of the first moment, checked while the other thread puts its trie in place:
example : okAnd (eovertaken 5 [1, 2]) (fun p =>
    watch (eviewAt toyEnv false erivals erace (twice 9 7 10)) (EMPT.verifyPoiCallP toyEnv p) == .ok true &&
    decide (∀ w ∈ erivalsLog ++ checked p, ∀ v ∈ erivalsLog ++ checked p,
      toyEnv.keccak v = toyEnv.keccak w → v = w)) = true := by
  decide +kernel
-- The root stays the same between the steps 6 and 9, although the second thread has begun its own trie:
example : ∀ q ∈ [6, 7, 8, 9], (eworldAt toyEnv false erivals erace q).obj.trie.root =
      (eworldAt toyEnv false erivals erace 6).obj.trie.root ∧
    (eworldAt toyEnv false erivals erace 9).obj.trie.store.written.length ≠
      (eworldAt toyEnv false erivals erace 6).obj.trie.store.written.length ∧
    (eworldAt toyEnv false erivals erace 10).obj.trie.root ≠
      (eworldAt toyEnv false erivals erace 6).obj.trie.root := by decide +kernel
-- A torn copy, which finds neither key; a copy that the second thread spoils; and a whole one:
example : okAnd (ecopied 4) (fun c => c.get toyEnv [1, 2] == .error .keyError && c.get toyEnv [1, 3] == .error .keyError) =
      true ∧ ecopied 2 = .error .runtime ∧
    okAnd (ecopied 5) (fun c => c.store.kv.length == 1 &&
      c.contains toyEnv [1, 2] == .ok true && c.contains toyEnv [1, 3] == .ok false) = true ∧
    (eviewAt toyEnv false erivals erace (twice 5 7 10) 4).trie.root =
      (eviewAt toyEnv false erivals erace (twice 5 7 10) 3).trie.root := by decide +kernel

end Props
end Pymt
