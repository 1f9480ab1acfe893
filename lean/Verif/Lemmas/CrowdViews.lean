import Verif.Lemmas.Copies
import Verif.Lemmas.Crowd
import Verif.Lemmas.WatchProofs

/-!
# What a further thread sees of a trie that several threads write to
-/

namespace Pymt
open Prog

variable {E : Env} {secure : Nat → Bool} {calls : Nat → List (Nat × Call)} {log : List Bytes}

/-- Where every key is the hash of its value, a dict with more keys has all the entries. -/
theorem Sub.ofKeys {s s' : Store} (hg : GS E log s) (hg' : GS E log s') (hL : LogOk E log)
    (hk : KeysGrow s.kv s'.kv) : Sub s s' := by
  intro k v hv
  have hmem : k ∈ s'.kv.map (·.1) := hk.subset (mem_keys_iff.2 (by rw [hv]; simp))
  rcases Option.eq_none_or_eq_some (dget s'.kv k) with h | ⟨v', h⟩
  · exact absurd h (mem_keys_iff.1 hmem)
  · obtain ⟨h1, h2, _⟩ := hg k v hv
    obtain ⟨h3, h4, _⟩ := hg' k v' h
    rw [h, hL.coll v (List.mem_cons_of_mem _ h2) v' (List.mem_cons_of_mem _ h4) (by rw [← h1, ← h3])]

/-- After the end of a schedule nothing happens. -/
theorem worldAt_min (sched : List Nat) (q : Nat) :
    worldAt E secure calls sched q = worldAt E secure calls sched (min q sched.length) := by
  unfold worldAt
  rw [List.take_eq_take_min]

theorem CrowdOn.stOk {sched : List Nat} (h : CrowdOn E secure calls log sched) (i q : Nat) :
    StOk E log (secure i) ((worldAt E secure calls sched q).obj i) := by
  rw [worldAt_min]
  exact (CrowdOk.all h _ (Nat.min_le_right _ _)).stOk h i

theorem CrowdOn.made {sched : List Nat} (h : CrowdOn E secure calls log sched) (i q : Nat) :
    Made E calls i ((worldAt E secure calls sched q).obj i) := by
  rw [worldAt_min]
  exact (CrowdOk.all h _ (Nat.min_le_right _ _)).made i

/-- The trie as a further thread sees it: the states are those after the steps of the schedule. -/
theorem CrowdOn.views {sched : List Nat} (h : CrowdOn E secure calls log sched) (i : Nat) {mom : Nat → Nat} {a b : Nat}
    (hm : Moments mom a b) :
    Views E log (secure i) (fun q => (worldAt E secure calls sched q).obj i) mom (viewAt E secure calls sched i mom) := by
  refine ⟨h.stOk i, hm.mono, fun n => rfl, fun n => Sub.refl _, fun n => ?_, fun n => (h.stOk i _).gs, h.log,
    fun q q' hq hr => ?_⟩
  · refine Sub.ofKeys (h.stOk i _).gs (h.stOk i _).gs h.log ?_
    obtain ⟨l, e⟩ := worldAt_split (E := E) (secure := secure) (calls := calls) (sched := sched) (hm.mono n)
    show KeysGrow (worldAt E secure calls sched (mom n)).store.kv (worldAt E secure calls sched (mom (n + 1))).store.kv
    rw [e]
    exact (World.run_taller E l _).1
  · show (worldAt E secure calls sched q').roots i ≠ _
    rw [worldAt_min]
    refine h.used (q := min q sched.length) (by omega) (Nat.min_le_right _ _) ?_
    rw [← worldAt_min]
    exact hr

theorem CrowdOn.shelves {sched : List Nat} (h : CrowdOn E secure calls log sched) (i : Nat) {mom : Nat → Nat} {a b : Nat}
    (hm : Moments mom a b) : Shelves (viewAt E secure calls sched i mom) := by
  refine ⟨fun n => ?_, fun n => ?_, (h.views i hm).mono⟩
  · exact (World.run_taller E (sched.take (mom n)) (World.new E secure calls)).2 (by simp [World.new, Store.empty])
  · obtain ⟨l, e⟩ := worldAt_split (E := E) (secure := secure) (calls := calls) (sched := sched) (hm.mono n)
    show KeysGrow (worldAt E secure calls sched (mom n)).store.kv (worldAt E secure calls sched (mom (n + 1))).store.kv
    rw [e]
    exact (World.run_taller E l _).1

section
variable {sec : Bool} {st : Nat → MPT} {e : Nat → Nat} {V : Nat → MPT}

/-- A proof with the nodes of one state and the root of another one: no trie accepts it. -/
theorem Views.poi_useless (h : Views E log sec st e V) {k now : Bytes} (hf : Fits E sec k) {q q' : Nat} (hq : q ≤ q')
    {p : Proof Bytes} {r : Bytes} (h4 : (st q).getPoi E now k = .ok p) (h5 : (st q').root = some r)
    (h6 : (st q).root ≠ some r) (hc : ∀ w ∈ log, ∀ v ∈ p.proof, E.keccak v = E.keccak w → v = w) (t : MPT) :
    t.verifyPoi E { p with trieRoot := r } ≠ .ok true := by
  intro ht
  obtain ⟨⟨a0, ha0, _⟩, hw0, hsec0, hg0⟩ := h.ok q
  obtain ⟨⟨a1, ha1, _⟩, hw1, hsec1, hg1⟩ := h.ok q'
  have hf' := fits_nibs (E := E) (t := st q) (k := k) (by rw [hsec0]; exact hf)
  have hne0 : a0 ≠ .empty := by
    rintro rfl
    have := ha0.getPoi_empty (h.log.mono hw0) now k
    rw [h4] at this
    exact (nomatch this)
  have hroot0 : (st q).root = some (T.ref E a0) := by
    rcases ha0.root with ⟨g, _⟩ | ⟨_, g⟩
    · exact absurd g hne0
    · exact g
  have hpf : ∃ l, p.proof = T.enc E a0 :: l := by
    have := ha0.getPoi (h.log.mono hw0) hne0 (now := now) hf'
    rw [h4] at this
    obtain ⟨l, hl0⟩ := T.trail_head (t := a0) (toNibs ((st q).keyOf E k))
    rw [hl0] at this
    split at this
    · exact (nomatch this)
    · injection this with this
      exact ⟨_, by rw [this]; rfl⟩
  obtain ⟨l, hpf⟩ := hpf
  have hr1 : a1 ≠ .empty ∧ r = T.ref E a1 := h.rooted hq (ha0.root_ne (h.log.mono hw0) hne0) h5 ha1
  have hacc : r = E.keccak (T.enc E a0) := by
    unfold MPT.verifyPoi at ht
    split at ht
    · exact (nomatch ht)
    split at ht
    · exact (nomatch ht)
    have hfst : pyIndex ({ p with trieRoot := r } : Proof Bytes).proof 0 = .ok (T.enc E a0) := by
      show pyIndex p.proof 0 = _
      rw [hpf]; rfl
    rw [hfst] at ht
    simp only [Except.bind_ok'] at ht
    split at ht
    · exact (nomatch ht)
    rename_i hh
    have hh : t.rootHash E = E.keccak (T.enc E a0) := Decidable.not_not.1 hh
    split at ht
    · exact (nomatch ht)
    · exact (nomatch ht)
    · rename_i ps _
      cases hv : MPT.verifyPoiAux ps E.limit (t.root.getD []) { data := p.targetKey } with
      | error er => rw [hv] at ht; exact (nomatch ht)
      | ok b =>
        rw [hv] at ht
        simp only [Except.bind_ok', Except.pure_ok', Except.ok.injEq, Bool.and_eq_true, beq_iff_eq] at ht
        rw [← hh, ht.2]
  have hk32 : (E.keccak (T.enc E a0)).length = 32 := E.keccak_len _
  rw [hr1.2, T.ref_of_ne hr1.1] at hacc
  split at hacc
  · rw [← hacc] at hk32; omega
  · rename_i hlen
    rcases ha1.stored.here hr1.1 with hs | ⟨hs, _⟩
    · exact hlen hs
    · have hmem := (hg1 _ _ hs).2.1
      have heq := hc _ hmem (T.enc E a0) (by rw [hpf]; exact List.mem_cons_self) hacc.symm
      apply h6
      rw [hroot0, hr1.2, T.ref_of_ne hne0, T.ref_of_ne hr1.1, heq]

theorem getPoi_root {t : MPT} {now k : Bytes} {p : Proof Bytes} (h : t.getPoi E now k = .ok p) :
    t.root = some p.trieRoot ∨ t.root = none := by
  unfold MPT.getPoi at h
  split at h
  · exact (nomatch h)
  · cases hr : t.root with
    | none => exact .inr rfl
    | some r =>
      rw [hr] at h
      simp only at h
      cases hl : MPT.getPoiAux t.store.kv E.limit ((some r).getD []) { data := t.keyOf E k } [] with
      | error er => rw [hl] at h; exact (nomatch h)
      | ok l =>
        rw [hl] at h
        injection h with h
        rw [← h]
        exact .inl rfl

/-- Proofs of inclusion, told apart. -/
theorem Views.poi_cases (h : Views E log sec st e V) {k : Bytes} (hf : Fits E sec k) (now : Bytes) {lo hi : Nat}
    (hb : ∀ n, lo ≤ e n ∧ e n ≤ hi) :
    (∃ q, lo ≤ q ∧ q ≤ hi ∧ watch V (MPT.getPoiCallP E now (storedKey E sec k)) = (st q).getPoi E now k) ∨
    (watch V (MPT.getPoiCallP E now (storedKey E sec k)) = .error .typeError ∧ ∃ q q', lo ≤ q ∧ q < q' ∧ q' ≤ hi ∧
      (st q).root ≠ none ∧ (st q').root = none) ∨
    (∃ q q' p r, lo ≤ q ∧ q < q' ∧ q' ≤ hi ∧ (st q).getPoi E now k = .ok p ∧ (st q').root = some r ∧
      (st q).root ≠ some r ∧ watch V (MPT.getPoiCallP E now (storedKey E sec k)) = .ok { p with trieRoot := r }) := by
  have lt : ∀ {q q' : Nat}, q ≤ q' → (st q).root ≠ (st q').root → q < q' :=
    fun {q q'} h1 h2 => (Nat.lt_or_eq_of_le h1).resolve_right fun e => h2 (by rw [e])
  rcases h.poi hf now hb with h1 | ⟨hx, q, q', h1, h2, h3, h4, h5⟩ | ⟨q, q', p, r, h1, h2, h3, h4, h5, hx⟩
  · exact .inl h1
  · exact .inr (.inl ⟨hx, q, q', h1, lt h2 (by rw [h5]; exact h4), h3, h4, h5⟩)
  · by_cases he : (st q).root = some r
    · refine .inl ⟨q, h1, Nat.le_trans h2 h3, ?_⟩
      have hp : p.trieRoot = r := by
        rcases getPoi_root h4 with g | g
        · rw [he] at g; injection g with g; exact g.symm
        · rw [he] at g; exact (nomatch g)
      subst hp
      exact hx.trans h4.symm
    · exact .inr (.inr ⟨q, q', p, r, h1, lt h2 (by rw [h5]; exact he), h3, h4, h5, he, hx⟩)

end

/-- The same root over more nodes. -/
theorem StOk.same {sec : Bool} {t t' : MPT} (h : StOk E log sec t) (h' : StOk E log sec t') (hL : LogOk E log)
    (hr : t'.root = t.root) {k : Bytes} (hf : Fits E sec k) : SameAnswers E t' t k := by
  cases hr0 : t.root with
  | none =>
    rw [hr0] at hr
    simp [SameAnswers, MPT.get, MPT.contains, MPT.getPoi, MPT.getPoe, MPT.rootFalsy, MPT.noRoot, hr, hr0]
  | some r =>
    obtain ⟨a, ha, _⟩ := h.bears
    obtain ⟨a', ha', _⟩ := h'.bears
    exact Alike.sameAnswers (a := a) (a' := a') ⟨hr, h'.sec.trans h.sec.symm, GS.agree h'.gs h.gs hL⟩ ha
      (hL.mono h.written) (by rw [h.sec]; exact hf) ha' (hL.mono h'.written) (by rw [hr0]; simp)
      (h'.gs.noEmpty hL) (h.gs.noEmpty hL)

section
variable {sec : Bool} {st : Nat → MPT} {e : Nat → Nat} {V : Nat → MPT}

/-- A proof of inclusion that comes out is that of a state, or useless. -/
theorem Views.harmless (h : Views E log sec st e V) {k : Bytes} (hf : Fits E sec k) {now : Bytes} {lo hi : Nat}
    (hb : ∀ n, lo ≤ e n ∧ e n ≤ hi) {p : Proof Bytes}
    (hp : watch V (MPT.getPoiCallP E now (storedKey E sec k)) = .ok p)
    (hc : ∀ w ∈ log, ∀ v ∈ p.proof, E.keccak v = E.keccak w → v = w) :
    (∃ q, lo ≤ q ∧ q ≤ hi ∧ (st q).getPoi E now k = .ok p) ∨ ∀ t : MPT, t.verifyPoi E p ≠ .ok true := by
  rcases h.poi_cases hf now hb with ⟨q, h1, h2, hx⟩ | ⟨hx, _⟩ | ⟨q, q', p0, r, h1, h2, h3, h4, h5, h6, hx⟩
  · exact .inl ⟨q, h1, h2, hx.symm.trans hp⟩
  · rw [hx] at hp; exact (nomatch hp)
  · rw [hx] at hp
    injection hp with hp
    subst hp
    exact .inr (h.poi_useless hf (Nat.le_of_lt h2) h4 h5 h6 hc)

/-- Proofs of exclusion, told apart. -/
theorem Views.poe_cases (h : Views E log sec st e V) {k : Bytes} (hf : Fits E sec k) (now : Bytes) {lo hi : Nat}
    (hb : ∀ n, lo ≤ e n ∧ e n ≤ hi) :
    let x := watch V (MPT.getPoeCallP E now (storedKey E sec k))
    (∃ q, lo ≤ q ∧ q ≤ hi ∧ x = (st q).getPoe E now k) ∨
    (x = .error .typeError ∧ ∃ q q', lo ≤ q ∧ q < q' ∧ q' ≤ hi ∧ (st q).root ≠ none ∧ (st q').root = none) ∨
    (∃ q q' q'' p r, lo ≤ q ∧ q ≤ q' ∧ q' < q'' ∧ q'' ≤ hi ∧ (st q').root ≠ (st q'').root ∧
      (st q).getPoe E now k = .ok p ∧ x = .ok { p with trieRoot := r }) ∨
    (∃ q q' p, lo ≤ q ∧ q < q' ∧ q' ≤ hi ∧ (st q).root ≠ (st q').root ∧ (st q).getPoe E now k = .ok p ∧
      x = .ok { p with trieRoot := (st q').rootHash E }) := by
  intro x
  have lt : ∀ {q q' : Nat}, q ≤ q' → (st q).root ≠ (st q').root → q < q' :=
    fun {q q'} h1 h2 => (Nat.lt_or_eq_of_le h1).resolve_right fun e => h2 (by rw [e])
  rcases h.poe hf now hb with
    h1 | ⟨hx, q, q', h1, h2, h3, h4, h5⟩ | ⟨q, q', p, h1, h2, h3, h4, hx⟩ |
      ⟨q, q'', q', p, b, c, r, h1, h2, h2', h3, h4, hb, hc, hr, hx⟩
  · exact .inl h1
  · exact .inr (.inl ⟨hx, q, q', h1, lt h2 (fun e => h4 (e.trans h5)), h3, h4, h5⟩)
  · by_cases he : (st q).root = (st q').root
    · refine .inl ⟨q, h1, Nat.le_trans h2 h3, ?_⟩
      have hr : (st q').rootHash E = p.trieRoot := by
        rw [getPoe_root h4]; unfold MPT.rootHash; rw [he]
      rw [hr] at hx
      exact hx.trans h4.symm
    · exact .inr (.inr (.inr ⟨q, q', p, h1, lt h2 he, h3, he, h4, hx⟩))
  · have hne : (st q'').root ≠ (st q').root := fun e => by
      have e := hb.symm.trans (e.trans hc)
      injection e with e
      rw [e] at hr
      rcases hr with ⟨g1, g2, _⟩ | ⟨g1, g2, _⟩
      · exact g2 g1
      · exact g1 g2
    exact .inr (.inr (.inl ⟨q, q'', q', p, r, h1, h2, lt h2' hne, h3, hne, h4, hx⟩))

/-- Proofs and verdicts while the root stays the same. -/
theorem Views.undisturbed (h : Views E log sec st e V) {a b : Nat} (hb : ∀ n, a ≤ e n ∧ e n ≤ b)
    (hs : ∀ n, Sub (st a).store (V n).store) (hr : ∀ q, a ≤ q → q ≤ b → (st q).root = (st a).root) :
    (∀ now k, Fits E sec k →
      watch V (MPT.getPoiCallP E now (storedKey E sec k)) = (st a).getPoi E now k ∧
      watch V (MPT.getPoeCallP E now (storedKey E sec k)) = (st a).getPoe E now k) ∧
    ∀ p, watch V (MPT.verifyPoiCallP E p) = (st a).verifyPoi E p ∧
      watch V (MPT.verifyPoeCallP E p) = (st a).verifyPoe E p := by
  have same : ∀ {q}, a ≤ q → q ≤ b → ∀ {k}, Fits E sec k → SameAnswers E (st q) (st a) k := fun {q} h1 h2 {k} hf =>
    (h.ok a).same (h.ok q) h.log (hr q h1 h2) hf
  refine ⟨fun now k hf => ⟨?_, ?_⟩, fun p => ?_⟩
  · rcases h.poi_cases hf now hb with
      ⟨q, h1, h2, hx⟩ | ⟨_, q, q', h1, h2, h3, h4, h5⟩ | ⟨q, q', p, r, h1, h2, h3, _, h5, h6, _⟩
    · exact hx.trans ((same h1 h2 hf).2.2.1 now)
    · exact absurd ((hr q h1 (by omega)).trans ((hr q' (by omega) h3).symm.trans h5)) h4
    · exact absurd ((hr q h1 (by omega)).trans ((hr q' (by omega) h3).symm.trans h5)) h6
  · rcases h.poe_cases hf now hb with
      ⟨q, h1, h2, hx⟩ | ⟨_, q, q', h1, h2, h3, h4, h5⟩ | ⟨q, q', q'', p, r, h1, h2, h3, h4, h5, _⟩ |
        ⟨q, q', p, h1, h2, h3, h4, _⟩
    · exact hx.trans ((same h1 h2 hf).2.2.2 now)
    · exact absurd ((hr q h1 (by omega)).trans ((hr q' (by omega) h3).symm.trans h5)) h4
    · exact absurd ((hr q' (by omega) (by omega)).trans (hr q'' (by omega) h4).symm) h5
    · exact absurd ((hr q h1 (by omega)).trans (hr q' (by omega) h3).symm) h4
  · have hr' : ∀ n, (V n).root = (st a).root := fun n => (h.root n).trans (hr _ (hb n).1 (hb n).2)
    have hnil : (st a).root ≠ some [] := (h.ok a).root_ne_nil
    constructor
    · unfold watch
      rw [still h.log (Roots.verifyPoiCall E p).quiet (Roots.verifyPoiCall E p).fine hr' hs h.gs 0,
        show (MPT.verifyPoiCallP E p).alone (st a) = _ from Reads.verifyPoiCall hnil p]
    · unfold watch
      rw [still h.log (Roots.verifyPoeCall E p).quiet (Roots.verifyPoeCall E p).fine hr' hs h.gs 0,
        show (MPT.verifyPoeCallP E p).alone (st a) = _ from Reads.verifyPoeCall hnil p]

end

/-- What an accepted walk says about the keys of a trie made by the calls. -/
theorem Made.accepts {i : Nat} {t : MPT} (h : Made E calls i t) (hl : LogOk E t.store.written) {k : Bytes}
    (hacc : ∀ a, T.Holds E t a → a ≠ .empty ∧ T.Accepts (T.seek a (toNibs k)).1 (T.seek a (toNibs k)).2) :
    ∃ ops, FromCalls calls i ops ∧ ReadsAs E t ops ∧ ∃ e, Present E t.secure ops e ∧ k <+: e := by
  obtain ⟨ops, h1, h2⟩ := h
  obtain ⟨hne, hacc⟩ := hacc _ h2.holds
  obtain ⟨q, w, h3, h4⟩ := T.Full.accepts_prefix h2.full hne hacc
  obtain ⟨e, he, rfl⟩ := T.grow_sub h3
  exact ⟨ops, h1, h2.reads hl, _, ⟨e, by rw [he]; simp, rfl⟩, toNibs_prefix.1 h4⟩

end Pymt
