import Verif.Spec.Backend
import Verif.Lemmas.Peace
import Verif.Lemmas.Interrupt
import Verif.Lemmas.WatchProofs

/-!
# Tries over storages that are not dicts
-/

namespace Pymt

variable {ε : Type} {B : Backend ε} {view : B.σ → Bytes → Option Bytes} {E : Env} {α : Type}

/-- Over a faithful storage a program does what it does over a dict. -/
theorem Prog.against_faithful (hB : B.Faithful view) (p : Prog α) (o : BackTrie B) (t : MPT)
    (hr : o.root = t.root) (hv : ∀ k, view o.st k = dget t.store.kv k) :
    (p.against o).1 = .ok (p.alone t).1 ∧ (p.against o).2.root = (p.alone t).2.root ∧
      (p.against o).2.secure = o.secure ∧ ∀ k, view (p.against o).2.st k = dget (p.alone t).2.store.kv k := by
  induction p generalizing o t with
  | done r => exact ⟨rfl, hr, rfl, hv⟩
  | load k p ih =>
    have h1 := hB.get k o.st
    have h2 := hB.get_view k o.st
    rw [hv] at h1
    simp only [against, alone]
    generalize B.getItem k o.st = x at h1 h2
    obtain ⟨x, s⟩ := x
    simp only at h1 h2
    subst h1
    cases e : dget t.store.kv k with
    | none => exact ⟨rfl, hr, rfl, fun k => by simp only [h2]; exact hv k⟩
    | some v => exact ih v { o with st := s } t hr fun k => by simp only [h2]; exact hv k
  | save k v p ih =>
    have h1 := hB.set k v o.st
    have h2 := hB.set_view k v o.st
    simp only [against, alone]
    generalize B.setItem k v o.st = x at h1 h2
    obtain ⟨x, s⟩ := x
    simp only at h1 h2
    subst h1
    refine ih { o with st := s, written := o.written ++ [v] } _ hr fun k' => ?_
    rw [h2, Store.dget_set, hv]
  | root p ih =>
    simp only [against, alone]
    rw [hr]
    exact ih _ o t hr hv
  | setRoot r p ih => exact ih { o with root := r } _ rfl hv

theorem BackTrie.calls_faithful (hB : B.Faithful view) (l : List Call) (o : BackTrie B) (t : MPT)
    (hr : o.root = t.root) (hs : o.secure = t.secure) (hv : ∀ k, view o.st k = dget t.store.kv k) :
    (o.calls E l).1 = (Call.seqAll E l t).1.map .ok ∧ (o.calls E l).2.root = (Call.seqAll E l t).2.root ∧
      ∀ k, view (o.calls E l).2.st k = dget (Call.seqAll E l t).2.store.kv k := by
  induction l generalizing o t with
  | nil => exact ⟨rfl, hr, hv⟩
  | cons c l ih =>
    obtain ⟨h1, h2, h3, h4⟩ := Prog.against_faithful hB (c.prog E o.secure) o t hr hv
    have hsec : ((c.prog E o.secure).alone t).2.secure = t.secure := Prog.alone_secure _ _
    rw [hs] at h1 h2 h3 h4 hsec
    rw [Call.prog_alone] at h1 h2 h4 hsec
    simp only [calls, call, Call.seqAll]
    rw [hs]
    obtain ⟨i1, i2, i3⟩ := ih ((c.prog E t.secure).against o).2 (c.seq E t).2 h2 (h3.trans hsec.symm) h4
    exact ⟨by rw [i1, h1]; rfl, i2, i3⟩

/-- What the storage has of a trie: everything, and more nodes perhaps. -/
structure Behind (E : Env) (L : List Bytes) (view : B.σ → Bytes → Option Bytes) (o : BackTrie B) (t : MPT) : Prop where
  sub : ∀ k v, dget t.store.kv k = some v → view o.st k = some v
  good : ∀ k v, view o.st k = some v → k = E.keccak v ∧ v ∈ L ∧ 32 ≤ v.length

theorem Behind.noEmpty {L : List Bytes} {o : BackTrie B} {t : MPT} (h : Behind E L view o t) (hL : LogOk E L) :
    view o.st (emptyHash E) = none := by
  cases e : view o.st (emptyHash E) with
  | none => rfl
  | some v =>
    obtain ⟨e1, e2, e3⟩ := h.good _ _ e
    exact absurd e3 (by
      have := hL.coll (Item.encode (.str [])) (by simp) v (by simp [e2]) e1
      rw [← this]; decide)

theorem Behind.same {L : List Bytes} {o o' : BackTrie B} {t : MPT} (h : Behind E L view o t)
    (e : view o'.st = view o.st) : Behind E L view o' t :=
  ⟨fun k v hk => by rw [e]; exact h.sub k v hk, fun k v hk => h.good k v (by rw [← e]; exact hk)⟩

/-- After a write, whether it is carried out or not. -/
theorem Behind.write (hB : B.Loyal view) {L : List Bytes} (hL : LogOk E L) {o : BackTrie B} {t : MPT}
    (h : Behind E L view o t) {v : Bytes} (hv : v ∈ L) (hlen : 32 ≤ v.length) {o' : BackTrie B}
    (ho : o'.st = (B.setItem (E.keccak v) v o.st).2) :
    Behind E L view o' t ∧ (view o'.st (E.keccak v) ≠ none →
      Behind E L view o' { t with store := t.store.set (E.keccak v) v }) := by
  have old : ∀ w, view o.st (E.keccak v) = some w → w = v := fun w hw => by
    obtain ⟨e1, e2, _⟩ := h.good _ _ hw
    exact hL.coll w (List.mem_cons_of_mem _ e2) v (List.mem_cons_of_mem _ hv) e1.symm
  have new : ∀ w, view o'.st (E.keccak v) = some w → w = v := fun w hw => by
    rw [ho] at hw
    rcases hB.set_view (E.keccak v) v o.st with e | e
    · rw [e] at hw; injection hw with hw; exact hw.symm
    · rw [e] at hw; exact old w hw
  have keep : ∀ w, view o.st (E.keccak v) = some w → view o'.st (E.keccak v) = some w := fun w hw => by
    rw [ho]
    rcases hB.set_view (E.keccak v) v o.st with e | e
    · rw [e, old w hw]
    · rw [e]; exact hw
  have other : ∀ k, k ≠ E.keccak v → view o'.st k = view o.st k := fun k hk => by
    rw [ho]; exact hB.set_other _ _ _ _ hk
  have good : ∀ k w, view o'.st k = some w → k = E.keccak w ∧ w ∈ L ∧ 32 ≤ w.length := fun k w hw => by
    by_cases hk : k = E.keccak v
    · subst hk
      have := new w hw
      subst this
      exact ⟨rfl, hv, hlen⟩
    · exact h.good k w (by rw [← other k hk]; exact hw)
  have sub : ∀ k w, dget t.store.kv k = some w → view o'.st k = some w := fun k w hw => by
    by_cases hk : k = E.keccak v
    · subst hk; exact keep w (h.sub _ _ hw)
    · rw [other k hk]; exact h.sub k w hw
  refine ⟨⟨sub, good⟩, fun hn => ⟨fun k w hw => ?_, good⟩⟩
  rw [Store.dget_set] at hw
  by_cases hk : k = E.keccak v
  · subst hk
    rw [if_pos rfl] at hw
    injection hw with hw
    subst hw
    cases e : view o'.st (E.keccak v) with
    | none => exact absurd e hn
    | some w => rw [new w e]
  · rw [if_neg hk] at hw; exact sub k w hw

theorem Prog.against_written (p : Prog α) (o : BackTrie B) : ∃ ws, (p.against o).2.written = o.written ++ ws := by
  induction p generalizing o with
  | done r => exact ⟨[], by simp [against]⟩
  | load k p ih =>
    simp only [against]
    generalize B.getItem k o.st = x
    obtain ⟨x, s⟩ := x
    match x with
    | .ok (some v) => exact ih v { o with st := s }
    | .ok none => exact ⟨[], by simp⟩
    | .error e => exact ⟨[], by simp⟩
  | save k v p ih =>
    simp only [against]
    generalize B.setItem k v o.st = x
    obtain ⟨x, s⟩ := x
    match x with
    | .ok _ =>
      obtain ⟨ws, h⟩ := ih { o with st := s, written := o.written ++ [v] }
      exact ⟨v :: ws, by simp only [h]; simp⟩
    | .error e => exact ⟨[v], rfl⟩
  | root p ih => exact ih _ o
  | setRoot r p ih => exact ih { o with root := r }

theorem Prog.against_secure (p : Prog α) (o : BackTrie B) : (p.against o).2.secure = o.secure := by
  induction p generalizing o with
  | done r => rfl
  | load k p ih =>
    simp only [against]
    generalize B.getItem k o.st = x
    obtain ⟨x, s⟩ := x
    match x with
    | .ok (some v) => exact ih v { o with st := s }
    | .ok none => rfl
    | .error e => rfl
  | save k v p ih =>
    simp only [against]
    generalize B.setItem k v o.st = x
    obtain ⟨x, s⟩ := x
    match x with
    | .ok _ => exact ih { o with st := s, written := o.written ++ [v] }
    | .error e => rfl
  | root p ih => exact ih _ o
  | setRoot r p ih => exact ih { o with root := r }

theorem Behind.unset {L : List Bytes} (hL : LogOk E L) {o o' : BackTrie B} {t : MPT} {v : Bytes} (hv : v ∈ L)
    (hb : Behind E L view o t) (h : Behind E L view o' { t with store := t.store.set (E.keccak v) v }) :
    Behind E L view o' t := by
  refine ⟨fun k w hk => h.sub k w ?_, h.good⟩
  simp only
  rw [Store.dget_set]
  split
  · rename_i ek
    subst ek
    obtain ⟨e1, e2, _⟩ := hb.good _ _ (hb.sub _ _ hk)
    rw [hL.coll w (List.mem_cons_of_mem _ e2) v (List.mem_cons_of_mem _ hv) e1.symm]
  · exact hk

/-- When the storage raises, the program has written nodes, and nothing else. -/
theorem Prog.against_raise (hB : B.Loyal view) {L : List Bytes} (hL : LogOk E L) (p : Prog α) (hp : p.Plain E)
    (o : BackTrie B) (t : MPT) (hb : Behind E L view o t) (hw : ∀ w ∈ (p.against o).2.written, w ∈ L) {e : ε}
    (he : (p.against o).1 = .error e) :
    (p.against o).2.root = o.root ∧ Behind E L view (p.against o).2 t := by
  induction p generalizing o t with
  | done r => exact (nomatch he)
  | load k p ih =>
    have h2 := hB.get_view k o.st
    simp only [against] at he hw ⊢
    generalize B.getItem k o.st = x at h2 hw he
    obtain ⟨x, s⟩ := x
    simp only at h2 hw he
    match x with
    | .error e => exact ⟨rfl, hb.same h2⟩
    | .ok none => exact (nomatch he)
    | .ok (some v) => exact ih v (hp v) { o with st := s } t (hb.same h2) hw he
  | save k v p ih =>
    obtain ⟨hk, hlen, hp⟩ := hp
    subst hk
    have h1 := hB.set (E.keccak v) v o.st
    simp only [against] at hw he ⊢
    cases ex : B.setItem (E.keccak v) v o.st with
    | mk x s =>
      rw [ex] at h1 hw he
      simp only at h1 hw he ⊢
      match x with
      | .error e =>
        have hv : v ∈ L := hw v (by simp)
        exact ⟨rfl, (hb.write hB hL hv hlen (o' := { o with st := s, written := o.written ++ [v] }) (by rw [ex])).1⟩
      | .ok _ =>
        have hv : v ∈ L := hw v (by
          obtain ⟨ws, h⟩ := p.against_written { o with st := s, written := o.written ++ [v] }
          simp only at h ⊢
          rw [h]; simp)
        exact ih hp { o with st := s, written := o.written ++ [v] } t
          (hb.write hB hL hv hlen (o' := { o with st := s, written := o.written ++ [v] }) (by rw [ex])).1 hw he
  | root p ih => exact ih _ (hp _) o t hb hw he
  | setRoot r p ih =>
    obtain ⟨x, rfl⟩ := hp
    exact (nomatch he)

/-- Over a loyal storage that does not raise a program does what it does over a dict. -/
theorem Prog.against_loyal (hB : B.Loyal view) {L : List Bytes} (hL : LogOk E L) (p : Prog α) (hp : p.Plain E)
    (o : BackTrie B) (t : MPT) (hf : p.Fine E t) (hr : o.root = t.root) (hb : Behind E L view o t)
    (hw : ∀ w ∈ (p.against o).2.written, w ∈ L) {r : Py α} (he : (p.against o).1 = .ok r) :
    r = (p.alone t).1 ∧ (p.against o).2.root = (p.alone t).2.root ∧ Behind E L view (p.against o).2 (p.alone t).2 := by
  induction p generalizing o t with
  | done r => injection he with he; exact ⟨he.symm, hr, hb⟩
  | load k p ih =>
    have h1 := hB.get k o.st
    have h2 := hB.get_view k o.st
    simp only [against, alone, Fine] at hf hw he ⊢
    generalize B.getItem k o.st = x at h1 h2 hw he
    obtain ⟨x, s⟩ := x
    simp only at h1 h2 hw he
    match x with
    | .error e => exact (nomatch he)
    | .ok y =>
      have := h1 y rfl
      subst this
      cases e : dget t.store.kv k with
      | none =>
        rw [e] at hf
        simp only at hf
        rw [hf, hb.noEmpty hL] at he ⊢
        injection he with he
        exact ⟨he.symm, hr, hb.same h2⟩
      | some v =>
        rw [e] at hf
        rw [hb.sub _ _ e] at hw he ⊢
        exact ih v (hp v) { o with st := s } t hf hr (hb.same h2) hw he
  | save k v p ih =>
    obtain ⟨hk, hlen, hp⟩ := hp
    subst hk
    have h1 := hB.set (E.keccak v) v o.st
    simp only [against, alone, Fine] at hf hw he ⊢
    cases ex : B.setItem (E.keccak v) v o.st with
    | mk x s =>
      rw [ex] at h1 hw he
      simp only at h1 hw he ⊢
      match x with
      | .error e => exact (nomatch he)
      | .ok _ =>
        have hv : v ∈ L := hw v (by
          obtain ⟨ws, h⟩ := p.against_written { o with st := s, written := o.written ++ [v] }
          simp only at h ⊢
          rw [h]; simp)
        have hb' := (hb.write hB hL hv hlen (o' := { o with st := s, written := o.written ++ [v] })
          (by rw [ex])).2 (h1 rfl)
        exact ih hp { o with st := s, written := o.written ++ [v] } _ hf hr hb' hw he
  | root p ih =>
    simp only [against, alone, Fine] at hf hw he ⊢
    rw [hr] at hw he ⊢
    exact ih _ (hp _) o t hf hr hb hw he
  | setRoot r p ih =>
    obtain ⟨x, rfl⟩ := hp
    injection he with he
    exact ⟨he.symm, rfl, ⟨hb.sub, hb.good⟩⟩

theorem Call.seqAll_writes (l : List Call) (t : MPT) :
    ∃ ws, (seqAll E l t).2.store = replay E ws t.store := by
  induction l generalizing t with
  | nil => exact ⟨[], rfl⟩
  | cons c l ih =>
    obtain ⟨ws, h⟩ : ∃ ws, (c.seq E t).2.store = replay E ws t.store := by
      cases c with
      | update k v => exact exec_writes E (.update k v) t
      | delete k => exact exec_writes E (.delete k) t
      | get k => exact ⟨[], rfl⟩
      | contains k => exact ⟨[], rfl⟩
    obtain ⟨ws', h'⟩ := ih (c.seq E t).2
    exact ⟨ws ++ ws', by rw [replay_append, ← h]; exact h'⟩

theorem BackTrie.calls_written (l : List Call) (o : BackTrie B) :
    ∃ ws, (o.calls E l).2.written = o.written ++ ws := by
  induction l generalizing o with
  | nil => exact ⟨[], by simp [calls]⟩
  | cons c l ih =>
    obtain ⟨ws, h⟩ := (c.prog E o.secure).against_written o
    obtain ⟨ws', h'⟩ := ih (o.call E c).2
    refine ⟨ws ++ ws', ?_⟩
    simp only [calls]
    rw [h', show (o.call E c).2.written = o.written ++ ws from h, List.append_assoc]

/-- Calls over a loyal storage. -/
theorem BackTrie.calls_loyal (hB : B.Loyal view) {L : List Bytes} (hL : LogOk E L) (l : List Call) (o : BackTrie B)
    (t : MPT) (a : T) (ha : Bears E t a) (hf : ∀ c ∈ l, Fits E t.secure c.key) (hr : o.root = t.root)
    (hs : o.secure = t.secure) (hb : Behind E L view o t) (hg : GS E L t.store)
    (ht : ∀ w ∈ (Call.seqAll E (completedCalls l (o.calls E l).1) t).2.store.written, w ∈ L)
    (hw : ∀ w ∈ (o.calls E l).2.written, w ∈ L) :
    completed (o.calls E l).1 = (Call.seqAll E (completedCalls l (o.calls E l).1) t).1 ∧
      (o.calls E l).2.root = (Call.seqAll E (completedCalls l (o.calls E l).1) t).2.root ∧
      (o.calls E l).2.secure = t.secure ∧ (Call.seqAll E (completedCalls l (o.calls E l).1) t).2.secure = t.secure ∧
      Behind E L view (o.calls E l).2 (Call.seqAll E (completedCalls l (o.calls E l).1) t).2 ∧
      GS E L (Call.seqAll E (completedCalls l (o.calls E l).1) t).2.store ∧
      ∃ b, Bears E (Call.seqAll E (completedCalls l (o.calls E l).1) t).2 b := by
  induction l generalizing o t a with
  | nil => exact ⟨rfl, hr, hs, rfl, hb, hg, a, ha⟩
  | cons c l ih =>
    have hsec : (o.call E c).2.secure = t.secure := (Prog.against_secure _ _).trans hs
    have hplain := Prog.plain_call E o.secure c
    have hw' : ∀ w ∈ (o.call E c).2.written, w ∈ L := fun w h => hw w (by
      obtain ⟨ws, e⟩ := calls_written (E := E) l (o.call E c).2
      simp only [calls]
      rw [e]; exact List.mem_append_left _ h)
    simp only [calls, completed, completedCalls, List.zip_cons_cons, List.filterMap_cons] at ht hw ⊢
    cases hc : (o.call E c).1 with
    | error e =>
      obtain ⟨r1, r2⟩ := Prog.against_raise hB hL _ hplain o t hb hw' hc
      rw [hc] at ht
      exact ih (o.call E c).2 t a ha (fun c h => hf c (List.mem_cons_of_mem _ h)) (r1.trans hr) hsec r2 hg ht hw
    | ok r =>
      rw [hc] at ht
      simp only [Except.toOption, Option.map_some, Call.seqAll] at ht ⊢
      have hfc := hf c List.mem_cons_self
      have hlog : LogOk E (c.seq E t).2.store.written :=
        log_of_replay (Call.seqAll_writes _ _) (hL.mono ht)
      have hfine := fine_call ha hL hg hfc hlog
      have hsecure : (c.seq E t).2.secure = t.secure := by
        rw [← Call.prog_alone]; exact Prog.alone_secure _ _
      have hstep := Prog.against_loyal hB hL _ hplain o t (by rw [hs]; exact hfine) hr hb hw' hc
      rw [hs, Call.prog_alone] at hstep
      have hgs : GS E L (c.seq E t).2.store := by
        rw [← Call.prog_alone]
        refine Prog.alone_gs _ _ (Prog.plain_call E _ c) hg fun w h => ht w ?_
        obtain ⟨ws, e⟩ := Call.seqAll_writes (E := E) (completedCalls l ((o.call E c).2.calls E l).1) (c.seq E t).2
        have e' : ((c.prog E t.secure).alone t).2.store.written = _ := Prog.alone_written _ t
        rw [Call.prog_alone] at e'
        change w ∈ (Call.seqAll E (completedCalls l ((o.call E c).2.calls E l).1) (c.seq E t).2).2.store.written
        rw [e, replay_written, e']
        exact List.mem_append_left _ (List.mem_append_right _ h)
      have hbear : ∃ b, Bears E (c.seq E t).2 b := by
        rw [Call.seq_exec]
        exact ⟨_, ha.run (fun op ho => by
          rw [Attempt.key_of_op (c := c) (by simpa using ho)]; exact hfc) (by rw [← Call.seq_exec]; exact hlog)⟩
      obtain ⟨b, hbear⟩ := hbear
      obtain ⟨i1, i2, i3, i4, i5⟩ := ih (o.call E c).2 (c.seq E t).2 b hbear
        (fun c h => by rw [hsecure]; exact hf c (List.mem_cons_of_mem _ h))
        (by rw [call, hs]; exact hstep.2.1) (hsec.trans hsecure.symm) (by rw [call, hs]; exact hstep.2.2) hgs ht hw
      exact ⟨by rw [hstep.1]; exact congrArg _ i1, i2, i3.trans hsecure, i4.trans hsecure, i5⟩

namespace Prog

theorem Quiet.poiCall (E : Env) (now k : Bytes) : (MPT.getPoiCallP E now k).Quiet := by
  unfold MPT.getPoiCallP
  refine (Quiet.noRoot E).bind fun no => ?_
  split
  · exact Quiet.raise _
  · refine Quiet.getRoot.bind fun r => (Loads.poi _ _ _ _).quiet.bind fun l => Quiet.getRoot.bind fun r => ?_
    cases r <;> trivial

theorem Quiet.poeCall (E : Env) (now k : Bytes) : (MPT.getPoeCallP E now k).Quiet := by
  unfold MPT.getPoeCallP
  refine (Quiet.noRoot E).bind fun no => ?_
  split
  · exact Quiet.raise _
  · refine (Quiet.containsCall E k).bind fun b => ?_
    split
    · exact Quiet.raise _
    · refine Quiet.getRoot.bind fun r => (Loads.poe _ _ _ _).quiet.bind fun x => (Quiet.lift _).bind fun _ =>
        (Quiet.lift _).bind fun _ => (Roots.rootHash E).quiet.bind fun h => ?_
      cases h <;> trivial

theorem Reads.poeCall {E : Env} {t : MPT} (hnil : t.root ≠ some []) (now k : Bytes) :
    Reads t (MPT.getPoeCallP E now (t.keyOf E k)) (t.getPoe E now k) := by
  unfold MPT.getPoeCallP MPT.getPoe Reads
  rw [alone_bind, show (MPT.noRootP E).alone t = (.ok (t.noRoot E), t) from Reads.noRoot E]
  simp only
  cases hn : t.noRoot E with
  | true => rfl
  | false =>
    obtain ⟨r, hr⟩ : ∃ r, t.root = some r := by
      cases h : t.root with
      | none => simp [MPT.noRoot, h] at hn
      | some r => exact ⟨r, rfl⟩
    simp only [Bool.false_eq_true, if_false]
    rw [alone_bind, show (MPT.containsCallP E _).alone t = (_, t) from Reads.containsCall E k]
    cases t.contains E k with
    | error e => rfl
    | ok b =>
      simp only [Except.bind_ok']
      cases b with
      | true => rfl
      | false =>
        simp only [Bool.false_eq_true, if_false]
        rw [alone_bind, show Prog.getRoot.alone t = (.ok t.root, t) from rfl, hr]
        simp only [Option.getD_some]
        rw [alone_bind, show (MPT.poeP E.limit (some r) _ []).alone t = (_, t) from poe _ _ _ _]
        cases MPT.getPoeAux t.store.kv E.limit r ⟨t.keyOf E k, 0⟩ [] with
        | error e => rfl
        | ok x =>
          obtain ⟨node, l, path⟩ := x
          simp only [Except.bind_ok']
          rw [alone_bind]
          cases Node.encode (.leaf path MPT.nullBytes) with
          | error e => rfl
          | ok nl =>
            simp only [Prog.lift, alone, Except.bind_ok']
            rw [alone_bind]
            have hh : (MPT.rootHashP E).alone t = _ := Reads.rootHash (E := E) hnil
            cases node with
            | ext p q =>
              simp only [MPT.notThere, alone]
              rw [alone_bind, hh]; rfl
            | branch bs d =>
              simp only [MPT.notThere, alone]
              by_cases hd : d ≠ []
              · rw [if_pos hd, if_pos hd]
              · rw [if_neg hd, if_neg hd]
                simp only
                rw [alone_bind, hh]; rfl
            | leaf p d =>
              simp only [MPT.notThere, alone]
              cases p.eq path with
              | error e => rfl
              | ok same =>
                simp only [Except.bind_ok']
                cases same with
                | true => rfl
                | false =>
                  simp only [Bool.false_eq_true, if_false]
                  rw [alone_bind, hh]; rfl

end Prog

theorem Bears.root_ne_nil {t : MPT} {a : T} (h : Bears E t a) : t.root ≠ some [] := by
  intro hq
  rcases h.holds.root with ⟨_, h2 | h2⟩ | ⟨h2, h3⟩
  · rw [hq] at h2; exact (nomatch h2)
  · rw [hq] at h2
    have e32 : (emptyHash E).length = 32 := E.keccak_len _
    injection h2 with h2
    rw [← h2] at e32
    simp at e32
  · rw [hq] at h3
    injection h3 with h3
    have := (T.ref_length_pos (E := E)).2 (T.Holds.isEmpty_false h2)
    rw [← h3] at this
    simp at this

/-- The calls of a history over a new storage, and the same calls, without those that the storage ended, over a dict. -/
theorem BackTrie.calls_new {secure : Bool} {calls : List Call} {s : B.σ} (hB : B.Loyal view)
    (h0 : ∀ k, view s k = none) (hf : ∀ c ∈ calls, Fits E secure c.key) {r : List (Except ε (Py Ans)) × BackTrie B}
    {d : List (Py Ans) × MPT}
    (hl : LogOk E (r.2.written ++ d.2.store.written))
    (hr : r = (BackTrie.new (B := B) E s secure).calls E calls := by rfl)
    (hd : d = Call.seqAll E (completedCalls calls r.1) (MPT.new E secure) := by rfl) :
    completed r.1 = d.1 ∧ r.2.root = d.2.root ∧ r.2.secure = secure ∧ d.2.secure = secure ∧
      Behind E (r.2.written ++ d.2.store.written) view r.2 d.2 ∧
      GS E (r.2.written ++ d.2.store.written) d.2.store ∧ ∃ b, Bears E d.2 b := by
  subst hr
  subst hd
  exact BackTrie.calls_loyal (E := E) hB hl calls (BackTrie.new E s secure) (MPT.new E secure) .empty (Bears.new E secure)
    hf rfl rfl ⟨fun k v h => by simp [MPT.new, MPT.init, Store.empty, dget] at h, fun k v h => by
      rw [BackTrie.new] at h; simp [h0] at h⟩ (GS.empty E _) (fun w h => List.mem_append_right _ h)
    (fun w h => List.mem_append_left _ h)

end Pymt
