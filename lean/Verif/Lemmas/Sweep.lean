import Verif.Spec.Sweep
import Verif.Lemmas.Collect
import Verif.Lemmas.Crowd
import Verif.Lemmas.Readers

/-!
# Removing nodes from a dict that threads use
-/

namespace Pymt

/-- Over a smaller storage a program saves nothing else. -/
theorem Prog.writes_less {α : Type} (p : Prog α) (t : MPT) (s : Store) (hs : Sub s t.store) :
    ∀ x ∈ p.writes { t with store := s }, x ∈ p.writes t := by
  induction p generalizing t s with
  | done r => intro x hx; exact hx
  | load k n ih =>
    intro x hx
    simp only [writes] at hx ⊢
    cases e : dget s.kv k with
    | none => rw [e] at hx; exact (nomatch hx)
    | some v =>
      rw [e] at hx
      rw [hs _ _ e]
      exact ih v t s hs x hx
  | save k v n ih =>
    intro x hx
    rcases List.mem_cons.1 hx with rfl | hx
    · exact List.mem_cons_self
    · exact List.mem_cons_of_mem _ (ih { t with store := t.store.set k v } (s.set k v) (hs.set k v) x hx)
  | root n ih => exact ih _ t s hs
  | setRoot r n ih => exact ih { t with root := r } s hs

/-- Where a call that reads a trie may be: whatever it asks for is there, or is the hash of the empty node. -/
inductive Safe (E : Env) (sec : Bool) (c : Call) (S : Store) : Prog Ans → Prop
  | begin : Safe E sec c S (c.prog E sec)
  | checked : Safe E sec c S (.root (c.second E sec))
  | walk (p : Prog Ans) (h : p.Walk E True (fun _ => True) S) : Safe E sec c S p

section
variable {E : Env} {secure : Nat → Bool} {calls : Nat → List (Nat × Call)} {log : List Bytes} {c : Call}
  {S : Store} {sec : Bool}

theorem Safe.grow {p : Prog Ans} {S' : Store} (hL : LogOk E log) (h : Safe E sec c S p) (hs : Sub S S')
    (hg : GS E log S') : Safe E sec c S' p := by
  cases h with
  | begin => exact .begin
  | checked => exact .checked
  | walk _ h => exact .walk _ (h.grow hL hs hg fun _ h => h)

theorem Prog.Walk.loose {esc : Prop} {fin : Py Ans → Prop} {p : Prog Ans} (h : Walk E esc fin p S) :
    Walk E True (fun _ => True) p S := by
  induction p with
  | done x => trivial
  | load k n ih =>
    simp only [Walk] at h ⊢
    cases e : dget S.kv k with
    | none => rw [e] at h; exact ⟨h.1, trivial⟩
    | some v => rw [e] at h; exact ih v h
  | save k v n ih => exact h.elim
  | root n ih =>
    intro r
    rcases h r with ⟨h1, _, h3⟩ | h
    · exact .inl ⟨h1, trivial, h3⟩
    · exact .inr (ih r h)
  | setRoot r n ih => exact h.elim

theorem Safe.ofLoad {k : Bytes} {n : Bytes → Prog Ans} (h : Safe E sec c S (.load k n)) (hc : c.op? = none) :
    (∀ v, dget S.kv k = some v → Safe E sec c S (n v)) ∧ (dget S.kv k = none → k = emptyHash E) := by
  generalize hp : Prog.load k n = p at h
  cases h with
  | begin => rw [Call.prog_read hc] at hp; exact (nomatch hp)
  | checked => exact (nomatch hp)
  | walk _ h =>
    subst hp
    simp only [Prog.Walk] at h
    constructor
    · intro v e; rw [e] at h; exact .walk _ h
    · intro e; rw [e] at h; exact h.1

theorem Safe.noSave {k v : Bytes} {n : Prog Ans} (hc : c.op? = none) : ¬ Safe E sec c S (.save k v n) := by
  intro h
  generalize hp : Prog.save k v n = p at h
  cases h with
  | begin => rw [Call.prog_read hc] at hp; exact (nomatch hp)
  | checked => exact (nomatch hp)
  | walk _ h => subst hp; exact h

theorem Safe.noSet {r : Option Bytes} {n : Prog Ans} (hc : c.op? = none) : ¬ Safe E sec c S (.setRoot r n) := by
  intro h
  generalize hp : Prog.setRoot r n = p at h
  cases h with
  | begin => rw [Call.prog_read hc] at hp; exact (nomatch hp)
  | checked => exact (nomatch hp)
  | walk _ h => subst hp; exact h

/-- `contains` that found no root, or that of a new trie, on its second look. -/
theorem walk_vacant {k : Bytes} (hL : LogOk E log) (hg : GS E log S) (hlim : 0 < E.limit) {R : Option Bytes}
    (hR : R = none ∨ R = some (emptyHash E)) :
    ((Call.contains k).second E sec R).Walk E True (fun _ => True) S := by
  rcases hR with rfl | rfl
  · exact (walk_none (fin := fun _ => True) hlim trivial).loose
  · obtain ⟨f, hf⟩ : ∃ f, E.limit = f + 1 := ⟨E.limit - 1, by omega⟩
    unfold Call.second
    simp only
    rw [hf]
    unfold MPT.containsP
    have e32 : (emptyHash E).length = 32 := E.keccak_len _
    intro r
    cases r with
    | none => exact .inl ⟨.inl rfl, trivial, rfl⟩
    | some r =>
      right
      intro r'
      by_cases h : r' = some (emptyHash E)
      · subst h
        left
        refine ⟨.inr rfl, trivial, ?_⟩
        simp [Pure.pure, Prog.bind, bind]
        rfl
      · right
        have : (r' == some (emptyHash E)) = false := beq_eq_false_iff_ne.2 h
        simp only [bind, Prog.bind, Pure.pure, this, MPT.getNodeP, MPT.rawP, e32, if_true, Prog.loadItem, Bool.false_eq_true, if_false]
        unfold Prog.Walk
        rw [hg.noEmpty hL]
        exact ⟨rfl, trivial⟩

/-- Reading the root of a trie that is complete. -/
theorem Safe.ofRoot {n : Option Bytes → Prog Ans} {t : MPT} {a : T} (hL : LogOk E log) (hb : Bears E t a)
    (hw : ∀ w ∈ t.store.written, w ∈ log) (hsec : t.secure = sec) (hg : GS E log t.store) (hc : c.op? = none)
    (hf : Fits E sec c.key) (h : Safe E sec c t.store (.root n)) : Safe E sec c t.store (n t.root) := by
  have hlim : 0 < E.limit := by unfold Fits at hf; omega
  have hf' : Fits E t.secure c.key := by rw [hsec]; exact hf
  generalize hpr : Prog.root n = p at h
  cases h with
  | begin =>
    rw [Call.prog_read hc] at hpr
    injection hpr with hpr
    subst hpr
    simp only
    split
    · exact .walk _ trivial
    · exact .checked
  | checked =>
    injection hpr with hpr
    subst hpr
    have walk : t.root ≠ none → ((∃ k, c = .contains k) → t.root ≠ some (emptyHash E)) →
        Safe E sec c t.store (c.second E sec t.root) := by
      intro h0 h3
      have hne : t.root.getD [] ≠ [] := by
        rcases hb.holds.root with ⟨_, e | e⟩ | ⟨e1, e2⟩
        · exact absurd e h0
        · rw [e]; exact T.emptyHash_ne_nil E
        · rw [e2]; exact T.ref_ne_nil e1
      have hfine := fine_second hc hne (fine_call hb hL hg hf'
        (by
          have : (c.seq E t).2 = t := by
            cases c with
            | update => exact (nomatch hc)
            | delete => exact (nomatch hc)
            | get => rfl
            | contains => rfl
          rw [this]; exact hL.mono hw))
      rw [hsec] at hfine
      exact .walk _ (Prog.walk_of_watch (esc := ∃ k, c = .contains k)
        (watch_second (sec := sec) hc fun hk => ⟨h0, h3 hk⟩) hfine).loose
    by_cases h0 : t.root = none
    · rw [h0]
      cases c with
      | update => exact (nomatch hc)
      | delete => exact (nomatch hc)
      | get k =>
        obtain ⟨f, hf⟩ : ∃ f, E.limit = f + 1 := ⟨E.limit - 1, by omega⟩
        unfold Call.second
        simp only
        rw [hf]
        exact .walk _ trivial
      | contains k => exact .walk _ (walk_vacant hL hg hlim (.inl rfl))
    · by_cases h4 : t.root = some (emptyHash E)
      · cases c with
        | update => exact (nomatch hc)
        | delete => exact (nomatch hc)
        | get k => exact walk h0 fun ⟨_, e⟩ => (nomatch e)
        | contains k => rw [h4]; exact .walk _ (walk_vacant hL hg hlim (.inr rfl))
      · exact walk h0 fun _ => h4
  | walk _ h =>
    subst hpr
    rcases h t.root with ⟨_, _, h3⟩ | h
    · rw [h3]; exact .walk _ trivial
    · exact .walk _ h

/-- `q` is what is left of `p` after some accesses, the trie being `t` all the while. -/
inductive Residue (t : MPT) : Prog Ans → Prog Ans → Prop
  | refl (p : Prog Ans) : Residue t p p
  | load {k v : Bytes} {n : Bytes → Prog Ans} {q : Prog Ans} (h : dget t.store.kv k = some v)
      (h' : Residue t (n v) q) : Residue t (.load k n) q
  | miss {k : Bytes} {n : Bytes → Prog Ans} (h : dget t.store.kv k = none) :
      Residue t (.load k n) (.done (.error .keyError))
  | root {n : Option Bytes → Prog Ans} {q : Prog Ans} (h' : Residue t (n t.root) q) : Residue t (.root n) q

namespace Residue
variable {t : MPT} {p q : Prog Ans}

theorem trans {r : Prog Ans} (h : Residue t p q) (h' : Residue t q r) (hd : ∀ x, q ≠ .done x) : Residue t p r := by
  induction h with
  | refl p => exact h'
  | load e _ ih => exact .load e (ih h' hd)
  | miss e => exact absurd rfl (hd _)
  | root _ ih => exact .root (ih h' hd)

theorem quiet (h : Residue t p q) (hp : p.Quiet) : q.Quiet := by
  induction h with
  | refl p => exact hp
  | load e _ ih => exact ih (hp _)
  | miss e => trivial
  | root _ ih => exact ih (hp _)

theorem fine (h : Residue t p q) (hp : p.Fine E t) : q.Fine E t := by
  induction h with
  | refl p => exact hp
  | load e _ ih => simp only [Prog.Fine, e] at hp; exact ih hp
  | miss e => trivial
  | root _ ih => exact ih hp

/-- Over a storage with less in it that still has what `p` needs. -/
theorem less {s : Store} (h : Residue t p q) (hL : LogOk E log) (hg : GS E log t.store) (hs : Sub s t.store)
    (hp : p.Fine E { t with store := s }) : Residue { t with store := s } p q := by
  induction h with
  | refl p => exact .refl p
  | @load k v n q e _ ih =>
    simp only [Prog.Fine] at hp
    cases e' : dget s.kv k with
    | none =>
      rw [e'] at hp
      simp only at hp
      subst hp
      rw [hg.noEmpty hL] at e
      exact (nomatch e)
    | some v' =>
      have := hs _ _ e'
      rw [e] at this
      injection this with this
      subst this
      rw [e'] at hp
      exact .load e' (ih hp)
  | @miss k n e =>
    refine .miss ?_
    show dget s.kv k = none
    cases e' : dget s.kv k with
    | none => rfl
    | some v' =>
      have := hs _ _ e'
      rw [e] at this
      exact (nomatch this)
  | root _ ih => exact .root (ih hp)

/-- Over a storage with more in it. -/
theorem more {u : MPT} (h : Residue t p q) (hL : LogOk E log) (hg : GS E log u.store) (hs : Sub t.store u.store)
    (hr : u.root = t.root) (hp : p.Fine E t) : Residue u p q := by
  induction h with
  | refl p => exact .refl p
  | load e _ ih =>
    simp only [Prog.Fine, e] at hp
    exact .load (hs _ _ e) (ih hp)
  | miss e =>
    simp only [Prog.Fine, e] at hp
    subst hp
    exact .miss (hg.noEmpty hL)
  | root _ ih => exact .root (hr ▸ ih hp)

end Residue

theorem Prog.alone_quiet {p : Prog Ans} (t : MPT) (h : p.Quiet) : (p.alone t).2 = t := by
  induction p generalizing t with
  | done r => rfl
  | load k n ih =>
    simp only [alone]
    cases e : dget t.store.kv k with
    | none => rfl
    | some v => exact ih v t (h v)
  | save k v n ih => exact h.elim
  | root n ih => exact ih _ t (h _)
  | setRoot r n ih => exact h.elim

/-- What is known of a thread, in the world with removals. -/
structure TendedThread (E : Env) (secure : Nat → Bool) (calls : Nat → List (Nat × Call)) (log : List Bytes) (u : World)
    (j : Nat) : Prop where
  bears : ∃ a, Bears E (u.obj j) a
  own : ∀ p, (u.threads j).cur = some (j, p) → ∃ r t a, Prog.Ahead E log p (u.obj j) r t ∧ Bears E t a ∧
    t.secure = secure j
  reads : ∀ p c, (u.threads j).cur = some (j, p) → (calls j)[(u.threads j).outs.length]? = some (j, c) →
    c.op? = none → Residue (u.obj j) (c.prog E (secure j)) p
  other : ∀ i p, i ≠ j → (u.threads j).cur = some (i, p) → ∃ c, c.op? = none ∧ Fits E (secure i) c.key ∧
    Safe E (secure i) c u.store p

/-- The world `u` with removals and the world `w` without. -/
structure TendedOk (E : Env) (secure : Nat → Bool) (calls : Nat → List (Nat × Call)) (log : List Bytes) (u w : World) :
    Prop where
  base : WorldOk E secure calls log w
  threads : u.threads = w.threads
  roots : u.roots = w.roots
  sec : u.secure = secure
  sub : Sub u.store w.store
  gs : GS E log u.store
  good : Good E u.store
  written : ∀ x ∈ u.store.written, x ∈ log
  thread : ∀ j, TendedThread E secure calls log u j

theorem TendedThread.grow {u u' : World} {j : Nat} (hL : LogOk E log) (h : TendedThread E secure calls log u j)
    (ht : u'.threads j = u.threads j) (hr : u'.roots j = u.roots j) (hsec : u'.secure = u.secure)
    (hs : Sub u.store u'.store) (hg : GS E log u'.store) (hgood : Good E u'.store)
    (hfine : ∀ c, (calls j)[(u.threads j).outs.length]? = some (j, c) → c.op? = none →
      (c.prog E (secure j)).Fine E (u.obj j)) :
    TendedThread E secure calls log u' j where
  bears := by
    obtain ⟨a, ha⟩ := h.bears
    refine ⟨a, ?_⟩
    have := ha.lift hs hgood
    unfold World.obj at this ⊢
    rw [hr, hsec]; exact this
  own := by
    rw [ht]
    intro p hp
    obtain ⟨r, t, a, h1, h2, h3⟩ := h.own p hp
    exact ⟨r, t, a, h1.mono hL hr (congrFun hsec j) hs hg, h2, h3⟩
  reads := by
    rw [ht]
    intro p c hp hc hop
    exact (h.reads p c hp hc hop).more hL hg hs hr (hfine c hc hop)
  other := by
    rw [ht]
    intro i p hi hp
    obtain ⟨c, h1, h2, h3⟩ := h.other i p hi hp
    exact ⟨c, h1, h2, h3.grow hL hs hg⟩

/-- A thread that goes on with its call, or begins one. -/
theorem TendedThread.move {u' : World} {j i : Nat} {q : Prog Ans} {rest : List (Nat × Call)} {outs : List (Py Ans)}
    (ht : u'.threads j = { cur := some (i, q), rest := rest, outs := outs })
    (hb : ∃ a, Bears E (u'.obj j) a)
    (ho : i = j → ∃ r t a, Prog.Ahead E log q (u'.obj j) r t ∧ Bears E t a ∧ t.secure = secure j)
    (hres : i = j → ∀ c, (calls j)[outs.length]? = some (j, c) → c.op? = none →
      Residue (u'.obj j) (c.prog E (secure j)) q)
    (hf : i ≠ j → ∃ c, c.op? = none ∧ Fits E (secure i) c.key ∧ Safe E (secure i) c u'.store q) :
    TendedThread E secure calls log u' j where
  bears := hb
  own := by
    rw [ht]
    intro p e
    injection e with e
    injection e with e1 e2
    subst e2
    exact ho e1
  reads := by
    rw [ht]
    intro p c e
    injection e with e
    injection e with e1 e2
    subst e2
    exact hres e1 c
  other := by
    rw [ht]
    intro i' p hi e
    injection e with e
    injection e with e1 e2
    subst e1 e2
    exact hf hi

theorem TendedOk.new (E : Env) (secure : Nat → Bool) (calls : Nat → List (Nat × Call)) (log : List Bytes) :
    TendedOk E secure calls log (World.new E secure calls) (World.new E secure calls) where
  base := WorldOk.new E secure calls log
  threads := rfl
  roots := rfl
  sec := rfl
  sub := Sub.refl _
  gs := GS.empty E log
  good := Good.empty E
  written := fun _ h => (nomatch h)
  thread j := ⟨⟨_, Bears.new E (secure j)⟩, fun _ h => (nomatch h), fun _ _ h => (nomatch h), fun _ _ _ h => (nomatch h)⟩

theorem TendedOk.fine {u w : World} (hp : Peaceful E secure calls log) (h : TendedOk E secure calls log u w) {j n : Nat}
    {c : Call} (hc : (calls j)[n]? = some (j, c)) (hop : c.op? = none) :
    (c.prog E (secure j)).Fine E (u.obj j) := by
  obtain ⟨a, ha⟩ := (h.thread j).bears
  have hsec : (u.obj j).secure = secure j := congrFun h.sec j
  have hfit := hp.fits j _ (List.mem_of_getElem? hc)
  have := fine_call ha hp.log h.gs (c := c) (by rw [hsec]; exact hfit) (by
    have : (c.seq E (u.obj j)).2 = u.obj j := by
      cases c with
      | update => exact (nomatch hop)
      | delete => exact (nomatch hop)
      | get => rfl
      | contains => rfl
    rw [this]; exact hp.log.mono h.written)
  rw [hsec] at this
  exact this

theorem TendedOk.sweep {u w : World} {st : Store} (hp : Peaceful E secure calls log)
    (h : TendedOk E secure calls log u w) (hq : u.Calm calls)
    (hc : ∀ i, Collected (u.obj i) { u.obj i with store := st }) :
    TendedOk E secure calls log { u with store := st } w := by
  have hgs : GS E log st := fun k v e => h.gs k v ((hc 0).less k v e)
  have hwr : st.written = u.store.written := (hc 0).log
  have hbears : ∀ j, ∃ a, Bears E (({ u with store := st } : World).obj j) a := fun j => by
    obtain ⟨a, ha⟩ := (h.thread j).bears
    exact ⟨a, ha.collected (hc j)⟩
  have call : ∀ j i p, (u.threads j).cur = some (i, p) →
      ∃ c, (calls j)[(u.threads j).outs.length]? = some (j, c) ∧ c.op? = none ∧ i = j := by
    intro j i p e
    have e' : (w.threads j).cur = some (i, p) := by rw [← h.threads]; exact e
    obtain ⟨c, hd, -, -⟩ := (h.base.thread j).busy i p e'
    rw [← h.threads] at hd
    obtain ⟨h1, rfl⟩ := hq j _ i c ⟨rfl, by rw [e]; rfl⟩ (drop_get hd)
    exact ⟨c, drop_get hd, h1, rfl⟩
  have left : ∀ j p c, (u.threads j).cur = some (j, p) → (calls j)[(u.threads j).outs.length]? = some (j, c) →
      c.op? = none → (c.prog E (secure j)).Fine E { u.obj j with store := st } ∧
        Residue { u.obj j with store := st } (c.prog E (secure j)) p := by
    intro j p c e hd hop
    obtain ⟨a, ha⟩ := hbears j
    have hsec : (({ u with store := st } : World).obj j).secure = secure j := congrFun h.sec j
    have hfit := hp.fits j _ (List.mem_of_getElem? hd)
    have hfine := fine_call ha hp.log hgs (c := c) (by rw [hsec]; exact hfit) (by
      have : (c.seq E (({ u with store := st } : World).obj j)).2 = ({ u with store := st } : World).obj j := by
        cases c with
        | update => exact (nomatch hop)
        | delete => exact (nomatch hop)
        | get => rfl
        | contains => rfl
      rw [this]
      refine hp.log.mono fun x hx => h.written x ?_
      rw [← hwr]; exact hx)
    rw [hsec] at hfine
    exact ⟨hfine, ((h.thread j).reads p c e hd hop).less (t := u.obj j) hp.log h.gs (fun k v e => (hc 0).less k v e)
      hfine⟩
  refine ⟨h.base, h.threads, h.roots, h.sec, fun k v e => h.sub k v ((hc 0).less k v e), hgs, fun k v e => ?_, ?_,
    fun j => ⟨hbears j, fun p e => ?_, fun p c e hd hop => (left j p c e hd hop).2, fun i p hi e => ?_⟩⟩
  · have := h.good k v ((hc 0).less k v e)
    exact ⟨this.1, by rw [show ({ u with store := st } : World).store.written = u.store.written from hwr]; exact this.2⟩
  · show ∀ x ∈ st.written, _
    rw [hwr]; exact h.written
  · obtain ⟨c, h1, h2, -⟩ := call j j p e
    obtain ⟨f1, f2⟩ := left j p c e h1 h2
    obtain ⟨r, t, a, g1, g2, g3⟩ := (h.thread j).own p e
    obtain ⟨b, hb⟩ := hbears j
    have hq' := Prog.alone_quiet { u.obj j with store := st } (f2.quiet (Prog.quiet_call h2))
    refine ⟨_, { u.obj j with store := st }, b, ⟨f2.fine f1, g1.plain, rfl, congrArg MPT.root hq', ?_, ?_⟩, hb,
      congrFun h.sec j⟩
    · show Sub st (p.alone { u.obj j with store := st }).2.store
      rw [hq']; exact Sub.refl _
    · intro x hx
      exact g1.log x (Prog.writes_less _ (u.obj j) st (fun k v e => (hc 0).less k v e) x hx)
  · obtain ⟨_, _, _, h3⟩ := call j i p e
    exact absurd h3 hi

theorem TendedOk.step {u w : World} (hp : Peaceful E secure calls log) (h : TendedOk E secure calls log u w)
    (j : Nat) : TendedOk E secure calls log (u.step E j) (w.step E j) := by
  have hL := hp.log
  have hj := h.thread j
  have hwj := h.base.thread j
  have hbase := h.base.step hp j
  have objsec : u.secure j = secure j := congrFun h.sec j
  have hth : u.threads j = w.threads j := congrFun h.threads j
  have tie : ∀ u' w' : World, w.step E j = w' → (∃ th, u'.threads = (u.setThread j th).threads ∧
      w'.threads = (w.setThread j th).threads) → u'.roots = w'.roots → u'.secure = u.secure →
      (∀ i, i ≠ j → u'.roots i = u.roots i) → Sub u'.store w'.store → Sub u.store u'.store →
      GS E log u'.store → Good E u'.store → (∀ x ∈ u'.store.written, x ∈ log) →
      TendedThread E secure calls log u' j → TendedOk E secure calls log u' w' := by
    intro u' w' hw hth' h2 h3 h4 h5 h6 h7 h8 h9 h10
    obtain ⟨th, e1, e2⟩ := hth'
    refine ⟨hw ▸ hbase, ?_, h2, h3.trans h.sec, h5, h7, h8, h9, fun i => ?_⟩
    · rw [e1, e2]; unfold World.setThread; rw [h.threads]
    · by_cases hi : i = j
      · rw [hi]; exact h10
      · exact (h.thread i).grow hL (by rw [e1]; exact World.setThread_other _ _ hi) (h4 i hi) h3 h6 h7 h8
          fun c hc hop => h.fine hp hc hop
  have same : Sub u.store u.store := Sub.refl _
  unfold World.step
  cases hcur : (w.threads j).cur with
  | none =>
    have hcur' : (u.threads j).cur = none := by rw [hth]; exact hcur
    simp only [hcur, hcur']
    cases hrest : (w.threads j).rest with
    | nil =>
      have hrest' : (u.threads j).rest = [] := by rw [hth]; exact hrest
      simp only [hrest']
      exact h
    | cons x rest =>
      obtain ⟨i, c⟩ := x
      have hrest' : (u.threads j).rest = (i, c) :: rest := by rw [hth]; exact hrest
      simp only [hrest']
      have hd := (hwj.idle hcur).trans hrest
      have hmem := List.mem_of_getElem? (drop_get hd)
      have hfit := hp.fits j _ hmem
      have hstep : w.step E j =
          w.setThread j { w.threads j with cur := some (i, c.prog E (w.secure i)), rest := rest } := by
        unfold World.step; simp only [hcur, hrest]
      have hss : u.secure i = w.secure i := by rw [h.sec, h.base.sec]
      refine tie _ _ hstep ⟨{ w.threads j with cur := some (i, c.prog E (w.secure i)), rest := rest }, ?_, rfl⟩
        h.roots rfl (fun _ _ => rfl) h.sub same h.gs h.good h.written ?_
      · rw [hth, hss]
      refine TendedThread.move (World.setThread_same _ _ _) hj.bears ?_ ?_ ?_
      · rintro rfl
        obtain ⟨a, ha⟩ := hj.bears
        rw [objsec]
        have he : w.ended i = (w.threads i).outs.length := by unfold World.ended; rw [hcur]; rfl
        have hr := hwj.root
        have hs := hwj.sub
        rw [he] at hr hs
        have hah := hp.ahead (t := w.obj i) (drop_get hd) hr (congrFun h.base.sec i) hs h.base.gs
        have hobj : u.obj i = { w.obj i with store := u.store } := by
          unfold World.obj; rw [h.roots, h.sec, h.base.sec]
        have hwr : ∀ x ∈ (c.prog E (secure i)).writes (u.obj i), x ∈ log := by
          intro x hx
          rw [hobj] at hx
          exact hah.log x (Prog.writes_less _ (w.obj i) u.store h.sub x hx)
        have hal := Call.prog_alone E c (u.obj i)
        have hsec' : (u.obj i).secure = secure i := objsec
        rw [hsec'] at hal
        have hl : LogOk E (c.seq E (u.obj i)).2.store.written := by
          rw [← hal, Prog.alone_written]
          refine hL.mono fun x hx => ?_
          rcases List.mem_append.1 hx with hx | hx
          · exact h.written x hx
          · exact hwr x hx
        have hfine := fine_call ha hL h.gs (c := c) (by rw [hsec']; exact hfit) hl
        rw [hsec'] at hfine
        have hb' : ∃ a', Bears E (c.seq E (u.obj i)).2 a' := by
          cases c with
          | update k v => exact ⟨_, ha.exec (op := .update k v) (by rw [hsec']; exact hfit) hl⟩
          | delete k => exact ⟨_, ha.exec (op := .delete k) (by rw [hsec']; exact hfit) hl⟩
          | get k => exact ⟨a, ha⟩
          | contains k => exact ⟨a, ha⟩
        obtain ⟨a', hb'⟩ := hb'
        refine ⟨_, (c.seq E (u.obj i)).2, a', ⟨hfine, Prog.plain_call E _ c, rfl, ?_, ?_, hwr⟩, hb', ?_⟩
        · show ((c.prog E (secure i)).alone (u.obj i)).2.root = _
          rw [hal]
        · show Sub _ ((c.prog E (secure i)).alone (u.obj i)).2.store
          rw [hal]; exact Sub.refl _
        · rw [← hal, Prog.alone_secure]; exact hsec'
      · rintro rfl c' hc' _
        rw [hth, drop_get hd] at hc'
        injection hc' with hc'
        injection hc' with _ hc'
        rw [hc', h.sec]
        exact .refl _
      · intro hij
        refine ⟨c, ?_, hfit, ?_⟩
        · cases hc : c.op? with
          | none => rfl
          | some op =>
            refine absurd (hp.one j (i, c) hmem ?_) hij
            rw [hc]; simp
        · rw [h.sec]; exact .begin
  | some x =>
    obtain ⟨i, p⟩ := x
    have hcur' : (u.threads j).cur = some (i, p) := by rw [hth]; exact hcur
    cases p with
    | done r =>
      simp only [hcur, hcur']
      have hstep : w.step E j = w.setThread j { w.threads j with cur := none, outs := (w.threads j).outs ++ [r] } := by
        unfold World.step; simp only [hcur]
      refine tie _ _ hstep ⟨{ w.threads j with cur := none, outs := (w.threads j).outs ++ [r] }, by rw [hth], rfl⟩
        h.roots rfl (fun _ _ => rfl) h.sub same h.gs h.good h.written ?_
      refine ⟨hj.bears, ?_, ?_, ?_⟩
      · rw [World.setThread_same]; intro p e; exact (nomatch e)
      · rw [World.setThread_same]; intro p c e; exact (nomatch e)
      · rw [World.setThread_same]; intro i p _ e; exact (nomatch e)
    | load k n =>
      have agree : dget w.store.kv k = dget u.store.kv k := by
        cases e : dget u.store.kv k with
        | some v => exact h.sub _ _ e
        | none =>
          have : k = emptyHash E := by
            by_cases hij : i = j
            · subst hij
              obtain ⟨r, t, a, h1, -, -⟩ := hj.own _ hcur'
              have := h1.fine
              simp only [Prog.Fine] at this
              rw [show dget (u.obj i).store.kv k = none from e] at this
              exact this
            · obtain ⟨c, h1, -, h3⟩ := hj.other i _ hij hcur'
              exact (h3.ofLoad h1).2 e
          rw [this]; exact h.base.gs.noEmpty hL
      simp only [hcur, hcur', agree]
      cases hv : dget u.store.kv k with
      | none =>
        have hstep : w.step E j = w.setThread j { w.threads j with cur := some (i, .done (.error .keyError)) } := by
          unfold World.step; simp only [hcur, agree, hv]
        refine tie _ _ hstep ⟨{ w.threads j with cur := some (i, .done (.error .keyError)) }, by rw [hth], rfl⟩
          h.roots rfl (fun _ _ => rfl) h.sub same h.gs h.good h.written ?_
        refine TendedThread.move (World.setThread_same _ _ _) hj.bears ?_ ?_ ?_
        · rintro rfl
          obtain ⟨r, t, a, h1, h2, h3⟩ := hj.own _ hcur'
          exact ⟨r, t, a, h1.of_load_none hv, h2, h3⟩
        · rintro rfl c hc hop
          exact (hj.reads _ c hcur' hc hop).trans (.miss hv) fun _ e => (nomatch e)
        · intro hij
          obtain ⟨c, h1, h2, h3⟩ := hj.other i _ hij hcur'
          exact ⟨c, h1, h2, .walk _ trivial⟩
      | some v =>
        have hstep : w.step E j = w.setThread j { w.threads j with cur := some (i, n v) } := by
          unfold World.step; simp only [hcur, agree, hv]
        refine tie _ _ hstep ⟨{ w.threads j with cur := some (i, n v) }, by rw [hth], rfl⟩
          h.roots rfl (fun _ _ => rfl) h.sub same h.gs h.good h.written ?_
        refine TendedThread.move (World.setThread_same _ _ _) hj.bears ?_ ?_ ?_
        · rintro rfl
          obtain ⟨r, t, a, h1, h2, h3⟩ := hj.own _ hcur'
          exact ⟨r, t, a, h1.of_load hv, h2, h3⟩
        · rintro rfl c hc hop
          exact (hj.reads _ c hcur' hc hop).trans (.load hv (.refl _)) fun _ e => (nomatch e)
        · intro hij
          obtain ⟨c, h1, h2, h3⟩ := hj.other i _ hij hcur'
          exact ⟨c, h1, h2, (h3.ofLoad h1).1 v hv⟩
    | save k v n =>
      by_cases hij : i = j
      · subst hij
        obtain ⟨r, t, a, h1, h2, h3⟩ := hj.own _ hcur'
        obtain ⟨a1, a2, a3, a4⟩ := h1.of_save
        simp only [hcur, hcur']
        have hstep : w.step E i =
            { w.setThread i { w.threads i with cur := some (i, n) } with store := w.store.set k v } := by
          unfold World.step; simp only [hcur]
        have hs : Sub u.store (u.store.set k v) := by rw [a2]; exact h.gs.sub_set hL a3
        have hg : GS E log (u.store.set k v) := by rw [a2]; exact h.gs.set a3 a4
        have hgood : Good E (u.store.set k v) := by
          intro k' v' e
          rw [Store.dget_set] at e
          split at e
          · rename_i hk; injection e with e; subst e hk; exact ⟨a2, List.mem_append_right _ (by simp)⟩
          · exact ⟨(h.good _ _ e).1, List.mem_append_left _ (h.good _ _ e).2⟩
        refine tie _ _ hstep ⟨{ w.threads i with cur := some (i, n) }, by rw [hth], rfl⟩
          h.roots rfl (fun _ _ => rfl) (h.sub.set k v) hs hg hgood ?_ ?_
        · intro x hx
          rcases List.mem_append.1 hx with hx | hx
          · exact h.written x hx
          · rw [List.mem_singleton.1 hx]; exact a3
        refine TendedThread.move (World.setThread_same _ _ _) ?_ (fun _ => ⟨r, t, a, a1, h2, h3⟩)
          (fun _ c hc hop => ((hj.reads _ c hcur' hc hop).quiet (Prog.quiet_call hop)).elim) (fun e => absurd rfl e)
        obtain ⟨b, hb⟩ := hj.bears
        exact ⟨b, hb.lift hs hgood⟩
      · obtain ⟨c, h1, h2, h3⟩ := hj.other i _ hij hcur'
        exact (Safe.noSave h1 h3).elim
    | root n =>
      simp only [hcur, hcur']
      have hstep : w.step E j = w.setThread j { w.threads j with cur := some (i, n (w.roots i)) } := by
        unfold World.step; simp only [hcur]
      refine tie _ _ hstep ⟨{ w.threads j with cur := some (i, n (w.roots i)) }, by rw [hth, h.roots], rfl⟩
        h.roots rfl (fun _ _ => rfl) h.sub same h.gs h.good h.written ?_
      refine TendedThread.move (World.setThread_same _ _ _) hj.bears ?_ ?_ ?_
      · rintro rfl
        obtain ⟨r, t, a, h1, h2, h3⟩ := hj.own _ hcur'
        exact ⟨r, t, a, h1.of_root, h2, h3⟩
      · rintro rfl c hc hop
        exact (hj.reads _ c hcur' hc hop).trans (.root (.refl _)) fun _ e => (nomatch e)
      · intro hij
        obtain ⟨c, h1, h2, h3⟩ := hj.other i _ hij hcur'
        obtain ⟨b, hb⟩ := (h.thread i).bears
        exact ⟨c, h1, h2, Safe.ofRoot (t := u.obj i) hL hb h.written (congrFun h.sec i) h.gs h1 h2 h3⟩
    | setRoot q n =>
      by_cases hij : i = j
      · subst hij
        obtain ⟨r, t, a, h1, h2, h3⟩ := hj.own _ hcur'
        obtain ⟨a1, x, rfl⟩ := h1.of_setRoot
        simp only [hcur, hcur']
        have hstep : w.step E i = { w.setThread i { w.threads i with cur := some (i, .done x) } with
            roots := fun i' => if i' = i then q else w.roots i' } := by
          unfold World.step; simp only [hcur]
        have ho : (({ u.setThread i { u.threads i with cur := some (i, .done x) } with
              roots := fun i' => if i' = i then q else u.roots i' } : World).obj i) = { u.obj i with root := q } := by
          simp [World.obj, World.setThread]
        refine tie _ _ hstep ⟨{ w.threads i with cur := some (i, .done x) }, by rw [hth], rfl⟩
          (by rw [h.roots]) rfl ?_ h.sub same h.gs h.good h.written ?_
        · intro i' hi
          show (if i' = i then q else u.roots i') = u.roots i'
          rw [if_neg hi]
        refine TendedThread.move (World.setThread_same _ _ _) ?_ (fun _ => ⟨r, t, a, ?_, h2, h3⟩)
          (fun _ c hc hop => ((hj.reads _ c hcur' hc hop).quiet (Prog.quiet_call hop)).elim) (fun e => absurd rfl e)
        · obtain ⟨-, b1, b2⟩ := a1.of_done
          refine ⟨a, ?_⟩
          rw [ho]
          have := h2.lift b2 h.good
          simp only at b1
          rw [show ({ u.obj i with root := q } : MPT) = { t with store := u.store } from ?_]
          · exact this
          · show MPT.mk u.store q (u.secure i) = MPT.mk u.store t.root t.secure
            rw [b1, objsec, h3]
        · rw [ho]; exact a1
      · obtain ⟨c, h1, h2, h3⟩ := hj.other i _ hij hcur'
        exact (Safe.noSet h1 h3).elim

theorem Tended.ok {sched : List Nat} {u : World} (hp : Peaceful E secure calls log)
    (h : Tended E secure calls (World.Calm calls) sched u) :
    TendedOk E secure calls log u ((World.new E secure calls).run E sched) := by
  induction h with
  | new => exact TendedOk.new E secure calls log
  | step _ j ih =>
    rw [World.run_append]
    exact ih.step hp j
  | sweep _ hm hc ih => exact ih.sweep hp hm hc

end
end Pymt
