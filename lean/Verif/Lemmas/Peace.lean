import Verif.Lemmas.Joint
import Verif.Lemmas.Evolve

/-!
# Threads with one writer for every trie
-/

namespace Pymt

theorem fine_get_empty {E : Env} {L : List Bytes} {t : MPT} {k : Bytes} {secure : Bool} (hL : LogOk E L)
    (hg : GS E L t.store) (hr : t.root = none ∨ t.root = some (emptyHash E)) (hlim : 0 < E.limit) :
    ((Call.get k).prog E secure).Fine E t := by
  show Prog.Fine E (Prog.bind (if t.root.getD [] = [] then _ else _ : Prog Bytes) _) t
  rcases hr with hr | hr
  · rw [hr]; simp only [Option.getD_none, if_true]; trivial
  · have h0 : ¬ (t.root.getD [] = []) := by rw [hr]; exact T.emptyHash_ne_nil E
    rw [if_neg h0]
    show Prog.Fine E (Prog.bind (MPT.getP E.limit t.root _ >>= _) _) t
    obtain ⟨f, hf⟩ : ∃ f, E.limit = f + 1 := ⟨E.limit - 1, by omega⟩
    rw [hf, hr]
    unfold MPT.getP MPT.getNodeP MPT.rawP
    have e32 : (emptyHash E).length = 32 := E.keccak_len _
    simp only [e32, if_true]
    refine (Prog.Fine.bind (Prog.Fine.bind (Prog.Fine.bind (Prog.Fine.bind ?_)))).1
    simp only [Prog.loadItem, Prog.Fine, Prog.alone, hg.noEmpty hL]
    exact ⟨trivial, fun _ h => (nomatch h)⟩

/-- On a trie, a call asks for nothing that is missing. -/
theorem fine_call {E : Env} {L : List Bytes} {t : MPT} {a : T} (h : Bears E t a) (hL : LogOk E L)
    (hg : GS E L t.store) {c : Call} (hf : Fits E t.secure c.key) (hl : LogOk E (c.seq E t).2.store.written) :
    (c.prog E t.secure).Fine E t := by
  cases c with
  | update k v =>
    change Fits E t.secure k at hf
    change LogOk E (MPT.update E k v t).2.store.written at hl
    refine Prog.fine_of_alone _ _ ?_
    rw [Call.prog_alone]
    show (MPT.update E k v t).1.map _ ≠ _
    have e1 : (MPT.update E k v t).1 = .ok () := (h.holds.update (fits_nibs hf) rfl hl).1
    rw [e1]
    intro e; exact (nomatch e)
  | delete k =>
    change Fits E t.secure k at hf
    refine Prog.fine_of_alone _ _ ?_
    rw [Call.prog_alone]
    show (MPT.delete E k t).1.map _ ≠ _
    have hk : (MPT.delete E k t).1 ≠ .error .keyError := h.never_key (op := .delete k) hf hl
    cases hr : (MPT.delete E k t).1 with
    | ok u => intro e; exact (nomatch e)
    | error x => intro e; exact hk (by rw [hr]; injection e with e; rw [e])
  | contains k =>
    change Fits E t.secure k at hf
    refine Prog.fine_of_alone _ _ ?_
    rw [Call.prog_alone]
    show (t.contains E k).map _ ≠ _
    rw [h.holds.contains hl (fits_nibs hf)]
    intro e; exact (nomatch e)
  | get k =>
    change Fits E t.secure k at hf
    have h1 := h.holds
    by_cases hne : a = .empty
    · subst hne
      rcases h1.root with ⟨_, hr⟩ | ⟨h0, _⟩
      · exact fine_get_empty hL hg hr (by unfold Fits at hf; omega)
      · exact absurd rfl h0
    · refine Prog.fine_of_alone _ _ ?_
      rw [Call.prog_alone]
      show (t.get E k).map _ ≠ _
      rw [h1.get hne (fits_nibs hf)]
      have hs := T.seek_ne_empty h1.shape hne (toNibs (t.keyOf E k))
      generalize T.seek a (toNibs (t.keyOf E k)) = x at hs
      obtain ⟨y, r⟩ := x
      have : T.found y r ≠ .error .keyError ∧ ∀ z, T.found y r = .ok z → z = y := by
        cases r <;> cases y <;> simp_all [T.found]
        split <;> simp_all
      cases hf : T.found y r with
      | error e =>
        rw [hf] at this
        intro e'
        apply this.1
        simpa [Except.map, bind, Except.bind] using e'
      | ok z =>
        obtain rfl := this.2 z hf
        cases z <;> simp_all [T.dataOf, Except.map, bind, Except.bind]

namespace Peaceful
variable {E : Env} {secure : Nat → Bool} {calls : Nat → List (Nat × Call)} {log : List Bytes}

theorem writesOf_append (l l' : List (Nat × Call)) : writesOf (l ++ l') = writesOf l ++ writesOf l' := by
  simp [writesOf]

theorem state_secure (j p : Nat) : (stateAt E secure calls j p).secure = secure j := after_secure _ _ _

theorem take_split (j p : Nat) : writesOf (calls j) = writesOf ((calls j).take p) ++ writesOf ((calls j).drop p) := by
  rw [← writesOf_append, List.take_append_drop]

theorem state_written (h : Peaceful E secure calls log) (j p : Nat) :
    ∀ w ∈ (stateAt E secure calls j p).store.written, w ∈ log := by
  intro w hw
  apply h.all j
  rw [take_split j p, after_append]
  obtain ⟨ws, e⟩ := run_writes E (writesOf ((calls j).drop p)) (MPT.after E (secure j) (writesOf ((calls j).take p)))
  rw [e, replay_written]
  exact List.mem_append_left _ hw

theorem state_fits (h : Peaceful E secure calls log) (j p : Nat) :
    ∀ op ∈ writesOf ((calls j).take p), Fits E (secure j) op.key := by
  intro op ho
  obtain ⟨c, hc, ho⟩ := List.mem_filterMap.1 ho
  have hc := List.mem_of_mem_take hc
  have hj := h.one j c hc (by rw [ho]; simp)
  have hf := h.fits j c hc
  rw [hj] at hf
  cases hk : c.2 <;> rw [hk] at ho hf <;> simp only [Call.op?, Option.some.injEq, reduceCtorEq] at ho <;> subst ho <;>
    exact hf

theorem state_bears (h : Peaceful E secure calls log) (j p : Nat) :
    Bears E (stateAt E secure calls j p)
      (T.grow .empty ((writesOf ((calls j).take p)).map (Op.mapKey (effective E (secure j))))) :=
  Bears.after (h.state_fits j p) (h.log.mono (h.state_written j p))

theorem state_next {j p : Nat} {i : Nat} {c : Call} (hc : (calls j)[p]? = some (i, c)) :
    stateAt E secure calls j (p + 1) =
      match c.op? with
      | some op => (MPT.exec E op (stateAt E secure calls j p)).2
      | none => stateAt E secure calls j p := by
  unfold stateAt
  rw [List.take_add_one, hc, writesOf_append]
  cases hop : c.op? with
  | none => simp [writesOf, hop]
  | some op =>
    rw [after_append]
    simp [writesOf, hop, MPT.run]

theorem seq_next {j p : Nat} {i : Nat} {c : Call} (hc : (calls j)[p]? = some (i, c)) :
    (c.seq E (stateAt E secure calls j p)).2 = stateAt E secure calls j (p + 1) := by
  rw [state_next hc]
  cases c <;> rfl

theorem state_gs (h : Peaceful E secure calls log) (j p : Nat) : GS E log (stateAt E secure calls j p).store := by
  induction p with
  | zero => exact GS.empty E log
  | succ p ih =>
    cases hc : (calls j)[p]? with
    | none =>
      have : stateAt E secure calls j (p + 1) = stateAt E secure calls j p := by
        unfold stateAt
        rw [List.take_add_one, hc]
        simp
      rw [this]; exact ih
    | some x =>
      obtain ⟨i, c⟩ := x
      rw [← seq_next hc, ← Call.prog_alone]
      refine Prog.alone_gs _ _ (Prog.plain_call E _ c) ih fun w hw => ?_
      apply h.state_written j (p + 1)
      rw [← seq_next hc, ← Call.prog_alone, Prog.alone_written]
      exact List.mem_append_right _ hw

/-- What is ahead of a call of the writer that is about to begin. -/
theorem ahead (h : Peaceful E secure calls log) {j p : Nat} {c : Call} (hc : (calls j)[p]? = some (j, c))
    {t : MPT} (hr : t.root = (stateAt E secure calls j p).root) (hsec : t.secure = secure j)
    (hs : Sub (stateAt E secure calls j p).store t.store) (hg : GS E log t.store) :
    Prog.Ahead E log (c.prog E (secure j)) t (c.seq E (stateAt E secure calls j p)).1
      (stateAt E secure calls j (p + 1)) := by
  have hw : ∀ w ∈ (c.prog E (stateAt E secure calls j p).secure).writes (stateAt E secure calls j p), w ∈ log := by
    intro w hw
    apply h.state_written j (p + 1)
    rw [← seq_next hc, ← Call.prog_alone, Prog.alone_written]
    exact List.mem_append_right _ hw
  have hal := Call.prog_alone E c (stateAt E secure calls j p)
  have hn := seq_next (E := E) (secure := secure) hc
  have hf : Fits E (stateAt E secure calls j p).secure c.key := by
    rw [state_secure]; exact h.fits j _ (List.mem_of_getElem? hc)
  have hfine := fine_call (h.state_bears j p) h.log (h.state_gs j p) hf
    (by rw [hn]; exact h.log.mono (h.state_written j (p + 1)))
  rw [state_secure] at hw hal hfine
  refine Prog.Ahead.mono (t := stateAt E secure calls j p) ?_ h.log hr (by rw [state_secure, hsec]) hs hg
  exact ⟨hfine, Prog.plain_call E _ c, by rw [hal], by rw [hal, hn], by rw [hal, hn]; exact Sub.refl _, hw⟩

end Peaceful

/-- A thread of peaceful calls, its own trie, and what came out so far. -/
structure ThreadOk (E : Env) (secure : Nat → Bool) (calls : Nat → List (Nat × Call)) (log : List Bytes) (w : World)
    (j : Nat) : Prop where
  idle : (w.threads j).cur = none → (calls j).drop (w.threads j).outs.length = (w.threads j).rest
  busy : ∀ i p, (w.threads j).cur = some (i, p) → ∃ c,
    (calls j).drop (w.threads j).outs.length = (i, c) :: (w.threads j).rest ∧
    (i ≠ j → p.Quiet) ∧
    (i = j → Prog.Ahead E log p (w.obj j) (c.seq E (stateAt E secure calls j (w.threads j).outs.length)).1
      (stateAt E secure calls j ((w.threads j).outs.length + 1)))
  root : w.roots j = (stateAt E secure calls j (w.ended j)).root
  sub : Sub (stateAt E secure calls j (w.ended j)).store w.store
  outs : ∀ p c, (calls j)[p]? = some (j, c) → p < (w.threads j).outs.length →
    (w.threads j).outs[p]? = some (c.seq E (stateAt E secure calls j p)).1

/-- The state of the threads, their tries and the shared dict. -/
structure WorldOk (E : Env) (secure : Nat → Bool) (calls : Nat → List (Nat × Call)) (log : List Bytes) (w : World) :
    Prop where
  sec : w.secure = secure
  gs : GS E log w.store
  thread : ∀ j, ThreadOk E secure calls log w j

section
variable {E : Env} {secure : Nat → Bool} {calls : Nat → List (Nat × Call)} {log : List Bytes}

theorem WorldOk.new (E : Env) (secure : Nat → Bool) (calls : Nat → List (Nat × Call)) (log : List Bytes) :
    WorldOk E secure calls log (World.new E secure calls) where
  sec := rfl
  gs := GS.empty E log
  thread _ := {
    idle := fun _ => rfl
    busy := fun _ _ h => (nomatch h)
    root := rfl
    sub := Sub.refl _
    outs := fun _ _ _ h => (nomatch h) }

/-- Nothing changes for a thread when others only add to the dict. -/
theorem ThreadOk.grow {w w' : World} {j : Nat} (hL : LogOk E log) (h : ThreadOk E secure calls log w j)
    (ht : w'.threads j = w.threads j) (hr : w'.roots j = w.roots j) (hsec : w'.secure = w.secure)
    (hs : Sub w.store w'.store) (hg : GS E log w'.store) : ThreadOk E secure calls log w' j where
  idle := by rw [ht]; exact h.idle
  busy := by
    rw [ht]
    intro i p hp
    obtain ⟨c, h1, h2, h3⟩ := h.busy i p hp
    exact ⟨c, h1, h2, fun e => (h3 e).mono hL hr (congrFun hsec j) hs hg⟩
  root := by
    have : w'.ended j = w.ended j := by unfold World.ended; rw [ht]
    rw [hr, this]; exact h.root
  sub := by
    have : w'.ended j = w.ended j := by unfold World.ended; rw [ht]
    rw [this]; exact h.sub.trans hs
  outs := by rw [ht]; exact h.outs

theorem World.setThread_same (w : World) (j : Nat) (th : Thread) : (w.setThread j th).threads j = th := by
  simp [World.setThread]

theorem World.setThread_other (w : World) {i j : Nat} (th : Thread) (h : i ≠ j) :
    (w.setThread j th).threads i = w.threads i := by
  simp [World.setThread, h]

theorem drop_get {α : Type} {l : List α} {n : Nat} {a : α} {r : List α} (h : l.drop n = a :: r) : l[n]? = some a := by
  have := congrArg (·[0]?) h
  simpa using this

/-- A thread that goes on with its call. -/
theorem ThreadOk.move {w w' : World} {j i : Nat} {q : Prog Ans} {c : Call} {rest : List (Nat × Call)}
    (hp : Peaceful E secure calls log) (h : ThreadOk E secure calls log w j)
    (he : w.ended j = (w.threads j).outs.length)
    (ht : w'.threads j = { cur := some (i, q), rest := rest, outs := (w.threads j).outs })
    (hd : (calls j).drop (w.threads j).outs.length = (i, c) :: rest)
    (hq : i ≠ j → q.Quiet)
    (ha : i = j → Prog.Ahead E log q (w'.obj j) (c.seq E (stateAt E secure calls j (w.threads j).outs.length)).1
      (stateAt E secure calls j ((w.threads j).outs.length + 1)))
    (hr : (i ≠ j ∨ q.over = false) → w'.roots j = w.roots j)
    (hs : Sub w.store w'.store) : ThreadOk E secure calls log w' j := by
  have hroot := h.root
  have hsub := h.sub
  rw [he] at hroot hsub
  have key : w'.roots j = (stateAt E secure calls j (w'.ended j)).root ∧
      Sub (stateAt E secure calls j (w'.ended j)).store w'.store := by
    have he' : w'.ended j = (w.threads j).outs.length + if q.over then 1 else 0 := by
      unfold World.ended; rw [ht]
    cases ho : q.over with
    | false =>
      rw [he', ho]
      exact ⟨(hr (.inr ho)).trans hroot, hsub.trans hs⟩
    | true =>
      rw [he', ho, if_pos rfl]
      by_cases hij : i = j
      · cases q with
        | done x => exact (ha hij).of_done.2
        | load | save | root | setRoot => exact (nomatch ho)
      · have hop : c.op? = none := by
          cases hc : c.op? with
          | none => rfl
          | some op =>
            refine absurd (hp.one j (i, c) (List.mem_of_getElem? (drop_get hd)) ?_) hij
            rw [hc]; simp
        have : stateAt E secure calls j ((w.threads j).outs.length + 1) =
            stateAt E secure calls j (w.threads j).outs.length := by
          rw [Peaceful.state_next (drop_get hd), hop]
        rw [this]
        exact ⟨(hr (.inl hij)).trans hroot, hsub.trans hs⟩
  refine ⟨?_, ?_, key.1, key.2, ?_⟩
  · rw [ht]; intro h; exact (nomatch h)
  · rw [ht]
    intro i' p e
    injection e with e
    injection e with e1 e2
    subst e1 e2
    exact ⟨c, hd, hq, ha⟩
  · rw [ht]; exact h.outs

/-- The program of a call begins with a read of the root. -/
theorem Call.prog_over (E : Env) (s : Bool) (c : Call) : (c.prog E s).over = false := by
  cases c <;> rfl

theorem WorldOk.step {w : World} (hp : Peaceful E secure calls log) (h : WorldOk E secure calls log w) (j : Nat) :
    WorldOk E secure calls log (w.step E j) := by
  have hj := h.thread j
  have hL := hp.log
  have others : ∀ w' : World, w'.secure = w.secure → (∀ i, i ≠ j → w'.threads i = w.threads i) →
      (∀ i, i ≠ j → w'.roots i = w.roots i) → Sub w.store w'.store → GS E log w'.store →
      ThreadOk E secure calls log w' j → WorldOk E secure calls log w' := by
    intro w' h1 h2 h3 h4 h5 h6
    refine ⟨h1.trans h.sec, h5, fun i => ?_⟩
    by_cases hi : i = j
    · rw [hi]; exact h6
    · exact (h.thread i).grow hL (h2 i hi) (h3 i hi) h1 h4 h5
  have objsec : w.secure j = secure j := congrFun h.sec j
  unfold World.step
  cases hcur : (w.threads j).cur with
  | none =>
    simp only [hcur]
    cases hrest : (w.threads j).rest with
    | nil => exact h
    | cons x rest =>
      obtain ⟨i, c⟩ := x
      simp only
      have hd := (hj.idle hcur).trans hrest
      have he : w.ended j = (w.threads j).outs.length := by unfold World.ended; rw [hcur]; rfl
      refine others _ rfl (fun i' hi => World.setThread_other w _ hi) (fun _ _ => rfl) (Sub.refl _) h.gs ?_
      refine hj.move hp he (i := i) (q := c.prog E (w.secure i)) (c := c) (rest := rest) ?_ hd ?_ ?_ (fun _ => rfl)
        (Sub.refl _)
      · rw [World.setThread_same]
      · intro hij
        apply Prog.quiet_call
        cases hc : c.op? with
        | none => rfl
        | some op =>
          refine absurd (hp.one j (i, c) (List.mem_of_getElem? (drop_get hd)) ?_) hij
          rw [hc]; simp
      · rintro rfl
        have := hj.root
        have hs := hj.sub
        rw [he] at this hs
        rw [objsec]
        exact hp.ahead (drop_get hd) this objsec hs h.gs
  | some x =>
    obtain ⟨i, p⟩ := x
    obtain ⟨c, hd, hq, ha⟩ := hj.busy i p hcur
    cases p with
    | done r =>
      simp only [hcur]
      refine others _ rfl (fun i' hi => World.setThread_other w _ hi) (fun _ _ => rfl) (Sub.refl _) h.gs ?_
      have he : w.ended j = (w.threads j).outs.length + 1 := by unfold World.ended; rw [hcur]; rfl
      have he' : (w.setThread j { w.threads j with cur := none, outs := (w.threads j).outs ++ [r] }).ended j
          = w.ended j := by
        rw [he]; unfold World.ended; rw [World.setThread_same]; simp
      refine ⟨?_, ?_, ?_, ?_, ?_⟩
      · rw [World.setThread_same]
        intro _
        show (calls j).drop ((w.threads j).outs ++ [r]).length = (w.threads j).rest
        rw [List.length_append, ← List.drop_drop, hd]; rfl
      · rw [World.setThread_same]; intro i p e; exact (nomatch e)
      · rw [he']; exact hj.root
      · rw [he']; exact hj.sub
      · rw [World.setThread_same]
        intro p c' hc hlt
        show ((w.threads j).outs ++ [r])[p]? = _
        rw [List.length_append] at hlt
        by_cases hlt' : p < (w.threads j).outs.length
        · rw [List.getElem?_append_left hlt']; exact hj.outs p c' hc hlt'
        · have hpe : p = (w.threads j).outs.length := by simp at hlt; omega
          subst hpe
          rw [drop_get hd] at hc
          injection hc with hc
          injection hc with e1 e2
          subst e1 e2
          rw [List.getElem?_concat_length, (ha rfl).of_done.1]
    | load k n =>
      have he : w.ended j = (w.threads j).outs.length := by unfold World.ended; rw [hcur]; rfl
      simp only [hcur]
      cases hv : dget w.store.kv k with
      | none =>
        simp only
        refine others _ rfl (fun i' hi => World.setThread_other w _ hi) (fun _ _ => rfl) (Sub.refl _) h.gs ?_
        exact hj.move hp he (World.setThread_same _ _ _) hd (fun _ => trivial) (fun e => (ha e).of_load_none hv)
          (fun _ => rfl) (Sub.refl _)
      | some v =>
        simp only
        refine others _ rfl (fun i' hi => World.setThread_other w _ hi) (fun _ _ => rfl) (Sub.refl _) h.gs ?_
        exact hj.move hp he (World.setThread_same _ _ _) hd (fun e => hq e v) (fun e => (ha e).of_load hv)
          (fun _ => rfl) (Sub.refl _)
    | save k v n =>
      have he : w.ended j = (w.threads j).outs.length := by unfold World.ended; rw [hcur]; rfl
      simp only [hcur]
      by_cases hij : i = j
      · obtain ⟨a1, a2, a3, a4⟩ := (ha hij).of_save
        have hs : Sub w.store (w.store.set k v) := by rw [a2]; exact h.gs.sub_set hL a3
        have hg : GS E log (w.store.set k v) := by rw [a2]; exact h.gs.set a3 a4
        refine others _ rfl (fun i' hi => World.setThread_other w _ hi) (fun _ _ => rfl) hs hg ?_
        exact hj.move hp he (World.setThread_same _ _ _) hd (fun e => absurd hij e) (fun _ => a1)
          (fun _ => rfl) hs
      · exact (hq hij).elim
    | root n =>
      have he : w.ended j = (w.threads j).outs.length := by unfold World.ended; rw [hcur]; rfl
      simp only [hcur]
      refine others _ rfl (fun i' hi => World.setThread_other w _ hi) (fun _ _ => rfl) (Sub.refl _) h.gs ?_
      refine hj.move hp he (World.setThread_same _ _ _) hd (fun e => hq e _) (fun e => ?_)
        (fun _ => rfl) (Sub.refl _)
      subst e
      exact (ha rfl).of_root
    | setRoot r n =>
      have he : w.ended j = (w.threads j).outs.length := by unfold World.ended; rw [hcur]; rfl
      simp only [hcur]
      by_cases hij : i = j
      · obtain ⟨a1, x, a2⟩ := (ha hij).of_setRoot
        subst hij
        refine others _ rfl (fun i' hi => World.setThread_other w _ hi) (fun i' hi => ?_) (Sub.refl _) h.gs ?_
        · show (if i' = i then r else w.roots i') = w.roots i'
          rw [if_neg hi]
        · refine hj.move hp he (World.setThread_same _ _ _) hd (fun e => absurd rfl e) (fun _ => ?_) ?_ (Sub.refl _)
          · have : (({ w.setThread i { w.threads i with cur := some (i, n) } with
                roots := fun i' => if i' = i then r else w.roots i' } : World).obj i) =
                { w.obj i with root := r } := by
              simp [World.obj, World.setThread]
            rw [this]; exact a1
          · rintro (e | e)
            · exact absurd rfl e
            · rw [a2] at e; exact (nomatch e)
      · exact (hq hij).elim

theorem WorldOk.run {w : World} (hp : Peaceful E secure calls log) (h : WorldOk E secure calls log w)
    (sched : List Nat) : WorldOk E secure calls log (w.run E sched) := by
  induction sched generalizing w with
  | nil => exact h
  | cons j sched ih => exact ih (h.step hp j)

end

end Pymt
