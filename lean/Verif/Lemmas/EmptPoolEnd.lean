import Verif.Spec.EmptPoolEnd
import Verif.Lemmas.EmptPoolFree

/-!
# Lemmas: threads with an `EMPT` each over the same two dicts, whose calls may be ended
-/

namespace Pymt

/-- A call with its outcome, and whether it took effect though it was ended. -/
abbrev Took := (ECall × Option (Py EAns)) × Bool

theorem changesTook_sublist (h : List Took) : (changesTook h).Sublist ((h.map (·.1.1)).filterMap ECall.op?) := by
  induction h with
  | nil => exact List.Sublist.slnil
  | cons e h ih =>
    obtain ⟨⟨c, r⟩, b⟩ := e
    unfold changesTook at ih ⊢
    simp only [List.filterMap_cons, List.map_cons]
    cases hc : c.op? with
    | none => rcases r with _ | r | r <;> cases b <;> simpa [hc] using ih
    | some op =>
      rcases r with _ | r | r
      · cases b
        · exact ih.cons op
        · exact ih.cons_cons op
      · exact ih.cons op
      · exact ih.cons_cons op

theorem changesTook_one (h : List Took) (e : Took) : changesTook (h ++ [e]) = changesTook h ++ changesTook [e] := by
  unfold changesTook
  rw [List.filterMap_append]

theorem changesTook_some (h : List Took) (c : ECall) (r : Py EAns) (b : Bool) :
    stepMade (changesTook h) c r = changesTook (h ++ [((c, some r), b)]) := by
  rw [changesTook_one]
  unfold stepMade changesTook
  cases r with
  | error e => simp
  | ok a => cases hc : c.op? <;> simp [hc]

theorem changesTook_none (h : List Took) (c : ECall) (b : Bool) :
    (changesTook h ++ if b then c.op?.toList else []) = changesTook (h ++ [((c, none), b)]) := by
  rw [changesTook_one]
  unfold changesTook
  cases b with
  | false => simp
  | true => cases hc : c.op? <;> simp [hc]

/-- What the outcomes of a thread must be. -/
def TookFair (E : Env) (h : List Took) : Prop :=
  ∀ (p : Nat) (c : ECall) (r : Py EAns) (b : Bool), h[p]? = some ((c, some r), b) →
    c.Fair E (econtents (changesTook (h.take p))) r

theorem TookFair.snoc {E : Env} {h : List Took} (hh : TookFair E h) {c : ECall} {o : Option (Py EAns)} {b : Bool}
    (hr : ∀ r, o = some r → c.Fair E (econtents (changesTook h)) r) : TookFair E (h ++ [((c, o), b)]) := by
  intro p c' r' b' e
  by_cases hp : p < h.length
  · rw [List.getElem?_append_left hp] at e
    rw [List.take_append_of_le_length (by omega)]
    exact hh p c' r' b' e
  · have : p = h.length := by
      have := (List.getElem?_eq_some_iff.1 e).1
      simp at this
      omega
    subst this
    simp at e
    obtain ⟨⟨rfl, rfl⟩, rfl⟩ := e
    simpa using hr r' rfl

/-- A thread, the calls it has made, and its trie as if it were alone. -/
structure EndThread (E : Env) (log : List Bytes) (b : Bool) (calls : List ECall) (j : Nat)
    (th : Job (Nat × ECall) (Nat × EProg EAns) (Option (Py EAns))) (S : EMPT) (h : List Took) (t : MPT) : Prop where
  inside : Inside t S
  outs : th.outs = h.map (·.1.2)
  fair : TookFair E h
  idle : th.cur = none → ∃ rest, th.rest = rest.map (fun c => (j, c)) ∧ calls = h.map (·.1.1) ++ rest ∧
    MadeOk E b (calls.map ECall.key) (changesTook h) t
  busy : ∀ q, th.cur = some q → ∃ p c rest, q = (j, p) ∧ th.rest = rest.map (fun c => (j, c)) ∧
    calls = h.map (·.1.1) ++ c :: rest ∧
    p.Copes E log (Halfway E log b (calls.map ECall.key) (changesTook h) c) (fun r t' =>
      c.Fair E (econtents (changesTook h)) r ∧ MadeOk E b (calls.map ECall.key) (stepMade (changesTook h) c r) t') t

/-- All the threads. -/
structure EndOk (E : Env) (log : List Bytes) (secure : Nat → Bool) (calls : Nat → List ECall)
    (w : Shop EDicts (Nat × ECall) (Nat × EProg EAns) (Option (Py EAns))) : Prop where
  gs : GS E log w.shared.store
  sec : w.shared.secure = secure
  data : Storables w.shared.data
  thread : ∀ j, ∃ h t, EndThread E log (secure j) (calls j) j (w.jobs j) (w.shared.obj j) h t

section
variable {E : Env} {log : List Bytes} {secure : Nat → Bool} {calls : Nat → List ECall}
  {w : Shop EDicts (Nat × ECall) (Nat × EProg EAns) (Option (Py EAns))}

theorem EndOk.set (h : EndOk E log secure calls w) (j : Nat) (th : Job (Nat × ECall) (Nat × EProg EAns) (Option (Py EAns)))
    (ht : ∃ hh t, EndThread E log (secure j) (calls j) j th (w.shared.obj j) hh t) :
    EndOk E log secure calls (w.set j th) where
  gs := h.gs
  sec := h.sec
  data := h.data
  thread i := by
    by_cases e : i = j
    · subst e
      simp only [Shop.set, if_true]
      exact ht
    · simp only [Shop.set, if_neg e]
      exact h.thread i

theorem EndOk.moves (hP : PoolPeace E secure calls log) (h : EndOk E log secure calls w) (j : Nat) :
    EndOk E log secure calls ((poolMachine E).may.step j w) := by
  obtain ⟨hh, t, hs⟩ := h.thread j
  have hgs : GS E log t.store := h.gs.of_sub hs.inside.sub
  cases hcur : (w.jobs j).cur with
  | none =>
    obtain ⟨rest', hr', hcalls, hm⟩ := hs.idle hcur
    cases rest' with
    | nil =>
      have e : (poolMachine E).may.step j w = w := by unfold Machine.step; simp only [hcur, hr', List.map_nil]
      rw [e]; exact h
    | cons c rest =>
      have e : (poolMachine E).may.step j w = w.set j { w.jobs j with
          cur := some (j, c.prog E (w.shared.secure j)), rest := rest.map fun c => (j, c) } := by
        unfold Machine.step
        simp only [hcur, hr', List.map_cons]
        rfl
      rw [e]
      have hc : c ∈ calls j := by rw [hcalls]; simp
      have hsub : (changesTook hh).Sublist ((calls j).filterMap ECall.op?) := by
        rw [hcalls, List.filterMap_append]
        exact (changesTook_sublist hh).trans (List.sublist_append_left _ _)
      refine h.set j _ ⟨hh, t, hs.inside, hs.outs, hs.fair, fun e => (nomatch e), fun p hp =>
        ⟨_, c, rest, (Option.some.inj hp).symm, rfl, hcalls, ?_⟩⟩
      rw [h.sec]
      refine ECall.copes hm hP.log hgs (fun x hx => hP.all j _ hsub x (by rw [← hm.eq]; exact hx)) (hP.apart j)
        (fun k v hv => ?_) (hP.fits j c hc) (List.mem_map_of_mem hc) fun op hop => hP.all j _ ?_
      · obtain ⟨c', hc', e'⟩ := List.mem_filterMap.1 (hsub.subset hv)
        refine hP.size j k v ?_
        cases c' <;> simp [ECall.op?] at e'
        obtain ⟨rfl, rfl⟩ := e'
        exact hc'
      · rw [hcalls, List.filterMap_append]
        refine (changesTook_sublist hh).append ?_
        simp [hop]
  | some q =>
    obtain ⟨p, c, rest, rfl, hr', hcalls, hn⟩ := hs.busy q hcur
    have move : EndOk E log secure calls { w.set j { w.jobs j with cur := some (j, (EWorld.access p (w.shared.obj j)).2) } with
        shared := w.shared.put j (EWorld.access p (w.shared.obj j)).1 } := by
      obtain ⟨⟨t', a1, a2⟩, a3, a4, a5⟩ := hs.inside.access hP.log h.gs h.data hn
      refine ⟨a3, h.sec, a5, fun i => ?_⟩
      by_cases e : i = j
      · subst e
        have eo : (w.shared.put i (EWorld.access p (w.shared.obj i)).1).obj i = (EWorld.access p (w.shared.obj i)).1 := by
          have e1 : w.shared.secure i = (EWorld.access p (w.shared.obj i)).1.trie.secure :=
            (EProg.access_secure p (w.shared.obj i)).symm
          generalize EWorld.access p (w.shared.obj i) = x at e1 ⊢
          obtain ⟨⟨⟨st, r, b⟩, d⟩, q⟩ := x
          simp only [EDicts.obj, EDicts.put, if_true] at e1 ⊢
          rw [e1]
        simp only [Shop.set, if_true]
        rw [eo]
        exact ⟨hh, t', a2, hs.outs, hs.fair, fun e => (nomatch e), fun q hq =>
          ⟨_, c, rest, (Option.some.inj hq).symm, hr', hcalls, a1⟩⟩
      · obtain ⟨hh', t'', hs'⟩ := h.thread i
        simp only [Shop.set, if_neg e]
        refine ⟨hh', t'', ⟨hs'.inside.sub.trans a4, ?_, hs'.inside.secure⟩, hs'.outs, hs'.fair, hs'.idle, hs'.busy⟩
        simp only [EDicts.obj, EDicts.put, if_neg e]
        exact hs'.inside.root
    cases p with
    | done r =>
      have e : (poolMachine E).may.step j w =
          w.set j { w.jobs j with cur := none, outs := (w.jobs j).outs ++ [some r] } := by
        unfold Machine.step; simp only [hcur]; rfl
      rw [e]
      obtain ⟨-, hfair, hm⟩ := hn
      rw [changesTook_some hh c r true] at hm
      refine h.set j _ ⟨hh ++ [((c, some r), true)], t, hs.inside, ?_, hs.fair.snoc fun r' e => ?_,
        fun _ => ⟨rest, hr', ?_, hm⟩, fun p hp => (nomatch hp)⟩
      · simp [hs.outs]
      · rw [← Option.some.inj e]; exact hfair
      · simpa using hcalls
    | load | save | root | setRoot | data | setData | delData =>
      unfold Machine.step
      simp only [hcur]
      exact move

theorem EndOk.ends (h : EndOk E log secure calls w) (j : Nat) :
    EndOk E log secure calls ((poolMachine E).happen w (.ends j)) := by
  obtain ⟨hh, t, hs⟩ := h.thread j
  cases hcur : (w.jobs j).cur with
  | none =>
    have e : (poolMachine E).happen w (.ends j) = w := by unfold Machine.happen; simp only [hcur]
    rw [e]; exact h
  | some q =>
    have e : (poolMachine E).happen w (.ends j) =
        w.set j { w.jobs j with cur := none, outs := (w.jobs j).outs ++ [none] } := by
      unfold Machine.happen; simp only [hcur]
    rw [e]
    obtain ⟨p, c, rest, rfl, hr', hcalls, hn⟩ := hs.busy q hcur
    obtain ⟨_, f, t', hm, h1, h2, h3⟩ := hn.holds
    rw [changesTook_none hh c f] at hm
    refine h.set j _ ⟨hh ++ [((c, none), f)], t', ⟨h1.trans hs.inside.sub, hs.inside.root.trans h2, hs.inside.secure.trans h3⟩,
      ?_, hs.fair.snoc fun r e => (nomatch e), fun _ => ⟨rest, hr', ?_, hm⟩, fun p hp => (nomatch hp)⟩
    · simp [hs.outs]
    · simpa using hcalls

theorem EndOk.course (hP : PoolPeace E secure calls log) (h : EndOk E log secure calls w) (l : List Happening) :
    EndOk E log secure calls ((poolMachine E).course l w) := by
  induction l generalizing w with
  | nil => exact h
  | cons e l ih =>
    cases e with
    | moves j => exact ih (h.moves hP j)
    | ends j => exact ih (h.ends j)

end

theorem EndOk.new (E : Env) (log : List Bytes) (secure : Nat → Bool) (calls : Nat → List ECall) :
    EndOk E log secure calls (poolShop E secure calls) where
  gs := GS.empty E log
  sec := rfl
  data _ _ e := nomatch e
  thread j := by
    refine ⟨[], MPT.new E (secure j), ⟨Sub.refl _, rfl, rfl⟩, rfl, fun p c r b e => by simp at e,
      fun _ => ⟨calls j, rfl, rfl, ?_⟩, fun _ hp => (nomatch hp)⟩
    exact ⟨rfl, rfl, fun _ => rfl, ⟨fun _ => none, Inv.new E (secure j), ⟨fun _ _ => rfl, fun _ h => absurd rfl h, fun _ h => nomatch h⟩⟩,
      ⟨_, Bears.new E (secure j)⟩⟩

end Pymt
