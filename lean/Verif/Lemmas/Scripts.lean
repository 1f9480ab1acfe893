import Verif.Spec.Scripts
import Verif.Spec.Choosing
import Verif.Props.Choosing

/-!
# Programs that use a trie of their own
-/

namespace Pymt

namespace ThreadSystem

variable {W C : Type} (T : ThreadSystem W C)

/-- The last step of a schedule. -/
theorem choosing_snoc (choose : W → Nat → Option C) (j : Nat) : ∀ (s : List Nat) (w : W),
    T.choosing choose (s ++ [j]) w =
      let (w, made) := T.choosing choose s w
      if T.idle w j then
        match choose w j with
        | none => (w, made)
        | some c => (T.start j c w, fun i => if i = j then made i ++ [c] else made i)
      else (T.step j w, made)
  | [], w => by
    show T.choosing choose [j] w = if T.idle w j = true then _ else _
    simp only [choosing]
    split
    · cases choose w j with
      | none => rfl
      | some c => rfl
    · rfl
  | i :: s, w => by
    simp only [List.cons_append, choosing]
    cases hi : T.idle w i with
    | false =>
      simp only [Bool.false_eq_true, if_false]
      exact choosing_snoc choose j s _
    | true =>
      simp only [if_true]
      cases hc : choose w i with
      | none => exact choosing_snoc choose j s _
      | some c =>
        simp only []
        rw [choosing_snoc choose j s]
        simp only []
        cases T.idle (T.choosing choose s (T.start i c w)).1 j with
        | false => simp
        | true =>
          simp only [if_true]
          cases choose (T.choosing choose s (T.start i c w)).1 j with
          | none => rfl
          | some c' =>
            simp only []
            congr 1
            funext a
            by_cases h1 : a = i <;> by_cases h2 : a = j <;> simp [h1, h2]
            all_goals (split <;> simp_all)

end ThreadSystem

namespace Script

variable {β : Type}

/-- The outcomes of the calls of a program that is alone. -/
def answers (E : Env) : Script β → MPT → List (Py Ans)
  | .over, _ => []
  | .note _ p, t => p.answers E t
  | .call c k, t => (c.seq E t).1 :: (k (c.seq E t).1).answers E (c.seq E t).2

theorem answers_length (E : Env) : ∀ (p : Script β) (t : MPT), (p.answers E t).length = (p.calls E t).length
  | .over, _ => rfl
  | .note _ p, t => answers_length E p t
  | .call c k, t => by simp [answers, calls, answers_length E (k (c.seq E t).1)]

theorem next_answers (E : Env) : ∀ (p : Script β) (t : MPT) (n : Nat), n ≤ (p.calls E t).length →
    p.next ((p.answers E t).take n) = (p.calls E t)[n]?
  | .over, _, n, _ => by simp [next, calls]
  | .note _ p, t, n, h => next_answers E p t n h
  | .call c k, t, 0, _ => rfl
  | .call c k, t, n + 1, h => by
    simp only [answers, List.take_succ_cons, next, calls, List.getElem?_cons_succ]
    exact next_answers E _ _ n (by simpa [calls] using h)

theorem noted_answers (E : Env) : ∀ (p : Script β) (t : MPT) (n : Nat),
    p.noted ((p.answers E t).take n) <+: (p.alone E t).1 ∧
      ((p.calls E t).length ≤ n → p.noted ((p.answers E t).take n) = (p.alone E t).1)
  | .over, _, n => by simp [noted, alone]
  | .note x p, t, n => by
    obtain ⟨h1, h2⟩ := noted_answers E p t n
    refine ⟨?_, fun h => ?_⟩
    · obtain ⟨r, hr⟩ := h1
      exact ⟨r, by simp only [noted, alone, answers, List.cons_append, hr]⟩
    · simp only [noted, alone, answers]
      rw [h2 h]
  | .call c k, t, 0 => ⟨List.nil_prefix, fun h => by simp [calls] at h⟩
  | .call c k, t, n + 1 => by
    obtain ⟨h1, h2⟩ := noted_answers E (k (c.seq E t).1) (c.seq E t).2 n
    refine ⟨h1, fun h => ?_⟩
    exact h2 (by simpa [calls] using h)

/-- The trie after calls one after the other. -/
theorem seq_state (E : Env) (c : Call) (t : MPT) :
    (c.seq E t).2 = MPT.run E (c.op?.toList) t := by
  cases c <;> rfl

theorem run_append_ops (E : Env) (a b : List Op) (t : MPT) : MPT.run E (a ++ b) t = MPT.run E b (MPT.run E a t) := by
  simp [MPT.run]

theorem filterMap_op (c : Call) (l : List Call) : (c :: l).filterMap Call.op? = c.op?.toList ++ l.filterMap Call.op? := by
  cases h : c.op? <;> simp [h]

theorem alone_state (E : Env) : ∀ (p : Script β) (t : MPT),
    (p.alone E t).2 = MPT.run E ((p.calls E t).filterMap Call.op?) t
  | .over, _ => rfl
  | .note _ p, t => alone_state E p t
  | .call c k, t => by
    simp only [alone, calls]
    rw [alone_state E, filterMap_op, run_append_ops, ← seq_state]

theorem answers_get (E : Env) : ∀ (p : Script β) (t : MPT) (n : Nat) (c : Call), (p.calls E t)[n]? = some c →
    (p.answers E t)[n]? = some (c.seq E (MPT.run E (((p.calls E t).take n).filterMap Call.op?) t)).1
  | .over, _, n, c, h => by simp [calls] at h
  | .note _ p, t, n, c, h => answers_get E p t n c h
  | .call c k, t, 0, c', h => by
    simp only [calls, List.getElem?_cons_zero, Option.some.injEq] at h
    subst h
    rfl
  | .call c k, t, n + 1, c', h => by
    simp only [calls, List.getElem?_cons_succ] at h
    simp only [answers, calls, List.getElem?_cons_succ, List.take_succ_cons]
    rw [answers_get E _ _ n c' h, filterMap_op, run_append_ops, ← seq_state]

end Script

theorem writesOf_own (j : Nat) (l : List Call) : writesOf (l.map (j, ·)) = l.filterMap Call.op? := by
  simp [writesOf, List.filterMap_map, Function.comp_def]

/-- What is invariant when threads run programs with a trie each. -/
structure ScriptsOk {β : Type} (E : Env) (secure : Nat → Bool) (program : Nat → Script β) (w : World)
    (made : Nat → List (Nat × Call)) : Prop where
  calls : ∀ j, ∃ n, made j = (((program j).calls E (MPT.new E (secure j))).take n).map (j, ·)
  length : ∀ j, (made j).length = (w.threads j).outs.length + (if (w.threads j).cur.isSome then 1 else 0)

theorem step_busy_length (E : Env) (j : Nat) (w : World) (h : (w.threads j).cur.isSome = true) (i : Nat) :
    ((w.step E j).threads i).outs.length + (if ((w.step E j).threads i).cur.isSome then 1 else 0) =
      (w.threads i).outs.length + (if (w.threads i).cur.isSome then 1 else 0) := by
  obtain ⟨⟨n, p⟩, hq⟩ := Option.isSome_iff_exists.1 h
  by_cases hi : i = j
  · subst hi
    cases p with
    | done r => simp [World.step, hq, World.setThread]
    | load k f => simp only [World.step, hq]; split <;> simp [World.setThread]
    | save k v f => simp [World.step, hq, World.setThread]
    | root f => simp [World.step, hq, World.setThread]
    | setRoot r f => simp [World.step, hq, World.setThread]
  · cases p with
    | done r => simp [World.step, hq, World.setThread, hi]
    | load k f => simp only [World.step, hq]; split <;> simp [World.setThread, hi]
    | save k v f => simp [World.step, hq, World.setThread, hi]
    | root f => simp [World.step, hq, World.setThread, hi]
    | setRoot r f => simp [World.step, hq, World.setThread, hi]

theorem Private.peaceful {β : Type} {E : Env} {secure : Nat → Bool} {program : Nat → Script β} {log : List Bytes}
    (h : Private E secure program log) {made : Nat → List (Nat × Call)}
    (hm : ∀ j, ∃ n, made j = (((program j).calls E (MPT.new E (secure j))).take n).map (j, ·)) :
    Peaceful E secure made log := by
  refine ⟨fun j c hc _ => ?_, fun j c hc => ?_, fun j x hx => h.all j x ?_, h.log⟩
  · obtain ⟨n, e⟩ := hm j
    rw [e] at hc
    obtain ⟨c', _, rfl⟩ := List.mem_map.1 hc
    rfl
  · obtain ⟨n, e⟩ := hm j
    rw [e] at hc
    obtain ⟨c', hc', rfl⟩ := List.mem_map.1 hc
    exact h.fits j c' (List.mem_of_mem_take hc')
  · obtain ⟨n, e⟩ := hm j
    rw [e, writesOf_own] at hx
    rw [Script.alone_state]
    have hs : (program j).calls E (MPT.new E (secure j)) =
        ((program j).calls E (MPT.new E (secure j))).take n ++ ((program j).calls E (MPT.new E (secure j))).drop n :=
      (List.take_append_drop _ _).symm
    rw [hs, List.filterMap_append, Script.run_append_ops]
    obtain ⟨ws, e'⟩ := run_writes E ((((program j).calls E (MPT.new E (secure j))).drop n).filterMap Call.op?)
      (MPT.after E (secure j) ((((program j).calls E (MPT.new E (secure j))).take n).filterMap Call.op?))
    show x ∈ (MPT.run E _ (MPT.after E (secure j) _)).store.written
    rw [e', replay_written]
    exact List.mem_append_left _ hx

variable {β : Type} {E : Env} {secure : Nat → Bool} {program : Nat → Script β} {log : List Bytes}

/-- The outcomes so far are those of a program that is alone. -/
theorem ScriptsOk.outs (hp : Private E secure program log) (sched : List Nat)
    (h : ScriptsOk E secure program
      ((mptThreads E).choosing (Script.choice program) sched (World.new E secure fun _ => [])).1
      ((mptThreads E).choosing (Script.choice program) sched (World.new E secure fun _ => [])).2) (j : Nat) :
    let w := ((mptThreads E).choosing (Script.choice program) sched (World.new E secure fun _ => [])).1
    (w.threads j).outs.length ≤ ((program j).calls E (MPT.new E (secure j))).length ∧
    (w.threads j).outs = ((program j).answers E (MPT.new E (secure j))).take (w.threads j).outs.length := by
  have own := Props.C151_own E secure (Script.choice program) sched log (hp.peaceful h.calls) j
  obtain ⟨n, hn⟩ := h.calls j
  have hl := h.length j
  generalize ((mptThreads E).choosing (Script.choice program) sched (World.new E secure fun _ => [])).1 = w at *
  generalize ((mptThreads E).choosing (Script.choice program) sched (World.new E secure fun _ => [])).2 = made at *
  have hle : (w.threads j).outs.length ≤ ((program j).calls E (MPT.new E (secure j))).length := by
    rw [hn] at hl
    simp at hl
    omega
  refine ⟨hle, List.ext_getElem? fun p => ?_⟩
  by_cases hlt : p < (w.threads j).outs.length
  · rw [List.getElem?_take_of_lt hlt]
    obtain ⟨c, hc⟩ : ∃ c, ((program j).calls E (MPT.new E (secure j)))[p]? = some c :=
      ⟨_, List.getElem?_eq_getElem (by omega)⟩
    have hpn : p < n := by
      rw [hn] at hl
      simp at hl
      omega
    have hm : (made j)[p]? = some (j, c) := by
      rw [hn, List.getElem?_map, List.getElem?_take_of_lt hpn, hc]; rfl
    rw [Script.answers_get E _ _ p c hc]
    have hx := List.getElem?_eq_getElem hlt
    rw [hx, own p c _ hm hx, hn, ← List.map_take, writesOf_own, List.take_take, Nat.min_eq_left (Nat.le_of_lt hpn)]
    rfl
  · rw [List.getElem?_eq_none (by omega), List.getElem?_eq_none (by simp; omega)]

theorem snoc_induction {P : List Nat → Prop} (h0 : P []) (h1 : ∀ s j, P s → P (s ++ [j])) (s : List Nat) : P s := by
  have : ∀ s : List Nat, P s.reverse := by
    intro s
    induction s with
    | nil => exact h0
    | cons j s ih => rw [List.reverse_cons]; exact h1 _ _ ih
  simpa using this s.reverse

theorem ScriptsOk.run (hp : Private E secure program log) (sched : List Nat) : ScriptsOk E secure program
      ((mptThreads E).choosing (Script.choice program) sched (World.new E secure fun _ => [])).1
      ((mptThreads E).choosing (Script.choice program) sched (World.new E secure fun _ => [])).2 := by
  refine snoc_induction (P := fun sched => ScriptsOk E secure program
      ((mptThreads E).choosing (Script.choice program) sched (World.new E secure fun _ => [])).1
      ((mptThreads E).choosing (Script.choice program) sched (World.new E secure fun _ => [])).2) ?_ ?_ sched
  · exact ⟨fun j => ⟨0, rfl⟩, fun j => rfl⟩
  · intro s j ih
    have ho := fun j => ScriptsOk.outs hp s ih j
    rw [ThreadSystem.choosing_snoc]
    generalize (mptThreads E).choosing (Script.choice program) s (World.new E secure fun _ => []) = r at *
    obtain ⟨w, made⟩ := r
    simp only at *
    split
    · rename_i hi
      have hcur : (w.threads j).cur = none := by simpa [mptThreads] using hi
      cases hc : Script.choice program w j with
      | none => exact ih
      | some c =>
        simp only []
        obtain ⟨c', hc', rfl⟩ := Option.map_eq_some_iff.1 hc
        obtain ⟨hle, hout⟩ := ho j
        rw [hout, Script.next_answers E _ _ _ hle] at hc'
        refine ⟨fun i => ?_, fun i => ?_⟩
        · by_cases hij : i = j
          · subst hij
            simp only [if_true]
            obtain ⟨n, hn⟩ := ih.calls i
            have hl := ih.length i
            simp only [hcur, Option.isSome_none, Bool.false_eq_true, if_false, Nat.add_zero] at hl
            refine ⟨(w.threads i).outs.length + 1, ?_⟩
            have e : made i = (((program i).calls E (MPT.new E (secure i))).take (w.threads i).outs.length).map (i, ·) := by
              rw [← hl, hn, List.length_map, List.length_take, List.take_eq_take_min]
            rw [e, List.take_add_one, hc']
            simp
          · simp only [hij, if_false]
            exact ih.calls i
        · by_cases hij : i = j
          · subst hij
            have hl := ih.length i
            simp only [hcur, Option.isSome_none, Bool.false_eq_true, if_false, Nat.add_zero] at hl
            simp [mptThreads, World.setThread, hl]
          · have hl := ih.length i
            simp only [hij, if_false, mptThreads, World.setThread]
            exact hl
    · rename_i hi
      have hcur : (w.threads j).cur.isSome = true := by
        cases h : (w.threads j).cur with
        | none => exact absurd (by simp [mptThreads, h]) hi
        | some _ => rfl
      exact ⟨ih.calls, fun i => (ih.length i).trans (step_busy_length E j w hcur i).symm⟩

end Pymt
