import Verif.Lemmas.Turns
import Verif.Props.Crowd

/-!
# Several threads that take turns to write to one trie (C89)
-/

namespace Pymt.Props

/-- **C89** If writers of a trie take turns (readers need not), there is an order in which the calls that changed the
trie happened: at every moment the trie reads as after these changes, new changes only come at the end, and the changes
of each thread are its successful calls in its own order, perhaps with the call it is about to return from. -/
theorem C89_order (E : Env) (secure : Nat → Bool) (calls : Nat → List (Nat × Call)) (log : List Bytes)
    (h : Crowd E secure calls log) (sched : List Nat) (i : Nat) (ht : Turns E secure calls sched i) :
    let W := worldAt E secure calls sched
    ∃ order : Nat → List (Nat × Op), (∀ q q', q ≤ q' → order q <+: order q') ∧
      ∀ q, q ≤ sched.length → ReadsAs E ((W q).obj i) ((order q).map Prod.snd) ∧
        ∀ j, (ofThread j (order q) = successes calls (W q) i j) ∨
          (∃ n c op, (W q).Running j n ∧ (calls j)[n]? = some (i, c) ∧ c.op? = some op ∧
            ofThread j (order q) = successes calls (W q) i j ++ [op]) := by
  intro W
  refine ⟨effects E secure calls sched i, fun q q' => effects_prefix, fun q hq => ⟨?_, fun j => ?_⟩⟩
  · have hi := ht.rounds.bears (h.on sched) q hq
    have hs : ((W q).obj i).secure = secure i := congrFun (worldAt_secure _ _) i
    rw [← hs] at hi
    exact hi.reads (h.log.mono (h.all (sched.take q)))
  · obtain ⟨h1, _⟩ := changes (h.on sched) i j q hq
    rw [h1]
    show _ ++ (W q).pend calls i j = _ ∨ _
    by_cases hp : (W q).pend calls i j = []
    · left; rw [hp, List.append_nil]
    · right
      have hok := CrowdOk.all (h.on sched) q hq
      unfold World.pend at hp
      split at hp
      · rename_i i' hcur
        split at hp
        · rename_i hi'
          subst hi'
          obtain ⟨c, hd, _⟩ := hok.busy j _ _ hcur
          have hg := drop_get hd
          have hof : (W q).opOf calls j = c.op? := by unfold World.opOf; rw [hg]; rfl
          cases ho : c.op? with
          | none => rw [hof, ho] at hp; exact absurd rfl hp
          | some op =>
            refine ⟨_, c, op, ⟨rfl, by rw [hcur]; rfl⟩, hg, ho, ?_⟩
            congr 1
            unfold World.pend
            rw [hcur, hof, ho]
            simp
        · exact absurd rfl hp
      · exact absurd rfl hp

/-- **C89** Then every finished `update` or `delete` of the trie has the outcome it has when called alone on the trie as
it was at some moment while the call ran. -/
theorem C89_outcome (E : Env) (secure : Nat → Bool) (calls : Nat → List (Nat × Call)) (log : List Bytes)
    (h : Crowd E secure calls log) (sched : List Nat) (i : Nat) (ht : Turns E secure calls sched i) (j n : Nat) (c : Call)
    (x : Py Ans) (hc : (calls j)[n]? = some (i, c)) (hop : c.op? ≠ none)
    (hx : (((World.new E secure calls).run E sched).threads j).outs[n]? = some x) :
    let W := worldAt E secure calls sched
    ∃ q, q ≤ sched.length ∧ (W q).Running j n ∧ x = (c.seq E ((W q).obj i)).1 := by
  intro W
  have hw : worldAt E secure calls sched sched.length = (World.new E secure calls).run E sched := by
    unfold worldAt; rw [List.take_length]
  have hxq : ((W sched.length).threads j).outs[n]? = some x := by rw [← hx, ← hw]
  rcases C88_outcome_partial E secure calls log h sched j n i c x hc hx with ⟨q, h1, h2, h3, _⟩ |
    ⟨h1, _, q, q', h2, h3, h4, h5, h6, h7⟩ | ⟨_, ⟨k, rfl⟩, _⟩
  · exact ⟨q, h1, h2, h3⟩
  · have hcur : ((W q').threads j).cur ≠ some (i, .done (.ok .none)) := by
      intro e
      have := fate h5.1 e h3 (Nat.le_refl _) hxq
      rw [h1] at this
      exact (nomatch this)
    have := roots_of_effects (h.on sched) h2 h3 (turns_still (h.on sched) hc hop h4 h5 h2 h3 hcur (.inl ht))
    rw [this] at h7
    exact absurd h7 h6
  · exact absurd rfl hop

/-- **C89** When all threads are done, the trie reads as after all the successful calls, in some order that keeps each
thread's own order: no change is lost. -/
theorem C89_done (E : Env) (secure : Nat → Bool) (calls : Nat → List (Nat × Call)) (log : List Bytes)
    (h : Crowd E secure calls log) (sched : List Nat) (i : Nat) (ht : Turns E secure calls sched i)
    (hd : ∀ j, (((World.new E secure calls).run E sched).threads j).cur = none) :
    let w := (World.new E secure calls).run E sched
    ∃ order : List (Nat × Op), ReadsAs E (w.obj i) (order.map Prod.snd) ∧
      ∀ j, ofThread j order = successes calls w i j := by
  intro w
  have hw : worldAt E secure calls sched sched.length = (World.new E secure calls).run E sched := by
    unfold worldAt; rw [List.take_length]
  obtain ⟨order, _, h2⟩ := C89_order E secure calls log h sched i ht
  obtain ⟨h3, h4⟩ := h2 sched.length (Nat.le_refl _)
  rw [hw] at h3 h4
  refine ⟨order sched.length, h3, fun j => ?_⟩
  rcases h4 j with h5 | ⟨n, c, op, h5, _⟩
  · exact h5
  · have := h5.2
    rw [hd j] at this
    exact (nomatch this)

theorem rest_idle (sched : List Nat) (j : Nat) :
    ((World.new toyEnv (fun _ => false) rivals).run toyEnv sched).threads (j + 2) =
      (World.new toyEnv (fun _ => false) rivals).threads (j + 2) := by
  have : ∀ w : World, World.idle w (j + 2) = true → (w.run toyEnv sched).threads (j + 2) = w.threads (j + 2) := by
    induction sched with
    | nil => intro w _; rfl
    | cons a sched ih =>
      intro w hw
      show ((w.step toyEnv a).run toyEnv sched).threads _ = _
      have : (w.step toyEnv a).threads (j + 2) = w.threads (j + 2) := by
        by_cases e : j + 2 = a
        · rw [← e, step_idle hw]
        · exact w.step_other toyEnv e
      rw [← this]
      refine ih _ ?_
      unfold World.idle
      rw [this]
      exact hw
  exact this _ rfl

/-- The threads of `rivals`, one after the other. -/
def polite : List Nat := List.replicate 12 0 ++ List.replicate 12 1

theorem polite_turns : Turns toyEnv (fun _ => false) rivals polite 0 := by
  have key : ∀ q, q < 25 → ¬ (((worldAt toyEnv (fun _ => false) rivals polite q).threads 0).cur.isSome = true ∧
      ((worldAt toyEnv (fun _ => false) rivals polite q).threads 1).cur.isSome = true) := by decide +kernel
  have hrest : ∀ q j n, ¬ (worldAt toyEnv (fun _ => false) rivals polite q).Running (j + 2) n := by
    intro q j n h
    have := h.2
    unfold worldAt at this
    rw [rest_idle] at this
    exact (nomatch this)
  intro q hq j n c j' n' c' h1 _ _ h2 _ _
  have hk := key q (Nat.lt_succ_of_le hq)
  match j, j' with
  | 0, 0 => rfl
  | 1, 1 => rfl
  | 0, 1 => exact absurd ⟨h1.2, h2.2⟩ hk
  | 1, 0 => exact absurd ⟨h2.2, h1.2⟩ hk
  | j + 2, _ => exact absurd h1 (hrest _ _ _)
  | _, j + 2 => exact absurd h2 (hrest _ _ _)

example := C89_order toyEnv (fun _ => false) rivals rivalsLog rivals_crowd polite 0 polite_turns
example := C89_done toyEnv (fun _ => false) rivals rivalsLog rivals_crowd polite 0 polite_turns (by
  intro j
  match j with
  | 0 => decide +kernel
  | 1 => decide +kernel
  | j + 2 => rw [rest_idle]; rfl)
example : successes rivals ((World.new toyEnv (fun _ => false) rivals).run toyEnv polite) 0 0 =
    [.update [1, 2] (bigValue 5)] := by decide +kernel
example := C89_outcome toyEnv (fun _ => false) rivals rivalsLog rivals_crowd polite 0 polite_turns 1 0
  (.update [1, 3] (bigValue 6)) (.ok .none) rfl (by simp [Call.op?]) (by decide +kernel)

end Pymt.Props
