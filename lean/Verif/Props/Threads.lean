import Verif.Lemmas.Readers
import Verif.Spec.Toy

/-!
# Calls from several threads (C86, C87)
-/

namespace Pymt.Props

/-! ## C86: every thread has its own trie, all over one dict -/

/-- **C86** Threads that each write to their own trie, all tries over one dict: whatever the order in which the
interpreter lets them run, every call on the own trie has the outcome it would have had if the thread had been alone,
and between calls the trie is the one the thread would then have (same root, every further call the same outcome). -/
theorem C86 (E : Env) (secure : Nat → Bool) (calls : Nat → List (Nat × Call)) (log : List Bytes)
    (h : Peaceful E secure calls log) (sched : List Nat) (j : Nat) :
    let w := (World.new E secure calls).run E sched
    (∀ (p : Nat) (c : Call) (x : Py Ans), (calls j)[p]? = some (j, c) → (w.threads j).outs[p]? = some x →
      x = (c.seq E (MPT.after E (secure j) (writesOf ((calls j).take p)))).1) ∧
    ((w.threads j).cur = none →
      w.roots j = (MPT.after E (secure j) (writesOf ((calls j).take (w.threads j).outs.length))).root ∧
      ∀ c : Call, c.op? = none → Fits E (secure j) c.key →
        (c.seq E (w.obj j)).1 =
          (c.seq E (MPT.after E (secure j) (writesOf ((calls j).take (w.threads j).outs.length)))).1) := by
  intro w
  have hw : WorldOk E secure calls log w := (WorldOk.new E secure calls log).run h sched
  have hj := hw.thread j
  constructor
  · intro p c x hc hx
    have hlt : p < (w.threads j).outs.length := (List.getElem?_eq_some_iff.1 hx).1
    have := hj.outs p c hc hlt
    rw [hx] at this
    injection this
  · intro hcur
    have he : w.ended j = (w.threads j).outs.length := by unfold World.ended; rw [hcur]; rfl
    have hr := hj.root
    have hs := hj.sub
    rw [he] at hr hs
    refine ⟨hr, fun c hop hf => ?_⟩
    have hsec : (stateAt E secure calls j (w.threads j).outs.length).secure = secure j := Peaceful.state_secure _ _
    have hq : (c.seq E (stateAt E secure calls j (w.threads j).outs.length)).2 =
        stateAt E secure calls j (w.threads j).outs.length := by
      cases c with
      | update => exact (nomatch hop)
      | delete => exact (nomatch hop)
      | get => rfl
      | contains => rfl
    have hwr : ∀ x ∈ (c.prog E (stateAt E secure calls j (w.threads j).outs.length).secure).writes
        (stateAt E secure calls j (w.threads j).outs.length), x ∈ log := by
      intro x hx
      apply h.state_written j (w.threads j).outs.length
      rw [← hq, ← Call.prog_alone, Prog.alone_written]
      exact List.mem_append_right _ hx
    have hfine := fine_call (c := c) (h.state_bears j _) h.log (h.state_gs j (w.threads j).outs.length)
      (by rw [hsec]; exact hf) (by rw [hq]; exact h.log.mono (h.state_written j _))
    have := Call.seq_mono h.log c _ w.store hfine hs hw.gs hwr
    have ho : w.obj j = { stateAt E secure calls j (w.threads j).outs.length with store := w.store } := by
      unfold World.obj
      rw [hr, hw.sec]
      show MPT.mk _ _ (secure j) = MPT.mk _ _ _
      rw [hsec]
    rw [ho, this]
    rfl

/-- Two threads with a trie each; the first also reads the trie of the second. -/
def twoThreads : Nat → List (Nat × Call)
  | 0 => [(0, .update [1, 2] (bigValue 5)), (0, .update [1, 3] (bigValue 6)), (0, .delete [1, 2]), (0, .get [1, 3]),
      (1, .get [7, 7])]
  | 1 => [(1, .update [7, 7] (bigValue 8)), (1, .update [1, 2] (bigValue 5)), (1, .contains [7, 7]), (1, .get [9])]
  | _ => []

/-- One trie is in secure mode. -/
def twoModes (j : Nat) : Bool := j = 1

/-- All the nodes both threads write. -/
def twoLog : List Bytes :=
  (MPT.after toyEnv (twoModes 0) (writesOf (twoThreads 0))).store.written ++
    (MPT.after toyEnv (twoModes 1) (writesOf (twoThreads 1))).store.written

/-- The conditions of `Peaceful`, for two threads. -/
theorem peaceful_of {E : Env} {secure : Nat → Bool} {calls : Nat → List (Nat × Call)} {log : List Bytes}
    (hnil : ∀ n, calls (n + 2) = [])
    (h : (([0, 1].all fun j => (calls j).all fun c => decide (c.2.op? ≠ none → c.1 = j)) &&
      ([0, 1].all fun j => (calls j).all fun c => decide (Fits E (secure c.1) c.2.key)) &&
      ([0, 1].all fun j => (MPT.after E (secure j) (writesOf (calls j))).store.written.all fun x =>
        decide (x ∈ log)) && logOkB E log) = true) : Peaceful E secure calls log := by
  simp only [Bool.and_eq_true, List.all_cons, List.all_nil, Bool.and_true, List.all_eq_true, decide_eq_true_eq] at h
  obtain ⟨⟨⟨h1, h3⟩, h4⟩, h5⟩ := h
  refine ⟨?_, ?_, ?_, logOk_of h5⟩
  · intro j c hc hop
    match j with
    | 0 => exact h1.1 c hc hop
    | 1 => exact h1.2 c hc hop
    | n + 2 => rw [hnil] at hc; exact (nomatch hc)
  · intro j c hc
    match j with
    | 0 => exact h3.1 c hc
    | 1 => exact h3.2 c hc
    | n + 2 => rw [hnil] at hc; exact (nomatch hc)
  · intro j x hx
    match j with
    | 0 => exact h4.1 x hx
    | 1 => exact h4.2 x hx
    | n + 2 => rw [hnil] at hx; exact (nomatch hx)

theorem two_peaceful : Peaceful toyEnv twoModes twoThreads twoLog :=
  peaceful_of (fun _ => rfl) (by decide +kernel)

/-- A schedule that switches threads after every access. -/
def zigzag (n : Nat) : List Nat := (List.replicate n [0, 1]).flatten

example :
    let w := (World.new toyEnv twoModes twoThreads).run toyEnv (zigzag 40)
    (w.threads 0).outs.map (·.toOption) =
      [some .none, some .none, some .none, some (.value (bigValue 6)), some (.value (bigValue 8))] ∧
    (w.threads 1).outs.map (·.toOption) = [some .none, some .none, some (.bool true), none] ∧
    w.roots 0 = (MPT.after toyEnv false [.update [1, 3] (bigValue 6)]).root := by decide +kernel

example := C86 toyEnv twoModes twoThreads twoLog two_peaceful (zigzag 40) 0

/-- Threads that also write empty values, one of which is lost (C25). -/
def lossyThreads : Nat → List (Nat × Call)
  | 0 => [(0, .update [1, 2] []), (0, .update [1, 2, 3] (bigValue 5)), (0, .get [1, 2, 3]), (0, .delete [1, 2])]
  | 1 => [(1, .update [7] []), (0, .contains [1, 2, 3]), (1, .delete [7])]
  | _ => []

theorem lossy_peaceful : Peaceful toyEnv (fun _ => false) lossyThreads
    ((MPT.after toyEnv false (writesOf (lossyThreads 0))).store.written ++
      (MPT.after toyEnv false (writesOf (lossyThreads 1))).store.written) :=
  peaceful_of (fun _ => rfl) (by decide +kernel)

-- The value is lost whatever the other thread does.
example : (((World.new toyEnv (fun _ => false) lossyThreads).run toyEnv (zigzag 40)).threads 0).outs =
    [.ok .none, .ok .none, .ok (.value (bigValue 5)), .error .assertion] := by decide +kernel

/-! ## C87: reading a trie that another thread writes to -/

/-- **C87** (full statement; false) A `get` or `contains` on a trie that another thread writes to returns what it
would have returned on the trie as it was at some moment while the call ran. -/
def C87 : Prop :=
  ∀ (E : Env) (secure : Nat → Bool) (calls : Nat → List (Nat × Call)) (log : List Bytes),
    Peaceful E secure calls log → ∀ (sched sched' : List Nat) (j i : Nat) (c : Call) (rest : List (Nat × Call))
    (x : Py Ans),
    let w := (World.new E secure calls).run E sched
    let w' := w.run E sched'
    (w.threads j).cur = none → (w.threads j).rest = (i, c) :: rest → c.op? = none →
    (w'.threads j).outs[(w.threads j).outs.length]? = some x →
    ∃ q, w.ended i ≤ q ∧ q ≤ w'.ended i ∧ x = (c.seq E (MPT.after E (secure i) (writesOf ((calls i).take q)))).1

/-- **C87** (part) As stated, with two exceptions.  If the writer deletes the last key while the call runs, the call
may raise TypeError (`len(None)`).  If the writer makes the first insertion into the new trie while `contains` runs,
`contains` may raise KeyError. -/
theorem C87_moment_partial (E : Env) (secure : Nat → Bool) (calls : Nat → List (Nat × Call)) (log : List Bytes)
    (h : Peaceful E secure calls log) (sched sched' : List Nat) (j i : Nat) (c : Call) (rest : List (Nat × Call))
    (x : Py Ans) :
    let w := (World.new E secure calls).run E sched
    let w' := w.run E sched'
    (w.threads j).cur = none → (w.threads j).rest = (i, c) :: rest → c.op? = none →
    (w'.threads j).outs[(w.threads j).outs.length]? = some x →
    (∃ q, w.ended i ≤ q ∧ q ≤ w'.ended i ∧
      x = (c.seq E (MPT.after E (secure i) (writesOf ((calls i).take q)))).1) ∨
    (x = .error .typeError ∧ ∃ q q', w.ended i ≤ q ∧ q < q' ∧ q' ≤ w'.ended i ∧
      (MPT.after E (secure i) (writesOf ((calls i).take q))).root ≠ none ∧
      (MPT.after E (secure i) (writesOf ((calls i).take q'))).root = none) ∨
    (x = .error .keyError ∧ (∃ k, c = .contains k) ∧ ∃ q q', w.ended i ≤ q ∧ q < q' ∧ q' ≤ w'.ended i ∧
      (MPT.after E (secure i) (writesOf ((calls i).take q))).root = some (emptyHash E) ∧
      (MPT.after E (secure i) (writesOf ((calls i).take q'))).root ≠ some (emptyHash E)) := by
  intro w w' hcur hrest hop hx
  have hw : WorldOk E secure calls log w := (WorldOk.new E secure calls log).run h sched
  have hmem : (i, c) ∈ calls j := by
    have := (hw.thread j).idle hcur
    rw [hrest] at this
    exact List.mem_of_getElem? (drop_get this)
  have hr : Reader E secure calls j i c (w.threads j).outs.length (w.ended i) rest w := by
    refine ⟨Nat.le_refl _, fun _ _ => hrest, fun _ i' p e => ?_, Nat.le_refl _, fun hlt => absurd hlt (Nat.lt_irrefl _)⟩
    rw [hcur] at e; exact (nomatch e)
  have hr' := hr.run h hop (h.fits j _ hmem) hw sched'
  obtain ⟨x', h1, h2⟩ := hr'.past (List.getElem?_eq_some_iff.1 hx).1
  have : x' = x := by
    have := h1.symm.trans hx
    injection this
  subst this
  have lt : ∀ {q q' : Nat}, q ≤ q' → (stateAt E secure calls i q).root ≠ (stateAt E secure calls i q').root → q < q' :=
    fun {q q'} h1 h2 => (Nat.lt_or_eq_of_le h1).resolve_right fun e => h2 (by rw [e])
  rcases h2 with ⟨q, h2, h3⟩ | ⟨hx, q, q', ⟨h2, _⟩, ⟨_, h4⟩, h3, h5, h6⟩ | ⟨hx, hc, q, q', ⟨h2, _⟩, ⟨_, h4⟩, h3, h5, h6⟩
  · exact .inl ⟨q, h2.1, h2.2, h3⟩
  · exact .inr (.inl ⟨hx, q, q', h2, lt h3 (by rw [h6]; exact h5), h4, h5, h6⟩)
  · exact .inr (.inr ⟨hx, hc, q, q', h2, lt h3 (by rw [h5]; exact Ne.symm h6), h4, h5, h6⟩)

/-- **C87** (part) If no call of the writer had its effect between the beginning and the end of a read, the answer is
exactly that of the trie at that time, even though the writer may have been at work all the time. -/
theorem C87_undisturbed_partial (E : Env) (secure : Nat → Bool) (calls : Nat → List (Nat × Call)) (log : List Bytes)
    (h : Peaceful E secure calls log) (sched sched' : List Nat) (j i : Nat) (c : Call) (rest : List (Nat × Call))
    (x : Py Ans) :
    let w := (World.new E secure calls).run E sched
    let w' := w.run E sched'
    (w.threads j).cur = none → (w.threads j).rest = (i, c) :: rest → c.op? = none →
    (w'.threads j).outs[(w.threads j).outs.length]? = some x → w'.ended i = w.ended i →
    x = (c.seq E (MPT.after E (secure i) (writesOf ((calls i).take (w.ended i))))).1 := by
  intro w w' h1 h2 h3 h4 h5
  have := C87_moment_partial E secure calls log h sched sched' j i c rest x h1 h2 h3 h4
  rcases this with ⟨q, a1, a2, a3⟩ | ⟨_, q, q', a1, a2, a3, _⟩ | ⟨_, _, q, q', a1, a2, a3, _⟩
  · have : q = w.ended i := by
      have : q ≤ w'.ended i := a2
      rw [h5] at this
      exact Nat.le_antisymm this a1
    rw [a3, this]
  · have : q' ≤ w.ended i := h5 ▸ a3
    exact absurd (Nat.lt_of_lt_of_le a2 this) (Nat.not_lt.2 a1)
  · have : q' ≤ w.ended i := h5 ▸ a3
    exact absurd (Nat.lt_of_lt_of_le a2 this) (Nat.not_lt.2 a1)

/-- A reader, and a writer who inserts a key and deletes it. -/
def emptied : Nat → List (Nat × Call)
  | 0 => [(1, .get [7, 7]), (1, .contains [7, 7])]
  | 1 => [(1, .update [7, 7] (bigValue 8)), (1, .delete [7, 7])]
  | _ => []

/-- All the nodes written. -/
def emptiedLog : List Bytes := (MPT.after toyEnv false (writesOf (emptied 1))).store.written

theorem emptied_peaceful : Peaceful toyEnv (fun _ => false) emptied emptiedLog :=
  peaceful_of (fun _ => rfl) (by decide +kernel)

/-- The reader looks at the root, the writer deletes the last key, the reader looks again: `get` raises TypeError. -/
theorem C87_get_typeError :
    let w := (World.new toyEnv (fun _ => false) emptied).run toyEnv (List.replicate 5 1)
    let w' := w.run toyEnv ([0, 0] ++ List.replicate 12 1 ++ [0, 0])
    (w'.threads 0).outs = [.error .typeError] ∧ w.ended 1 = 1 ∧ w'.ended 1 = 2 := by decide +kernel

/-- `contains` on a new trie while the first key is inserted: KeyError. -/
theorem C87_contains_keyError :
    let calls : Nat → List (Nat × Call) := fun j => match j with
      | 0 => [(1, .contains [7, 7])]
      | 1 => [(1, .update [7, 7] (bigValue 8))]
      | _ => []
    let w' := (World.new toyEnv (fun _ => false) calls).run toyEnv ([0, 0, 0] ++ List.replicate 5 1 ++ [0, 0, 0, 0])
    (w'.threads 0).outs = [.error .keyError] ∧ (w'.threads 1).outs = [.ok .none] := by decide +kernel

theorem C87_false : ¬ C87 := by
  intro h
  obtain ⟨q, h1, h2, h3⟩ := h toyEnv (fun _ => false) emptied emptiedLog emptied_peaceful (List.replicate 5 1)
    ([0, 0] ++ List.replicate 12 1 ++ [0, 0]) 0 1 (.get [7, 7]) [(1, .contains [7, 7])] (.error .typeError)
    (by decide +kernel) (by decide +kernel) rfl (by decide +kernel)
  have e1 : ((World.new toyEnv (fun _ => false) emptied).run toyEnv (List.replicate 5 1)).ended 1 = 1 := by
    decide +kernel
  have e2 : (((World.new toyEnv (fun _ => false) emptied).run toyEnv (List.replicate 5 1)).run toyEnv
      ([0, 0] ++ List.replicate 12 1 ++ [0, 0])).ended 1 = 2 := by decide +kernel
  rw [e1] at h1
  rw [e2] at h2
  have : q = 1 ∨ q = 2 := by omega
  rcases this with rfl | rfl
  · revert h3; decide +kernel
  · revert h3; decide +kernel

/-- The hypotheses hold in the run that goes wrong, and in one where the reader is answered in time. -/
example := C87_moment_partial toyEnv (fun _ => false) emptied emptiedLog emptied_peaceful (List.replicate 5 1)
  ([0, 0] ++ List.replicate 12 1 ++ [0, 0]) 0 1 (.get [7, 7]) [(1, .contains [7, 7])] (.error .typeError)
  (by decide +kernel) (by decide +kernel) rfl (by decide +kernel)

example :=
  C87_undisturbed_partial toyEnv (fun _ => false) emptied emptiedLog emptied_peaceful (List.replicate 5 1)
  [0, 1, 0, 1, 0, 1, 0, 1, 0, 0, 0] 0 1 (.get [7, 7]) [(1, .contains [7, 7])] (.ok (.value (bigValue 8)))
  (by decide +kernel) (by decide +kernel) rfl (by decide +kernel) (by decide +kernel)

end Pymt.Props
