import Verif.Lemmas.Sweep
import Verif.Props.Collect
import Verif.Props.Threads

/-!
# Removing nodes from a dict that threads use (C129)
-/

namespace Pymt.Props

/-- **C129** (full statement; false) A client that now and then removes from the dict what cannot be reached from the
current root of any trie over it goes unnoticed by the threads that make calls on these tries (every trie having one
writer): every call has the outcome it has without the removals. -/
def C129 : Prop :=
  ∀ (E : Env) (secure : Nat → Bool) (calls : Nat → List (Nat × Call)) (log : List Bytes),
    Peaceful E secure calls log → ∀ (sched : List Nat) (u : World), Tended E secure calls (fun _ => True) sched u →
      ∀ j, (u.threads j).outs = (((World.new E secure calls).run E sched).threads j).outs

/-- **C129** (part) As stated, if nothing is removed while a call of `update` or `delete` runs, or one that reads the
trie of another thread (threads may be in the middle of reading their own trie): the threads are where they would be
without the removals, with the same answers; the tries have the same roots, answer `get` and `contains` alike, and the
dict has no entry it would not have without them. -/
theorem C129_calm_partial (E : Env) (secure : Nat → Bool) (calls : Nat → List (Nat × Call)) (log : List Bytes)
    (hp : Peaceful E secure calls log) (sched : List Nat) (u : World)
    (h : Tended E secure calls (World.Calm calls) sched u) :
    let w := (World.new E secure calls).run E sched
    u.threads = w.threads ∧ u.roots = w.roots ∧
    (∀ k v, dget u.store.kv k = some v → dget w.store.kv k = some v) ∧
    ∀ j (c : Call), c.op? = none → Fits E (secure j) c.key → (c.seq E (u.obj j)).1 = (c.seq E (w.obj j)).1 := by
  intro w
  have hu := h.ok hp
  refine ⟨hu.threads, hu.roots, hu.sub, fun j c hop hf => ?_⟩
  obtain ⟨a, ha⟩ := (hu.thread j).bears
  have hsec : (u.obj j).secure = secure j := congrFun hu.sec j
  have hq : (c.seq E (u.obj j)).2 = u.obj j := by
    cases c with
    | update => exact (nomatch hop)
    | delete => exact (nomatch hop)
    | get => rfl
    | contains => rfl
  have hfine := fine_call ha hp.log hu.gs (c := c) (by rw [hsec]; exact hf) (by rw [hq]; exact hp.log.mono hu.written)
  have hwr : ∀ x ∈ (c.prog E (u.obj j).secure).writes (u.obj j), x ∈ log := by
    intro x hx
    apply hu.written
    have e : (u.obj j).store.written ++ (c.prog E (u.obj j).secure).writes (u.obj j) = (u.obj j).store.written := by
      rw [← Prog.alone_written, Call.prog_alone, hq]
    show x ∈ (u.obj j).store.written
    rw [← e]
    exact List.mem_append_right _ hx
  have ho : w.obj j = { u.obj j with store := w.store } := by
    show MPT.mk w.store (w.roots j) (w.secure j) = MPT.mk w.store (u.roots j) (u.secure j)
    rw [hu.roots, hu.sec, hu.base.sec]
  rw [ho]
  exact (Call.seq_mono hp.log c (u.obj j) w.store hfine hu.sub hu.base.gs hwr).symm

/-- **C129** (part) With C86: every call on the own trie has the outcome it would have had if the thread had been alone
and nothing had been removed. -/
theorem C129_own_partial (E : Env) (secure : Nat → Bool) (calls : Nat → List (Nat × Call)) (log : List Bytes)
    (hp : Peaceful E secure calls log) (sched : List Nat) (u : World)
    (h : Tended E secure calls (World.Calm calls) sched u) (j p : Nat) (c : Call) (x : Py Ans)
    (hc : (calls j)[p]? = some (j, c)) (hx : (u.threads j).outs[p]? = some x) :
    x = (c.seq E (MPT.after E (secure j) (writesOf ((calls j).take p)))).1 := by
  rw [(h.ok hp).threads] at hx
  exact (C86 E secure calls log hp sched j).1 p c x hc hx

/-! ### Tools for examples -/

theorem tended_run {E : Env} {secure : Nat → Bool} {calls : Nat → List (Nat × Call)} {may : World → Prop}
    {sched : List Nat} {w : World} (h : Tended E secure calls may sched w) (more : List Nat) :
    Tended E secure calls may (sched ++ more) (w.run E more) := by
  induction more generalizing sched w with
  | nil => rw [List.append_nil]; exact h
  | cons j more ih =>
    have := ih (h.step j)
    rw [List.append_assoc] at this
    exact this

/-- The dict with the entries of the list only. -/
def keeping (w : World) (K : List Bytes) : World :=
  { w with store := { w.store with kv := w.store.kv.filter fun e => K.contains e.1 } }

/-- A mark-and-sweep collector for two threads, given the marks. -/
theorem tended_marks {E : Env} {secure : Nat → Bool} {calls : Nat → List (Nat × Call)} {log : List Bytes}
    {may : World → Prop} (hp : Peaceful E secure calls log) (hnil : ∀ n, calls (n + 2) = []) (sched : List Nat)
    (K : List Bytes)
    (hm : may ((World.new E secure calls).run E sched))
    (hK : let w := (World.new E secure calls).run E sched
      ((emptyHash E :: ((w.roots 0).toList ++ (w.roots 1).toList)).all (fun r => K.contains r) &&
        (K.all fun r => (oneStep w.store.kv r).all fun r' => K.contains r')) = true) :
    Tended E secure calls may sched (keeping ((World.new E secure calls).run E sched) K) := by
  have h0 : Tended E secure calls may sched ((World.new E secure calls).run E sched) := tended_run .new sched
  have hw := (WorldOk.new E secure calls log).run hp sched
  revert hm hK h0 hw
  generalize (World.new E secure calls).run E sched = w
  intro hm hK h0 hw
  simp only [Bool.and_eq_true, List.all_eq_true, List.contains_iff_mem] at hK
  refine h0.sweep hm fun i => collected_of (t := w.obj i) (K := K) (fun root hr => ?_) hK.2
  apply hK.1
  have hr : w.roots i = some root := hr
  match i with
  | 0 => simp [hr]
  | 1 => simp [hr]
  | n + 2 =>
    have := (hw.thread (n + 2)).root
    unfold stateAt at this
    rw [hnil, hr] at this
    simp [writesOf, MPT.after, MPT.run, MPT.new, MPT.init] at this
    simp [this]

theorem calm_of {calls : Nat → List (Nat × Call)} {w : World} (hnil : ∀ n, calls (n + 2) = [])
    (h : ([0, 1].all fun j => match (calls j)[(w.threads j).outs.length]? with
      | some (i, c) => decide ((w.threads j).cur.isSome = true → c.op? = none ∧ i = j)
      | none => true) = true) : w.Calm calls := by
  simp only [List.all_cons, List.all_nil, Bool.and_true, Bool.and_eq_true] at h
  rintro j n i c ⟨rfl, hr⟩ hc
  match j with
  | 0 => have := h.1; rw [hc] at this; exact of_decide_eq_true this hr
  | 1 => have := h.2; rw [hc] at this; exact of_decide_eq_true this hr
  | n + 2 => rw [hnil] at hc; simp at hc

/-! ### Where it goes wrong -/

/-- The dict while the writer has saved a node of the first `update`, but not yet set the root; everything else is
removed. -/
def sweptWrite : World :=
  keeping ((World.new toyEnv (fun _ => false) emptied).run toyEnv [1, 1, 1]) [emptyHash toyEnv]

/-- The removals follow the rule: what is kept is all that can be reached from the roots at that moment. -/
theorem sweptWrite_tended : Tended toyEnv (fun _ => false) emptied (fun _ => True) [1, 1, 1] sweptWrite :=
  tended_marks emptied_peaceful (fun _ => rfl) _ _ trivial (by decide +kernel)

/-- Removing nodes while `update` runs: `update` returns, but its value is lost, for good: `get` raises KeyError. -/
theorem C129_write_false :
    let u := sweptWrite.run toyEnv [1, 1, 0, 0, 0, 0, 0]
    (u.threads 1).outs = [.ok .none] ∧ (u.threads 0).outs = [.error .keyError] ∧
    (u.obj 1).get toyEnv [7, 7] = .error .keyError ∧ (u.obj 1).contains toyEnv [7, 7] = .error .keyError ∧
    let w := (World.new toyEnv (fun _ => false) emptied).run toyEnv ([1, 1, 1] ++ [1, 1, 0, 0, 0, 0, 0])
    (w.threads 0).outs = [.ok (.value (bigValue 8))] := by decide +kernel

/-- The dict after the writer deleted the key a reader is about to read, having looked at the root; no call that may
change a trie is running. -/
def sweptRead : World :=
  keeping ((World.new toyEnv (fun _ => false) emptied).run toyEnv
    (List.replicate 5 1 ++ [0, 0, 0] ++ List.replicate 7 1)) [emptyHash toyEnv]

theorem sweptRead_tended : Tended toyEnv (fun _ => false) emptied
    (fun w => ∀ n c, w.Running 1 n → (emptied 1)[n]? = some c → c.2.op? = none)
    (List.replicate 5 1 ++ [0, 0, 0] ++ List.replicate 7 1) sweptRead :=
  tended_marks emptied_peaceful (fun _ => rfl) _ _
    (fun n c h => absurd (show (false : Bool) = true from by rw [← h.2]; decide +kernel) (by decide)) (by decide +kernel)

/-- Removing nodes while a thread reads the trie of another, although no `update` or `delete` runs: KeyError. -/
theorem C129_read_false :
    let u := sweptRead.run toyEnv [0, 0]
    (u.threads 0).outs = [.error .keyError] ∧
    let w := (World.new toyEnv (fun _ => false) emptied).run toyEnv
      ((List.replicate 5 1 ++ [0, 0, 0] ++ List.replicate 7 1) ++ [0, 0])
    (w.threads 0).outs = [.ok (.value (bigValue 8))] := by decide +kernel

theorem C129_false : ¬ C129 := by
  intro h
  have := h toyEnv (fun _ => false) emptied emptiedLog emptied_peaceful _ _
    (tended_run sweptWrite_tended [1, 1, 0, 0, 0, 0, 0]) 0
  rw [C129_write_false.2.1, C129_write_false.2.2.2.2] at this
  exact (nomatch this)

/-! ### Where it works -/

/-- Two threads; the first is in the middle of reading its own trie, from which it deleted a key before. -/
def sweptCalm : World :=
  let w := (World.new toyEnv twoModes twoThreads).run toyEnv (List.replicate 30 0)
  keeping w (emptyHash toyEnv :: marks (w.obj 0))

/-- The hypothesis of `C129_calm_partial` and `C129_own_partial`, with removals that do remove something, while a call
is running and others follow. -/
theorem sweptCalm_tended : Tended toyEnv twoModes twoThreads (World.Calm twoThreads)
    (List.replicate 30 0 ++ zigzag 20) (sweptCalm.run toyEnv (zigzag 20)) :=
  tended_run (tended_marks two_peaceful (fun _ => rfl) _ _ (calm_of (fun _ => rfl) (by decide +kernel))
    (by decide +kernel)) _

example :
    let w := (World.new toyEnv twoModes twoThreads).run toyEnv (List.replicate 30 0)
    (w.threads 0).cur.isSome = true ∧ (w.threads 0).outs.length = 3 ∧
    sweptCalm.store.kv.length < w.store.kv.length ∧
    let u := sweptCalm.run toyEnv (zigzag 20)
    (u.threads 0).outs.length = 5 ∧ (u.threads 0).outs[3]? = some (.ok (.value (bigValue 6))) ∧
    (u.threads 1).outs.length ≥ 2 := by decide +kernel

example := C129_calm_partial toyEnv twoModes twoThreads twoLog two_peaceful _ _ sweptCalm_tended

example := C129_own_partial toyEnv twoModes twoThreads twoLog two_peaceful _ _ sweptCalm_tended 0 3 (.get [1, 3])
  (.ok (.value (bigValue 6))) rfl (by decide +kernel)

end Pymt.Props
