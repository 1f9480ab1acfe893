import Verif.Lemmas.Crowd
import Verif.Props.Threads

/-!
# Several threads that write to one trie (C88)
-/

namespace Pymt.Props

/-- **C88** (full statement; false) When all threads are done, a key that was only ever updated, always with the same
value, has that value. -/
def C88 : Prop :=
  ∀ (E : Env) (secure : Nat → Bool) (calls : Nat → List (Nat × Call)) (log : List Bytes),
    Crowd E secure calls log → ∀ (sched : List Nat) (i : Nat),
    let w := (World.new E secure calls).run E sched
    (∀ j, (w.threads j).cur = none ∧ (w.threads j).rest = []) → ∀ (j : Nat) (k v : Bytes),
    v ≠ [] → (i, .update k v) ∈ calls j → (∀ j' c, (i, c) ∈ calls j' → c.op? ≠ none → c.key = k → c = .update k v) →
    (w.obj i).get E k = .ok v

/-- Without empty values, and in secure mode, everything written is stored. -/
theorem stored_iff (secure : Bool) (ops : List Op) (h : secure = false → ∀ op ∈ ops, op.NonEmpty) (k v : Bytes) :
    Stored secure ops k v ↔ contents ops k = some v := by
  refine ⟨fun hs => hs.1, fun hc => ⟨hc, fun hs => ?_⟩⟩
  rcases kept_of (l := []) (m := fun _ => none) (by simp) v hc with h1 | rfl
  · exact h1
  · exact absurd hc (contents_nonempty (h hs))

example : Stored false [.update [1, 2] [], .update [7] [], .update [1, 2, 3] [5]] [1, 2, 3] [5] ∧
    Stored false [.update [1, 2] [], .update [7] [], .update [1, 2, 3] [5]] [7] [] ∧
    ¬ Stored false [.update [1, 2] [], .update [7] [], .update [1, 2, 3] [5]] [1, 2] [] := by
  unfold Stored; decide +kernel

/-- **C88** (part) At every moment of every interleaving each trie is a proper trie, with the contents some sequence of
the threads' calls gives: threads cannot corrupt each other's work, they can only undo it. -/
theorem C88_state_partial (E : Env) (secure : Nat → Bool) (calls : Nat → List (Nat × Call)) (log : List Bytes)
    (h : Crowd E secure calls log) (sched : List Nat) (i : Nat) :
    ∃ ops, FromCalls calls i ops ∧ ReadsAs E (((World.new E secure calls).run E sched).obj i) ops := by
  have hw : worldAt E secure calls sched sched.length = (World.new E secure calls).run E sched := by
    unfold worldAt; rw [List.take_length]
  have hok := CrowdOk.all (h.on sched) sched.length (Nat.le_refl _)
  obtain ⟨ops, h1, h2⟩ := hok.made i
  rw [hw] at h2
  exact ⟨ops, h1, h2.reads (h.log.mono (h.all sched))⟩

/-- **C88** (part) Every finished call has the outcome it would have had on the trie as it was at some moment while it
ran; a successful `update` or `delete` has made the root that of the trie it computed from that moment's trie, whatever
others had done since.  Exceptions: `get`, `contains` and `delete` may raise TypeError when the last key was deleted
while they ran; `contains` may raise KeyError when the first key was inserted while it ran. -/
theorem C88_outcome_partial (E : Env) (secure : Nat → Bool) (calls : Nat → List (Nat × Call)) (log : List Bytes)
    (h : Crowd E secure calls log) (sched : List Nat) (j n i : Nat) (c : Call) (x : Py Ans)
    (hc : (calls j)[n]? = some (i, c))
    (hx : (((World.new E secure calls).run E sched).threads j).outs[n]? = some x) :
    let W := worldAt E secure calls sched
    (∃ q, q ≤ sched.length ∧ (W q).Running j n ∧ x = (c.seq E ((W q).obj i)).1 ∧
      (c.op? ≠ none → x = .ok .none → ∃ q', q < q' ∧ q' ≤ sched.length ∧ (W q').Running j n ∧
        (W q').roots i = (c.seq E ((W q).obj i)).2.root)) ∨
    (x = .error .typeError ∧ (∀ k v, c ≠ .update k v) ∧ ∃ q q', q ≤ q' ∧ q' ≤ sched.length ∧ (W q).Running j n ∧
      (W q').Running j n ∧ (W q).roots i ≠ none ∧ (W q').roots i = none) ∨
    (x = .error .keyError ∧ (∃ k, c = .contains k) ∧ ∃ q q', q ≤ q' ∧ q' ≤ sched.length ∧ (W q).Running j n ∧
      (W q').Running j n ∧ (W q).roots i = some (emptyHash E) ∧ (W q').roots i ≠ some (emptyHash E)) := by
  intro W
  have hw : worldAt E secure calls sched sched.length = (World.new E secure calls).run E sched := by
    unfold worldAt; rw [List.take_length]
  exact (h.on sched).outcome hc (by rw [hw]; exact hx)

/-- **C88** (part) No `update` fails, in any interleaving. -/
theorem C88_update_partial (E : Env) (secure : Nat → Bool) (calls : Nat → List (Nat × Call)) (log : List Bytes)
    (h : Crowd E secure calls log) (sched : List Nat) (j n i : Nat) (k v : Bytes) (x : Py Ans)
    (hc : (calls j)[n]? = some (i, .update k v))
    (hx : (((World.new E secure calls).run E sched).threads j).outs[n]? = some x) : x = .ok .none := by
  have hw : worldAt E secure calls sched sched.length = (World.new E secure calls).run E sched := by
    unfold worldAt; rw [List.take_length]
  exact CrowdOk.update_ok (h.on sched) sched.length (Nat.le_refl _) j n i k v x hc (by rw [hw]; exact hx)

/-- **C88** (part) The root of a trie changes only when a call publishes the trie it computed from the one whose root it
had read. -/
theorem C88_root_partial (E : Env) (secure : Nat → Bool) (calls : Nat → List (Nat × Call)) (log : List Bytes)
    (h : Crowd E secure calls log) (sched : List Nat) (q i : Nat) (hq : q < sched.length) :
    let W := worldAt E secure calls sched
    (W (q + 1)).roots i = (W q).roots i ∨
    ∃ j n c q', (calls j)[n]? = some (i, c) ∧ c.op? ≠ none ∧ q' ≤ q ∧ (W q').Running j n ∧ (W q).Running j n ∧
      (c.seq E ((W q').obj i)).1 = .ok .none ∧ (W (q + 1)).roots i = (c.seq E ((W q').obj i)).2.root := by
  intro W
  by_cases e : (W (q + 1)).roots i = (W q).roots i
  · exact .inl e
  · obtain ⟨n, c, q', h1, h2, h3, h4, h5, h6, h7, _⟩ :=
      (CrowdOk.all (h.on sched) q (Nat.le_of_lt hq)).change (List.getElem?_eq_getElem hq) i e
    exact .inr ⟨_, n, c, q', h1, h2, h3, h4, h5, h7, h6⟩

/-! ### All interleavings of a few calls -/

/-- The thread has nothing left to do. -/
def World.idle (w : World) (j : Nat) : Bool := (w.threads j).cur.isNone && (w.threads j).rest.isEmpty

/-- `ok` holds in every state two threads can reach. -/
def explore (E : Env) (ok : World → Bool) : Nat → World → Bool
  | 0, _ => false
  | n + 1, w => ok w && (World.idle w 0 || explore E ok n (w.step E 0)) &&
      (World.idle w 1 || explore E ok n (w.step E 1))

theorem step_idle {E : Env} {w : World} {j : Nat} (h : World.idle w j = true) : w.step E j = w := by
  unfold World.idle at h
  simp only [Bool.and_eq_true, Option.isNone_iff_eq_none, List.isEmpty_iff] at h
  unfold World.step
  simp only [h.1, h.2]

theorem explore_sound {E : Env} {ok : World → Bool} {n : Nat} {w : World} (h : explore E ok n w = true)
    (hw : ∀ j, World.idle w (j + 2) = true) (sched : List Nat) : ok (w.run E sched) = true := by
  induction sched generalizing n w with
  | nil =>
    cases n with
    | zero => exact (nomatch h)
    | succ n => simp only [explore, Bool.and_eq_true] at h; exact h.1.1
  | cons j sched ih =>
    cases n with
    | zero => exact (nomatch h)
    | succ n =>
      have h0 := h
      simp only [explore, Bool.and_eq_true, Bool.or_eq_true] at h
      have hw' : ∀ a, a < 2 → ∀ j, World.idle (w.step E a) (j + 2) = true := by
        intro a ha j
        unfold World.idle
        rw [w.step_other E (i := j + 2) (j := a) (by omega)]
        exact hw j
      match j with
      | 0 =>
        rcases h.1.2 with h1 | h1
        · show ok ((w.step E 0).run E sched) = true
          rw [step_idle h1]; exact ih h0 hw
        · exact ih h1 (hw' 0 (by omega))
      | 1 =>
        rcases h.2 with h1 | h1
        · show ok ((w.step E 1).run E sched) = true
          rw [step_idle h1]; exact ih h0 hw
        · exact ih h1 (hw' 1 (by omega))
      | j + 2 =>
        show ok ((w.step E (j + 2)).run E sched) = true
        rw [step_idle (hw j)]; exact ih h0 hw

/-- Two threads that insert different keys into the same trie. -/
def rivals : Nat → List (Nat × Call)
  | 0 => [(0, .update [1, 2] (bigValue 5))]
  | 1 => [(0, .update [1, 3] (bigValue 6))]
  | _ => []

/-- One of them is lost: both have read the root before either has set it. -/
def race : List Nat := [0, 1, 0, 1] ++ List.replicate 3 0 ++ List.replicate 3 1

/-- All the nodes the two threads may write. -/
def rivalsLog : List Bytes :=
  ((World.new toyEnv (fun _ => false) rivals).run toyEnv race).store.written ++
  ((World.new toyEnv (fun _ => false) rivals).run toyEnv (List.replicate 12 0 ++ List.replicate 12 1)).store.written ++
  ((World.new toyEnv (fun _ => false) rivals).run toyEnv (List.replicate 12 1 ++ List.replicate 12 0)).store.written

theorem rivals_crowd : Crowd toyEnv (fun _ => false) rivals rivalsLog where
  fits := by
    intro j c hc
    match j with
    | 0 => simp only [rivals, List.mem_singleton] at hc; subst hc; decide
    | 1 => simp only [rivals, List.mem_singleton] at hc; subst hc; decide
    | j + 2 => exact (nomatch hc)
  all := by
    intro sched
    have := explore_sound (E := toyEnv) (ok := fun w => w.store.written.all fun x => decide (x ∈ rivalsLog)) (n := 30)
      (w := World.new toyEnv (fun _ => false) rivals) (by decide +kernel) (fun _ => rfl) sched
    simpa using this
  log := logOk_of (by decide +kernel)

theorem C88_lost :
    let w := (World.new toyEnv (fun _ => false) rivals).run toyEnv race
    (w.threads 0).outs = [.ok .none] ∧ (w.threads 1).outs = [.ok .none] ∧
    (w.obj 0).contains toyEnv [1, 2] = .ok false ∧ (w.obj 0).contains toyEnv [1, 3] = .ok true := by decide +kernel

theorem C88_false : ¬ C88 := by
  intro h
  have := h toyEnv (fun _ => false) rivals rivalsLog rivals_crowd race 0 ?_ 0 [1, 2] (bigValue 5) (by simp [bigValue]) (by simp [rivals]) ?_
  · revert this; decide +kernel
  · intro j
    match j with
    | 0 => decide +kernel
    | 1 => decide +kernel
    | j + 2 =>
      constructor <;> rfl
  · intro j c hc _ hk
    match j with
    | 0 => simp only [rivals, List.mem_singleton] at hc; injection hc
    | 1 =>
      simp only [rivals, List.mem_singleton] at hc
      injection hc with _ hc
      subst hc
      exact absurd hk (by decide)
    | j + 2 => exact (nomatch hc)

example := C88_state_partial toyEnv (fun _ => false) rivals rivalsLog rivals_crowd race 0
example := C88_update_partial toyEnv (fun _ => false) rivals rivalsLog rivals_crowd race 1 0 0 [1, 3] (bigValue 6)
  (.ok .none) rfl (by decide +kernel)
example := C88_root_partial toyEnv (fun _ => false) rivals rivalsLog rivals_crowd race 6 0 (by decide)
example := C88_outcome_partial toyEnv (fun _ => false) rivals rivalsLog rivals_crowd race 0 0 0
  (.update [1, 2] (bigValue 5)) (.ok .none) rfl (by decide +kernel)

end Pymt.Props
