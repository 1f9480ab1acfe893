import Verif.Lemmas.EmptCrowd
import Verif.Spec.EmptCrowd
import Verif.Spec.Toy

/-!
# Property C96: several threads that write to one `EMPT`
-/

namespace Pymt
namespace Props

/-- **C96** (full statement; false) When all threads are done, a key that was only ever updated, always with the same
value, has that value. -/
def C96 : Prop :=
  ∀ (E : Env) (secure : Bool) (calls : Nat → List ECall) (log : List Bytes), ECrowd E secure calls log →
    ∀ (sched : List Nat),
    let w := (EWorld.new E secure calls).run E sched
    (∀ j, w.idle j = true) → ∀ (j : Nat) (k : Bytes) (v : Value), v.storable = true →
    .update k v ∈ calls j → (∀ j', .delete k ∉ calls j' ∧ ∀ v', .update k v' ∈ calls j' → v' = v) →
    w.obj.get E k = .ok v

/-- **C96** (part) At every moment of every interleaving: a value that `get` returned, to a thread in the middle of it
or to a client that asks now, is one that some thread passed to `update` for this key. -/
theorem C96_value_partial (E : Env) (secure : Bool) (calls : Nat → List ECall) (sched : List Nat) (k : Bytes) (v : Value) :
    let w := (EWorld.new E secure calls).run E sched
    ((w.obj.get E k = .ok v ∨
      ∃ j n : Nat, (calls j)[n]? = some (.get k) ∧ (w.threads j).outs[n]? = some (.ok (.value v))) →
    v.storable = true ∧ ∃ j, .update k v ∈ calls j) := by
  intro w h
  have ok : EWorldOk calls w := (EWorldOk.new E secure calls).run sched
  rcases h with h | ⟨j, n, hc, hr⟩
  · unfold EMPT.get dgetItem at h
    cases hd : dget w.obj.data k with
    | none => rw [hd] at h; exact (nomatch h)
    | some v' =>
      rw [hd] at h
      simp only [Except.bind_ok'] at h
      cases ht : w.obj.trie.get E k with
      | error e => rw [ht] at h; exact (nomatch h)
      | ok enc =>
        rw [ht] at h
        have : v = v' := EMPT.compareRef_ok (E := E) (k := k) (enc := enc) h
        subst this
        exact ok.data k v hd
  · exact ok.past j n _ _ hc hr v rfl

/-- **C96** (part) A key for which some `update` has returned and that nobody deletes is listed by the iterator, and
so counted by `len`, with a value some thread stored under it: nothing is lost from the data storage. -/
theorem C96_listed_partial (E : Env) (secure : Bool) (calls : Nat → List ECall) (sched : List Nat) (k : Bytes)
    (v : Value) (j n : Nat) :
    let w := (EWorld.new E secure calls).run E sched
    (calls j)[n]? = some (.update k v) → (w.threads j).outs[n]? = some (.ok .none) →
    (∀ j', .delete k ∉ calls j') →
    v.storable = true ∧ k ∈ w.obj.iter ∧ ∃ v', dget w.obj.data k = some v' ∧ ∃ j', .update k v' ∈ calls j' := by
  intro w hc hr hdel
  have ok : EWorldOk calls w := (EWorldOk.new E secure calls).run sched
  obtain ⟨hs, hd⟩ := ok.past j n _ _ hc hr .none rfl
  have hd := hd (fun ⟨j', h⟩ => hdel j' h)
  obtain ⟨v', hv'⟩ := Option.isSome_iff_exists.1 hd
  refine ⟨hs, ?_, v', hv', (ok.data k v' hv').2⟩
  unfold EMPT.iter
  clear hr hd ok
  generalize w.obj.data = d at hv'
  induction d with
  | nil => exact (nomatch hv')
  | cons e d ih =>
    obtain ⟨k', x⟩ := e
    rw [dget] at hv'
    by_cases he : k' = k
    · subst he; simp
    · rw [if_neg he] at hv'
      exact List.mem_cons_of_mem _ (ih hv')

/-! ### All interleavings of a few calls -/

/-- `ok` holds in every state two threads can reach. -/
def eexplore (E : Env) (ok : EWorld → Bool) : Nat → EWorld → Bool
  | 0, _ => false
  | n + 1, w => ok w && (w.idle 0 || eexplore E ok n (w.step E 0)) && (w.idle 1 || eexplore E ok n (w.step E 1))

theorem estep_idle {E : Env} {w : EWorld} {j : Nat} (h : w.idle j = true) : w.step E j = w := by
  unfold EWorld.idle at h
  simp only [Bool.and_eq_true, Option.isNone_iff_eq_none, List.isEmpty_iff] at h
  unfold EWorld.step
  simp only [h.1, h.2]

theorem estep_other (E : Env) (w : EWorld) {i j : Nat} (h : i ≠ j) : (w.step E j).threads i = w.threads i := by
  unfold EWorld.step
  simp only
  split
  · split
    · rfl
    · exact w.setThread_other _ h
  · exact w.setThread_other _ h
  · exact w.setThread_other _ h

theorem eexplore_sound {E : Env} {ok : EWorld → Bool} {n : Nat} {w : EWorld} (h : eexplore E ok n w = true)
    (hw : ∀ j, w.idle (j + 2) = true) (sched : List Nat) : ok (w.run E sched) = true := by
  induction sched generalizing n w with
  | nil =>
    cases n with
    | zero => exact (nomatch h)
    | succ n => simp only [eexplore, Bool.and_eq_true] at h; exact h.1.1
  | cons j sched ih =>
    cases n with
    | zero => exact (nomatch h)
    | succ n =>
      have h0 := h
      simp only [eexplore, Bool.and_eq_true, Bool.or_eq_true] at h
      have hw' : ∀ a, a < 2 → ∀ j, (w.step E a).idle (j + 2) = true := by
        intro a ha j
        unfold EWorld.idle
        rw [estep_other E w (i := j + 2) (j := a) (by omega)]
        exact hw j
      match j with
      | 0 =>
        rcases h.1.2 with h1 | h1
        · show ok ((w.step E 0).run E sched) = true
          rw [estep_idle h1]; exact ih h0 hw
        · exact ih h1 (hw' 0 (by omega))
      | 1 =>
        rcases h.2 with h1 | h1
        · show ok ((w.step E 1).run E sched) = true
          rw [estep_idle h1]; exact ih h0 hw
        · exact ih h1 (hw' 1 (by omega))
      | j + 2 =>
        show ok ((w.step E (j + 2)).run E sched) = true
        rw [estep_idle (hw j)]; exact ih h0 hw

/-- Two threads that insert different keys into the same `EMPT`. -/
def erivals : Nat → List ECall
  | 0 => [.update [1, 2] (.bytes [5])]
  | 1 => [.update [1, 3] (.bytes [6])]
  | _ => []

/-- Both have read the root before either has set it. -/
def erace : List Nat := [0, 1, 0, 1] ++ List.replicate 4 0 ++ List.replicate 4 1

/-- All the nodes the two threads may write. -/
def erivalsLog : List Bytes :=
  ((EWorld.new toyEnv false erivals).run toyEnv erace).obj.trie.store.written ++
  ((EWorld.new toyEnv false erivals).run toyEnv
    (List.replicate 12 0 ++ List.replicate 12 1)).obj.trie.store.written ++
  ((EWorld.new toyEnv false erivals).run toyEnv
    (List.replicate 12 1 ++ List.replicate 12 0)).obj.trie.store.written

theorem erivals_crowd : ECrowd toyEnv false erivals erivalsLog where
  fits := by
    intro j c hc
    match j with
    | 0 => simp only [erivals, List.mem_singleton] at hc; subst hc; decide
    | 1 => simp only [erivals, List.mem_singleton] at hc; subst hc; decide
    | j + 2 => exact (nomatch hc)
  sizes := by
    intro j k v hc
    match j with
    | 0 =>
      simp only [erivals, List.mem_singleton] at hc
      injection hc with h1 h2; subst h1 h2; decide
    | 1 =>
      simp only [erivals, List.mem_singleton] at hc
      injection hc with h1 h2; subst h1 h2; decide
    | j + 2 => exact (nomatch hc)
  all := by
    intro sched
    have := eexplore_sound (E := toyEnv)
      (ok := fun w => w.obj.trie.store.written.all fun x => decide (x ∈ erivalsLog)) (n := 30)
      (w := EWorld.new toyEnv false erivals) (by decide +kernel) (fun _ => rfl) sched
    simpa using this
  log := logOk_of (by decide +kernel)
  keys := fun h => (nomatch h)

/-- Both updates return; one key is in the trie, the other is only listed: it cannot be read, nor deleted. -/
theorem C96_lost :
    let w := (EWorld.new toyEnv false erivals).run toyEnv erace
    (w.threads 0).outs = [.ok .none] ∧ (w.threads 1).outs = [.ok .none] ∧
    w.obj.iter = [[1, 2], [1, 3]] ∧
    w.obj.get toyEnv [1, 3] = .ok (.bytes [6]) ∧
    w.obj.get toyEnv [1, 2] = .error .keyNotFound ∧
    (EMPT.delete toyEnv [1, 2] w.obj).1 = .error .keyNotFound := by decide +kernel

theorem erace_idle (j : Nat) : ((EWorld.new toyEnv false erivals).run toyEnv erace).idle j = true := by
  match j with
  | 0 => decide +kernel
  | 1 => decide +kernel
  | j + 2 =>
    have e : ∀ (sched : List Nat) (w : EWorld), (∀ a ∈ sched, a < 2) →
        (w.run toyEnv sched).threads (j + 2) = w.threads (j + 2) := by
      intro sched
      induction sched with
      | nil => exact fun _ _ => rfl
      | cons a sched ih =>
        intro w ha
        have h2 := ha a (by simp)
        exact (ih _ fun b hb => ha b (by simp [hb])).trans (estep_other toyEnv w (by omega))
    unfold EWorld.idle
    rw [e _ _ (by decide)]
    rfl

theorem C96_false : ¬ C96 := by
  intro h
  have := h toyEnv false erivals erivalsLog erivals_crowd erace erace_idle 0 [1, 2] (.bytes [5]) rfl (by simp [erivals]) ?_
  · revert this; decide +kernel
  · intro j
    match j with
    | 0 => exact ⟨by simp [erivals], fun v' hv => by simpa [erivals] using hv⟩
    | 1 => exact ⟨by simp [erivals], fun v' hv => by simp [erivals] at hv⟩
    | j + 2 => exact ⟨by simp [erivals], fun v' hv => by simp [erivals] at hv⟩

/-- The key that was lost is listed. -/
example : [1, 2] ∈ ((EWorld.new toyEnv false erivals).run toyEnv erace).obj.iter := by
  refine (C96_listed_partial toyEnv false erivals erace [1, 2] (.bytes [5]) 0 0 rfl (by decide +kernel) ?_).2.1
  intro j
  match j with
  | 0 => simp [erivals]
  | 1 => simp [erivals]
  | j + 2 => simp [erivals]

example : ∃ j, .update [1, 3] (.bytes [6]) ∈ erivals j :=
  (C96_value_partial toyEnv false erivals erace [1, 3] (.bytes [6]) (.inl (by decide +kernel))).2

end Props
end Pymt
