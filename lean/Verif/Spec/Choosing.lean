import Verif.Model.Threads
import Verif.Model.EmptThreads
import Verif.Model.MerkleLists

/-!
# Specification: clients that choose their calls as they go

In the models of threads every thread has a list of calls from the beginning.  Here a thread that has ended a call chooses
the next one, or waits; its choice may depend on everything that has happened, the outcomes of calls of all threads
included.
-/

namespace Pymt

/-- What the models of threads have in common. -/
structure ThreadSystem (W C : Type) where
  /-- The thread is between two calls. -/
  idle : W → Nat → Bool
  /-- The thread begins a call. -/
  start : Nat → C → W → W
  /-- The thread makes a step. -/
  step : Nat → W → W
  /-- The threads are given lists of calls. -/
  load : (Nat → List C) → W → W
  /-- A step inside a call has nothing to do with the lists. -/
  step_busy : ∀ w j f, idle w j = false → step j (load f w) = load f (step j w)
  /-- A thread between two calls begins the first one of its list. -/
  step_idle : ∀ w j f c r, idle w j = true → f j = c :: r →
    step j (load f w) = load (fun i => if i = j then r else f i) (start j c w)

namespace ThreadSystem

variable {W C : Type} (T : ThreadSystem W C)

/-- The run of a schedule with threads that choose their calls: the world afterwards, and the calls each thread made. -/
def choosing (choose : W → Nat → Option C) : List Nat → W → W × (Nat → List C)
  | [], w => (w, fun _ => [])
  | j :: s, w =>
    if T.idle w j then
      match choose w j with
      | none => choosing choose s w
      | some c =>
        let (w, made) := choosing choose s (T.start j c w)
        (w, fun i => if i = j then c :: made i else made i)
    else choosing choose s (T.step j w)

/-- The run of a schedule with threads that have lists of calls. -/
def run (s : List Nat) (w : W) : W := s.foldl (fun w j => T.step j w) w

/-- Threads that choose do nothing that threads with lists could not do. -/
theorem choosing_run (choose : W → Nat → Option C) : ∀ (s : List Nat) (w : W),
    ∃ s', s'.Sublist s ∧
      T.run s' (T.load (T.choosing choose s w).2 w) = T.load (fun _ => []) (T.choosing choose s w).1
  | [], w => ⟨[], .slnil, rfl⟩
  | j :: s, w => by
    unfold choosing
    cases hi : T.idle w j with
    | false =>
      obtain ⟨s', h1, h2⟩ := choosing_run choose s (T.step j w)
      refine ⟨j :: s', h1.cons_cons j, ?_⟩
      simp only [Bool.false_eq_true, if_false]
      rw [run, List.foldl_cons, T.step_busy _ _ _ hi]
      exact h2
    | true =>
      simp only [if_true]
      cases hc : choose w j with
      | none =>
        obtain ⟨s', h1, h2⟩ := choosing_run choose s w
        exact ⟨s', h1.cons j, h2⟩
      | some c =>
        obtain ⟨s', h1, h2⟩ := choosing_run choose s (T.start j c w)
        refine ⟨j :: s', h1.cons_cons j, ?_⟩
        rw [run, List.foldl_cons, T.step_idle _ _ _ c ((T.choosing choose s (T.start j c w)).2 j) hi (by simp)]
        have e : (fun i => if i = j then (T.choosing choose s (T.start j c w)).2 j
            else if i = j then c :: (T.choosing choose s (T.start j c w)).2 i
              else (T.choosing choose s (T.start j c w)).2 i) = (T.choosing choose s (T.start j c w)).2 := by
          funext i
          by_cases h : i = j <;> simp [h]
        simp only [e]
        exact h2

end ThreadSystem

/-- Threads that use tries over one dict. -/
def mptThreads (E : Env) : ThreadSystem World (Nat × Call) where
  idle w j := (w.threads j).cur.isNone
  start j c w := w.setThread j { w.threads j with cur := some (c.1, c.2.prog E (w.secure c.1)) }
  step := World.step E
  load f w := { w with threads := fun j => { w.threads j with rest := f j } }
  step_busy w j f h := by
    cases hc : (w.threads j).cur with
    | none => rw [hc] at h; exact (nomatch h)
    | some q =>
      obtain ⟨i, p⟩ := q
      cases p with
      | done r => simp only [World.step, hc, World.setThread]; (congr 1; funext a; by_cases ha : a = j <;> simp [ha])
      | load k n =>
        simp only [World.step, hc, World.setThread]
        cases dget w.store.kv k with
        | none => simp only []; (congr 1; funext a; by_cases ha : a = j <;> simp [ha])
        | some v => simp only []; (congr 1; funext a; by_cases ha : a = j <;> simp [ha])
      | save k v n => simp only [World.step, hc, World.setThread]; (congr 1; funext a; by_cases ha : a = j <;> simp [ha])
      | root n => simp only [World.step, hc, World.setThread]; (congr 1; funext a; by_cases ha : a = j <;> simp [ha])
      | setRoot r n => simp only [World.step, hc, World.setThread]; (congr 1; funext a; by_cases ha : a = j <;> simp [ha])
  step_idle w j f c r h hf := by
    have hc : (w.threads j).cur = none := by simpa using h
    simp only [World.step, hc, hf, World.setThread]
    congr 1
    funext a
    by_cases ha : a = j <;> simp [ha]

/-- Threads that use one `EMPT`. -/
def emptThreads (E : Env) : ThreadSystem EWorld ECall where
  idle w j := (w.threads j).cur.isNone
  start j c w := w.setThread j { w.threads j with cur := some (c.prog E w.obj.trie.secure) }
  step := EWorld.step E
  load f w := { w with threads := fun j => { w.threads j with rest := f j } }
  step_busy w j f h := by
    cases hc : (w.threads j).cur with
    | none => rw [hc] at h; exact (nomatch h)
    | some p =>
      cases p <;> (simp only [EWorld.step, hc, EWorld.setThread]; (congr 1; funext a; by_cases ha : a = j <;> simp [ha]))
  step_idle w j f c r h hf := by
    have hc : (w.threads j).cur = none := by simpa using h
    simp only [EWorld.step, hc, hf, EWorld.setThread]
    congr 1
    funext a
    by_cases ha : a = j <;> simp [ha]

/-- Threads that use one `MerkleTree`. -/
def merkleThreads (H : HashFn) : ThreadSystem HWorld HCall where
  idle w j := (w.threads j).cur.isNone
  start j c w := w.setThread j { w.threads j with cur := some (c.prog H w.tree.secure) }
  step := HWorld.step H
  load f w := { w with threads := fun j => { w.threads j with rest := f j } }
  step_busy w j f h := by
    cases hc : (w.threads j).cur with
    | none => rw [hc] at h; exact (nomatch h)
    | some p =>
      cases p <;> (simp only [HWorld.step, hc, HWorld.setThread]; (congr 1; funext a; by_cases ha : a = j <;> simp [ha]))
  step_idle w j f c r h hf := by
    have hc : (w.threads j).cur = none := by simpa using h
    simp only [HWorld.step, hc, hf, HWorld.setThread]
    congr 1
    funext a
    by_cases ha : a = j <;> simp [ha]

end Pymt
