import Verif.Lemmas.EmptPoolEnd
import Verif.Props.EmptPool

/-!
# Property C170: threads with an `EMPT` each over the same two dicts, whose calls may be ended
-/

namespace Pymt.Props

theorem zip_took {h : List Took} {l : List ECall} :
    ((h.map (·.1.1) ++ l).zip (h.map (·.1.2))).zip (h.map (·.2)) = h := by
  induction h with
  | nil => simp
  | cons e h ih => simp [ih]

/-- **C170** As C169, and any call may be ended between two of its accesses by an exception that does not come from the code.
Each ended call took effect on the trie of its thread or did not (`took`), nothing in between; given that, every call that
was not ended has an outcome as in C169, and between calls the root of the thread is the one of an `EMPT` to which only its own
changes were made: those that returned, and those of the ended ones that took effect. -/
theorem C170 (E : Env) (secure : Nat → Bool) (calls : Nat → List ECall) (log : List Bytes)
    (hP : PoolPeace E secure calls log) (l : List Happening) (j : Nat) :
    let w := (poolMachine E).course l (poolShop E secure calls)
    (w.jobs j).outs.length ≤ (calls j).length ∧
    ∃ took : List Bool, took.length = (w.jobs j).outs.length ∧
      let hist := ((calls j).zip (w.jobs j).outs).zip took
      (∀ (p : Nat) (c : ECall) (r : Py EAns) (b : Bool), hist[p]? = some ((c, some r), b) →
        c.Fair E (econtents (changesTook (hist.take p))) r) ∧
      ((w.jobs j).cur = none → w.shared.roots j = (EMPT.after E (secure j) (changesTook hist)).trie.root) := by
  intro w
  obtain ⟨h, t, hs⟩ := ((EndOk.new E log secure calls).course hP l).thread j
  have hcalls : ∃ l, calls j = h.map (·.1.1) ++ l := by
    cases hcur : (w.jobs j).cur with
    | none => obtain ⟨rest, _, e, _⟩ := hs.idle hcur; exact ⟨_, e⟩
    | some q => obtain ⟨p, c, rest, _, _, e, _⟩ := hs.busy q hcur; exact ⟨_, e⟩
  obtain ⟨l', hl⟩ := hcalls
  have ho : (w.jobs j).outs = h.map (·.1.2) := hs.outs
  have e : ((calls j).zip (w.jobs j).outs).zip (h.map (·.2)) = h := by rw [ho, hl, zip_took]
  refine ⟨by rw [ho, hl]; simp, h.map (·.2), by rw [ho]; simp, ?_⟩
  show (∀ (p : Nat) (c : ECall) (r : Py EAns) (b : Bool), (((calls j).zip (w.jobs j).outs).zip (h.map (·.2)))[p]? = _ → _) ∧ _
  rw [e]
  refine ⟨hs.fair, fun hcur => ?_⟩
  obtain ⟨rest, _, _, hm⟩ := hs.idle hcur
  rw [← hm.eq]
  exact hs.inside.root

/-! ### A case

The hypothesis `PoolPeace` holds for `rivalCalls` (`Props/EmptPool.lean`). -/

/-- Thread 0 stores a value, and so does thread 1, under the same key.  The second call of thread 0 is ended soon, and its third
one (an `update`) after `n` steps. -/
def endedCourse (n : Nat) : List Happening :=
  List.replicate 6 (.moves 0) ++ List.replicate 6 (.moves 1) ++ [.moves 0, .ends 0] ++ List.replicate n (.moves 0) ++
    [.ends 0] ++ List.replicate 20 (.moves 1) ++ List.replicate 40 (.moves 0)

/-- What becomes of it. -/
def endedPool (n : Nat) : Shop EDicts (Nat × ECall) (Nat × EProg EAns) (Option (Py EAns)) :=
  (poolMachine toyEnv).course (endedCourse n) (poolShop toyEnv (fun _ => false) rivalCalls)

-- Ended after 7 steps the `update` did not take effect, after 8 steps it did.
example : ((endedPool 7).jobs 0).outs =
      [some (.ok .none), none, none, some (.ok (.bool false)), some (.error .keyError)] ∧
    ((endedPool 8).jobs 0).outs = [some (.ok .none), none, none, some (.ok (.bool true)), some (.error .keyError)] ∧
    ((endedPool 8).jobs 1).outs = [some (.ok .none), some (.ok (.value (.bytes [6]))), some (.ok .none)] := by decide +kernel

end Pymt.Props
