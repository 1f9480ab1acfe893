import Verif.Lemmas.Ended
import Verif.Spec.Ended

/-!
# Calls on an `EMPT` that may be ended
-/

namespace Pymt

/-- The threads and the object of `Model/EmptThreads.lean`. -/
def EWorld.shop (w : EWorld) : Shop EMPT ECall (EProg EAns) (Py EAns) where
  jobs j := ⟨(w.threads j).cur, (w.threads j).rest, (w.threads j).outs⟩
  shared := w.obj

theorem EWorld.shop_set (w : EWorld) (j : Nat) (th : EThread) :
    (w.setThread j th).shop = w.shop.set j ⟨th.cur, th.rest, th.outs⟩ := by
  unfold EWorld.shop EWorld.setThread Shop.set
  congr 1
  funext i
  by_cases h : i = j <;> simp [h]

theorem EWorld.shop_step (E : Env) (w : EWorld) (j : Nat) : (w.step E j).shop = (emptMachine E).step j w.shop := by
  have hcur : (w.shop.jobs j).cur = (w.threads j).cur := rfl
  have hrest : (w.shop.jobs j).rest = (w.threads j).rest := rfl
  cases hc : (w.threads j).cur with
  | none =>
    rw [hc] at hcur
    cases hr : (w.threads j).rest with
    | nil =>
      rw [hr] at hrest
      simp only [EWorld.step, Machine.step, hc, hr, hcur, hrest]
    | cons c rest =>
      rw [hr] at hrest
      simp only [EWorld.step, Machine.step, hc, hr, hcur, hrest, EWorld.shop_set]
      rfl
  | some p =>
    rw [hc] at hcur
    have go : ∀ q : EProg EAns × EMPT,
        ({ w.setThread j { w.threads j with cur := some q.1 } with obj := q.2 } : EWorld).shop =
        { w.shop.set j { w.shop.jobs j with cur := some q.1 } with shared := q.2 } := by
      intro q
      have := EWorld.shop_set w j { w.threads j with cur := some q.1 }
      exact congrArg (fun s : Shop EMPT ECall (EProg EAns) (Py EAns) =>
        (⟨s.jobs, q.2⟩ : Shop EMPT ECall (EProg EAns) (Py EAns))) this
    cases p with
    | done r =>
      simp only [EWorld.step, Machine.step, hc, hcur, emptMachine, EWorld.shop_set]
      rfl
    | load | save | root | setRoot | data | setData | delData =>
      simp only [EWorld.step, Machine.step, hc, hcur, emptMachine]
      exact go (_, _)

theorem EWorld.shop_run (E : Env) (sched : List Nat) (w : EWorld) :
    (w.run E sched).shop = (emptMachine E).threads.run sched w.shop := by
  induction sched generalizing w with
  | nil => rfl
  | cons j sched ih =>
    show ((w.step E j).run E sched).shop = (emptMachine E).threads.run sched ((emptMachine E).step j w.shop)
    rw [ih, EWorld.shop_step]

/-- What threads whose calls may be ended do with an `EMPT`, other threads do whose calls are not ended. -/
theorem empt_unended (E : Env) (secure : Bool) (calls : Nat → List ECall) (l : List Happening) :
    ∃ (calls' : Nat → List ECall) (sched : List Nat),
      let w := (EWorld.new E secure calls').run E sched
      w.obj = (emptAfter E secure calls l).shared ∧
      (∀ x, ∀ c ∈ calls' x, ∃ j, c ∈ calls j) ∧
      ∀ (j m : Nat) (o : Py EAns), ((emptAfter E secure calls l).jobs j).outs[m]? = some (some o) →
        ∃ (x m' : Nat) (c : ECall), (calls j)[m]? = some c ∧ (calls' x)[m']? = some c ∧ (w.threads x).outs[m']? = some o := by
  obtain ⟨orders, id, n, ht⟩ := track_all (emptMachine E) { trie := MPT.new E secure, data := [] } calls (fun _ => True) l
  refine ⟨ThreadSystem.told orders, orders.map Prod.fst, ?_⟩
  have h := (emptMachine E).threads.apt_run (fun _ => []) orders _ ht.apt
  have e : (EWorld.new E secure (ThreadSystem.told orders)).shop =
      (emptMachine E).threads.load (fun x => ThreadSystem.told orders x ++ [])
        (Shop.new { trie := MPT.new E secure, data := [] } fun _ => []) := by
    simp only [List.append_nil]
    rfl
  rw [← e, ← EWorld.shop_run] at h
  refine ⟨(congrArg Shop.shared h).trans ht.twin.shared, ht.twin.sub, fun j m o ho => ?_⟩
  obtain ⟨x, m', c, e1, e2, e3⟩ := ht.twin.past j m o ho
  exact ⟨x, m', c, e1, e2, (congrArg (fun s => (Job.outs (Shop.jobs s x))[m']?) h).trans e3⟩

end Pymt
