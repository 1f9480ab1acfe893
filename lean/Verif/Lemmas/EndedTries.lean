import Verif.Lemmas.Ended
import Verif.Lemmas.Turns
import Verif.Spec.Ended

/-!
# Calls on tries that may be ended
-/

namespace Pymt

/-- The threads and tries of `Model/Threads.lean`. -/
def World.shop (w : World) : Shop Tries (Nat × Call) (Nat × Prog Ans) (Py Ans) where
  jobs j := ⟨(w.threads j).cur, (w.threads j).rest, (w.threads j).outs⟩
  shared := ⟨w.store, w.roots, w.secure⟩

theorem World.shop_set (w : World) (j : Nat) (th : Thread) :
    (w.setThread j th).shop = w.shop.set j ⟨th.cur, th.rest, th.outs⟩ := by
  unfold World.shop World.setThread Shop.set
  congr 1
  funext i
  by_cases h : i = j <;> simp [h]

theorem World.shop_step (E : Env) (w : World) (j : Nat) : (w.step E j).shop = (mptMachine E).step j w.shop := by
  have hcur : (w.shop.jobs j).cur = (w.threads j).cur := rfl
  have hrest : (w.shop.jobs j).rest = (w.threads j).rest := rfl
  have hs : w.shop.shared = ⟨w.store, w.roots, w.secure⟩ := rfl
  cases hc : (w.threads j).cur with
  | none =>
    rw [hc] at hcur
    cases hr : (w.threads j).rest with
    | nil =>
      rw [hr] at hrest
      simp only [World.step, Machine.step, hc, hr, hcur, hrest]
    | cons c rest =>
      rw [hr] at hrest
      simp only [World.step, Machine.step, hc, hr, hcur, hrest, World.shop_set]
      rfl
  | some q =>
    obtain ⟨i, p⟩ := q
    rw [hc] at hcur
    cases p with
    | done r =>
      simp only [World.step, Machine.step, hc, hcur, mptMachine, World.shop_set]
      rfl
    | load k n =>
      cases hv : dget w.store.kv k with
      | none =>
        simp only [World.step, Machine.step, hc, hcur, mptMachine, hs, hv, World.shop_set]
        rfl
      | some v =>
        simp only [World.step, Machine.step, hc, hcur, mptMachine, hs, hv, World.shop_set]
        rfl
    | save k v n =>
      have := World.shop_set w j { w.threads j with cur := some (i, n) }
      simp only [World.step, Machine.step, hc, hcur, mptMachine]
      exact congrArg (fun s : Shop Tries (Nat × Call) (Nat × Prog Ans) (Py Ans) =>
        (⟨s.jobs, ⟨w.store.set k v, w.roots, w.secure⟩⟩ : Shop Tries (Nat × Call) (Nat × Prog Ans) (Py Ans))) this
    | root n =>
      simp only [World.step, Machine.step, hc, hcur, mptMachine, World.shop_set]
      rfl
    | setRoot r n =>
      have := World.shop_set w j { w.threads j with cur := some (i, n) }
      simp only [World.step, Machine.step, hc, hcur, mptMachine]
      exact congrArg (fun s : Shop Tries (Nat × Call) (Nat × Prog Ans) (Py Ans) =>
        (⟨s.jobs, ⟨w.store, fun i' => if i' = i then r else w.roots i', w.secure⟩⟩ : Shop Tries (Nat × Call) (Nat × Prog Ans) (Py Ans))) this

theorem World.shop_run (E : Env) (sched : List Nat) (w : World) :
    (w.run E sched).shop = (mptMachine E).threads.run sched w.shop := by
  induction sched generalizing w with
  | nil => rfl
  | cons j sched ih =>
    show ((w.step E j).run E sched).shop = (mptMachine E).threads.run sched ((mptMachine E).step j w.shop)
    rw [ih, World.shop_step]

variable {E : Env} {secure : Nat → Bool} {calls : Nat → List (Nat × Call)} {log : List Bytes} {l : List Happening}
  {orders : List (Nat × Option (Nat × Call))} {wr : Nat × Call → Prop} {id : Nat → Nat} {n : Nat}

/-- The moments of the run of the threads that are told what to do. -/
theorem Course.at (h : Course (mptMachine E) (Tries.new E secure) calls wr l orders id n) (q : Nat) :
    (worldAt E secure (ThreadSystem.told orders) (orders.map Prod.fst) q).shop =
      (mptMachine E).threads.load (ThreadSystem.told (orders.drop q))
        ((mptMachine E).threads.obey (orders.take q) (Shop.new (Tries.new E secure) fun _ => [])) := by
  have ha := h.apt
  rw [← List.take_append_drop q orders] at ha
  have := (mptMachine E).threads.apt_run (ThreadSystem.told (orders.drop q)) (orders.take q) _
    (((mptMachine E).threads.apt_append _ _ _).1 ha).1
  rw [← this]
  unfold worldAt
  rw [World.shop_run, List.map_take]
  congr 1
  have e : ∀ x, ThreadSystem.told orders x = ThreadSystem.told (orders.take q) x ++ ThreadSystem.told (orders.drop q) x := by
    intro x
    rw [← ThreadSystem.told_append, List.take_append_drop]
  show (⟨fun x => ⟨none, ThreadSystem.told orders x, []⟩, _⟩ : Shop _ _ _ _) = ⟨fun x => ⟨none, _, []⟩, _⟩
  congr 1
  funext x
  rw [e x]

/-- A thread that is left alone carries its call to the end. -/
theorem course_alone (E : Env) (j i : Nat) (p : Prog Ans) (w : Shop Tries (Nat × Call) (Nat × Prog Ans) (Option (Py Ans)))
    (h : (w.jobs j).cur = some (i, p)) :
    ∃ m, ((mptMachine E).course (List.replicate m (.moves j)) w).shared.store = (p.alone (w.shared.obj i)).2.store := by
  induction p generalizing w with
  | done r => exact ⟨0, rfl⟩
  | load k n ih =>
    simp only [Prog.alone]
    cases hv : dget w.shared.store.kv k with
    | none => refine ⟨0, ?_⟩; rw [show dget (w.shared.obj i).store.kv k = none from hv]; rfl
    | some v =>
      rw [show dget (w.shared.obj i).store.kv k = some v from hv]
      have hs : (mptMachine E).happen w (.moves j) = w.set j { w.jobs j with cur := some (i, n v) } := by
        simp only [Machine.happen, Machine.step, h, Machine.may, mptMachine, hv]; rfl
      obtain ⟨m, hm⟩ := ih v ((mptMachine E).happen w (.moves j)) (by rw [hs, Shop.set_same])
      refine ⟨m + 1, ?_⟩
      rw [List.replicate_succ]
      refine Eq.trans hm ?_
      rw [hs]; rfl
  | save k v n ih =>
    have hs : (mptMachine E).happen w (.moves j) =
        { w.set j { w.jobs j with cur := some (i, n) } with shared := { w.shared with store := w.shared.store.set k v } } := by
      simp only [Machine.happen, Machine.step, h, Machine.may, mptMachine]
    obtain ⟨m, hm⟩ := ih ((mptMachine E).happen w (.moves j)) (by rw [hs]; exact congrArg Job.cur (Shop.set_same _ _ _))
    refine ⟨m + 1, ?_⟩
    rw [List.replicate_succ]
    refine Eq.trans hm ?_
    rw [hs]; rfl
  | root n ih =>
    have hs : (mptMachine E).happen w (.moves j) = w.set j { w.jobs j with cur := some (i, n (w.shared.roots i)) } := by
      simp only [Machine.happen, Machine.step, h, Machine.may, mptMachine]; rfl
    obtain ⟨m, hm⟩ := ih (w.shared.roots i) ((mptMachine E).happen w (.moves j)) (by rw [hs, Shop.set_same])
    refine ⟨m + 1, ?_⟩
    rw [List.replicate_succ]
    refine Eq.trans hm ?_
    rw [hs]; rfl
  | setRoot r n ih =>
    have hs : (mptMachine E).happen w (.moves j) =
        { w.set j { w.jobs j with cur := some (i, n) } with
          shared := { w.shared with roots := fun i' => if i' = i then r else w.shared.roots i' } } := by
      simp only [Machine.happen, Machine.step, h, Machine.may, mptMachine]
    obtain ⟨m, hm⟩ := ih ((mptMachine E).happen w (.moves j)) (by rw [hs]; exact congrArg Job.cur (Shop.set_same _ _ _))
    refine ⟨m + 1, ?_⟩
    rw [List.replicate_succ]
    refine Eq.trans hm ?_
    rw [hs]
    have : ({ w.shared with roots := fun i' => if i' = i then r else w.shared.roots i' } : Tries).obj i =
        { w.shared.obj i with root := r } := by
      simp [Tries.obj]
    show (n.alone (({ w.shared with roots := fun i' => if i' = i then r else w.shared.roots i' } : Tries).obj i)).2.store = _
    rw [this]; rfl

theorem Course.crowd (h : Course (mptMachine E) (Tries.new E secure) calls wr l orders id n)
    (hcr : EndedCrowd E secure calls log) :
    CrowdOn E secure (ThreadSystem.told orders) log (orders.map Prod.fst) where
  fits x c hc := by
    obtain ⟨j, hj⟩ := h.twin.sub x c hc
    exact hcr.fits j c hj
  stored q := by
    have hs : (worldAt E secure (ThreadSystem.told orders) (orders.map Prod.fst) q).store =
        ((mptMachine E).threads.obey (orders.take q) (Shop.new (Tries.new E secure) fun _ => [])).shared.store :=
      congrArg (fun s => Tries.store (Shop.shared s)) (h.at q)
    rw [hs]
    cases hd : orders.drop q with
    | nil =>
      have : orders.take q = orders := by
        have := List.take_append_drop q orders
        rw [hd, List.append_nil] at this
        exact this
      rw [this, h.twin.shared]
      exact hcr.all l
    | cons o b =>
      obtain ⟨l1, j, h1, h2, _⟩ := h.moments (orders.take q) o b (by rw [← hd, List.take_append_drop])
      rw [h2]
      exact hcr.all l1
  next q x hx i p hp y hy := by
    rw [List.getElem?_map] at hx
    cases ho : orders[q]? with
    | none => rw [ho] at hx; exact (nomatch hx)
    | some o =>
      rw [ho] at hx
      injection hx with hx
      have hd : orders.drop q = o :: orders.drop (q + 1) := by
        have hq := (List.getElem?_eq_some_iff.1 ho)
        rw [List.drop_eq_getElem_cons hq.1, hq.2]
      obtain ⟨l1, j, h1, h2, h3⟩ := h.moments (orders.take q) o _ (by rw [← hd, List.take_append_drop])
      have hs := congrArg Shop.shared (h.at q)
      have hc : ((worldAt E secure (ThreadSystem.told orders) (orders.map Prod.fst) q).threads x).cur =
          (((mptMachine E).threads.obey (orders.take q) (Shop.new (Tries.new E secure) fun _ => [])).jobs x).cur :=
        congrArg (fun s => Job.cur (Shop.jobs s x)) (h.at q)
      rw [hc, ← hx, h3] at hp
      obtain ⟨m, hm⟩ := course_alone E j i p _ hp
      have hobj : (worldAt E secure (ThreadSystem.told orders) (orders.map Prod.fst) q).obj i =
          ((mptMachine E).course l1 (Shop.new (Tries.new E secure) calls)).shared.obj i :=
        congrArg (fun s => Tries.obj s i) (hs.trans h2)
      rw [hobj, ← hm] at hy
      refine hcr.all (l1 ++ List.replicate m (.moves j)) y ?_
      have e : (mptMachine E).course (l1 ++ List.replicate m (.moves j)) (Shop.new (Tries.new E secure) calls) =
          (mptMachine E).course (List.replicate m (.moves j)) ((mptMachine E).course l1 (Shop.new (Tries.new E secure) calls)) :=
        List.foldl_append
      unfold triesAfter
      rw [e]
      exact hy
  log := hcr.log

/-- A call that changes trie `i`. -/
def Changes (i : Nat) (c : Nat × Call) : Prop := c.1 = i ∧ c.2.op? ≠ none

theorem EndedTurns.one {i : Nat} (h : EndedTurns E secure calls l i) :
    (mptMachine E).OneDoes (Changes i) (Tries.new E secure) calls l := by
  intro l1 h1 j j' d d'
  obtain ⟨a1, ⟨i1, c⟩, a2, a3, a4⟩ := d
  obtain ⟨b1, ⟨i2, c'⟩, b2, b3, b4⟩ := d'
  subst a3
  change i2 = i1 at b3
  subst b3
  exact h l1 h1 j j' c c' a1 a2 a4 b1 b2 b4

theorem Course.rounds {i : Nat} (h : Course (mptMachine E) (Tries.new E secure) calls (Changes i) l orders id n)
    (ht : EndedTurns E secure calls l i) :
    Rounds E secure (ThreadSystem.told orders) (orders.map Prod.fst) i := by
  intro p hp x m c x' m' c' r1 r2 r3 r4 r5 r6 hx' hne q hq hqx
  rw [List.getElem?_map] at hx'
  cases ho : orders[p]? with
  | none => rw [ho] at hx'; exact (nomatch hx')
  | some o =>
    rw [ho] at hx'
    injection hx' with hx'
    have hd : orders.drop p = o :: orders.drop (p + 1) := by
      have hq := (List.getElem?_eq_some_iff.1 ho)
      rw [List.drop_eq_getElem_cons hq.1, hq.2]
    have ha := h.apt
    rw [← List.take_append_drop p orders] at ha
    have hlen := told_length (mptMachine E) (Tries.new E secure) (orders.take p)
      (((mptMachine E).threads.apt_append _ _ _).1 ha).1
    have doing : ∀ x m c, (worldAt E secure (ThreadSystem.told orders) (orders.map Prod.fst) p).Running x m →
        (ThreadSystem.told orders x)[m]? = some (i, c) → c.op? ≠ none →
        Machine.Doing (Changes i) (ThreadSystem.told (orders.take p))
          ((mptMachine E).threads.obey (orders.take p) (Shop.new (Tries.new E secure) fun _ => [])) x := by
      intro x m c r1 r2 r3
      have hc : ((worldAt E secure (ThreadSystem.told orders) (orders.map Prod.fst) p).threads x).cur =
          (((mptMachine E).threads.obey (orders.take p) (Shop.new (Tries.new E secure) fun _ => [])).jobs x).cur :=
        congrArg (fun s => Job.cur (Shop.jobs s x)) (h.at p)
      have ho : ((worldAt E secure (ThreadSystem.told orders) (orders.map Prod.fst) p).threads x).outs =
          (((mptMachine E).threads.obey (orders.take p) (Shop.new (Tries.new E secure) fun _ => [])).jobs x).outs :=
        congrArg (fun s => Job.outs (Shop.jobs s x)) (h.at p)
      obtain ⟨r4, r5⟩ := r1
      rw [ho] at r4
      rw [hc] at r5
      refine ⟨r5, (i, c), ?_, rfl, r3⟩
      have hl := hlen x
      rw [if_pos r5, r4] at hl
      have e : ThreadSystem.told orders x = ThreadSystem.told (orders.take p) x ++ ThreadSystem.told (orders.drop p) x := by
        rw [← ThreadSystem.told_append, List.take_append_drop]
      rw [e, List.getElem?_append_left (by omega)] at r2
      rw [r4]
      exact r2
    obtain ⟨g1, _⟩ := h.gone ht.one (orders.take p) o _ (by rw [← hd, List.take_append_drop]) x (by rw [hx']; exact hne)
      (doing x m c r1 r2 r3) (by rw [hx']; exact doing x' m' c' r4 r5 r6)
    rw [List.getElem?_map] at hqx
    cases hoq : orders[q]? with
    | none => rw [hoq] at hqx; exact (nomatch hqx)
    | some y =>
      rw [hoq] at hqx
      injection hqx with hqx
      rcases Nat.eq_or_lt_of_le hq with e | hlt
      · subst e
        rw [ho] at hoq
        injection hoq with hoq
        rw [← hoq] at hqx
        exact hne (hqx.symm.trans hx')
      · refine g1 y ?_ hqx
        refine List.mem_of_getElem? (i := q - (p + 1)) ?_
        rw [List.getElem?_drop, ← hoq]
        congr 1
        omega

end Pymt
