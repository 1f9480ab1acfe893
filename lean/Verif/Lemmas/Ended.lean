import Verif.Model.Ended
import Verif.Spec.Choosing
import Verif.Spec.Ended

/-!
# A thread whose call is ended is a thread that never moves again
-/

namespace Pymt

namespace ThreadSystem

variable {W C : Type} (T : ThreadSystem W C)

/-- A thread does as it is told: it begins the call, or goes on with the one it makes. -/
def obey1 (w : W) (o : Nat × Option C) : W :=
  match o.2 with
  | none => T.step o.1 w
  | some c => T.start o.1 c w

/-- Threads do as they are told. -/
def obey (l : List (Nat × Option C)) (w : W) : W := l.foldl T.obey1 w

/-- Threads can do as they are told. -/
def Apt : W → List (Nat × Option C) → Prop
  | _, [] => True
  | w, o :: l => T.idle w o.1 = o.2.isSome ∧ Apt (T.obey1 w o) l

/-- The calls that thread `x` is told to make. -/
def told (l : List (Nat × Option C)) (x : Nat) : List C := l.filterMap fun o => if o.1 = x then o.2 else none

theorem told_append (a b : List (Nat × Option C)) (x : Nat) : told (a ++ b) x = told a x ++ told b x :=
  List.filterMap_append

theorem told_go (j x : Nat) : told [((j, none) : Nat × Option C)] x = [] := by
  unfold told; by_cases h : j = x <;> simp [h]

theorem told_start (j x : Nat) (c : C) : told [(j, some c)] x = if x = j then [c] else [] := by
  unfold told
  by_cases h : j = x
  · simp [h]
  · have h' : x ≠ j := fun e => h e.symm
    simp [h, h']

theorem obey_append (a b : List (Nat × Option C)) (w : W) : T.obey (a ++ b) w = T.obey b (T.obey a w) :=
  List.foldl_append

theorem apt_append : ∀ (a b : List (Nat × Option C)) (w : W), T.Apt w (a ++ b) ↔ T.Apt w a ∧ T.Apt (T.obey a w) b
  | [], b, w => by simp [Apt, obey]
  | o :: a, b, w => by
    show (_ ∧ T.Apt _ (a ++ b)) ↔ (_ ∧ T.Apt _ a) ∧ _
    rw [apt_append a b, and_assoc]
    exact Iff.rfl

/-- Threads that do as they are told are threads with lists of calls. -/
theorem apt_run (f : Nat → List C) : ∀ (l : List (Nat × Option C)) (w : W), T.Apt w l →
    T.run (l.map Prod.fst) (T.load (fun x => told l x ++ f x) w) = T.load f (T.obey l w)
  | [], _, _ => rfl
  | (j, none) :: l, w, h => by
    have e : (fun x => told ((j, none) :: l) x ++ f x) = fun x => told l x ++ f x := by
      funext x; rw [show ((j, (none : Option C)) :: l) = [(j, none)] ++ l from rfl, told_append, told_go, List.nil_append]
    rw [e]
    show T.run (l.map Prod.fst) (T.step j _) = T.load f (T.obey l (T.step j w))
    rw [T.step_busy _ _ _ h.1]
    exact apt_run f l _ h.2
  | (j, some c) :: l, w, h => by
    show T.run (l.map Prod.fst) (T.step j _) = T.load f (T.obey l (T.start j c w))
    have e : ∀ x, told ((j, some c) :: l) x = (if x = j then [c] else []) ++ told l x := by
      intro x; rw [show ((j, some c) :: l) = [(j, some c)] ++ l from rfl, told_append, told_start]
    rw [T.step_idle _ _ _ c (told l j ++ f j) h.1 (by rw [e]; simp)]
    have e' : (fun i => if i = j then told l j ++ f j else told ((j, some c) :: l) i ++ f i) = fun x => told l x ++ f x := by
      funext x
      by_cases hx : x = j
      · simp [hx]
      · simp [hx, e]
    rw [e']
    exact apt_run f l _ h.2

end ThreadSystem

variable {S C P O : Type}

theorem Shop.set_same (w : Shop S C P O) (j : Nat) (b : Job C P O) : (w.set j b).jobs j = b := by simp [Shop.set]

theorem Shop.set_other (w : Shop S C P O) {j i : Nat} (b : Job C P O) (h : i ≠ j) : (w.set j b).jobs i = w.jobs i := by
  simp [Shop.set, h]

/-- Threads with lists of calls, and threads that choose, for any machine. -/
def Machine.threads (M : Machine S C P O) : ThreadSystem (Shop S C P O) C where
  idle w j := (w.jobs j).cur.isNone
  start j c w := w.set j { w.jobs j with cur := some (M.enter w.shared c) }
  step := M.step
  load f w := { w with jobs := fun j => { w.jobs j with rest := f j } }
  step_busy w j f h := by
    cases hc : (w.jobs j).cur with
    | none => rw [hc] at h; exact (nomatch h)
    | some p =>
      simp only [Machine.step, hc]
      cases hm : M.move w.shared p with
      | mk s r =>
        cases r with
        | inl p' => simp only [Shop.set]; (congr 1; funext a; by_cases ha : a = j <;> simp [ha])
        | inr o => simp only [Shop.set]; (congr 1; funext a; by_cases ha : a = j <;> simp [ha])
  step_idle w j f c r h hf := by
    have hc : (w.jobs j).cur = none := by simpa using h
    simp only [Machine.step, hc, hf, Shop.set]
    congr 1
    funext a
    by_cases ha : a = j <;> simp [ha]

/-- The thread is in the middle of a call of a certain kind. -/
def Machine.Doing (wr : C → Prop) (calls : Nat → List C) (w : Shop S C P O) (j : Nat) : Prop :=
  (w.jobs j).cur.isSome = true ∧ ∃ c, (calls j)[(w.jobs j).outs.length]? = some c ∧ wr c

/-- The state of threads whose calls may be ended, and of threads that do as they are told.  Thread `j` of the former is now
thread `id j` of the latter; the odd numbers from `2 * n + 1` on have not been used. -/
structure Double (calls : Nat → List C) (r : Shop S C P (Option O)) (v : Shop S C P O) (told : Nat → List C) (id : Nat → Nat)
    (n : Nat) : Prop where
  shared : v.shared = r.shared
  cur : ∀ j, (v.jobs (id j)).cur = (r.jobs j).cur
  len : ∀ x, (v.jobs x).cur = none → (told x).length = (v.jobs x).outs.length
  idle : ∀ j, (r.jobs j).cur = none → (calls j).drop (r.jobs j).outs.length = (r.jobs j).rest
  busy : ∀ j, (r.jobs j).cur ≠ none → ∃ c, (calls j).drop (r.jobs j).outs.length = c :: (r.jobs j).rest ∧
    (told (id j))[(v.jobs (id j)).outs.length]? = some c ∧ (told (id j)).length = (v.jobs (id j)).outs.length + 1
  past : ∀ (j m : Nat) (o : O), (r.jobs j).outs[m]? = some (some o) →
    ∃ (x m' : Nat) (c : C), (calls j)[m]? = some c ∧ (told x)[m']? = some c ∧ (v.jobs x).outs[m']? = some o
  sub : ∀ x, ∀ c ∈ told x, ∃ j, c ∈ calls j
  inj : ∀ j j', id j = id j' → j = j'
  fresh : ∀ m, n ≤ m → (∀ j, id j ≠ 2 * m + 1) ∧ (v.jobs (2 * m + 1)).cur = none

theorem drop_head {l : List C} {k : Nat} {c : C} {r : List C} (h : l.drop k = c :: r) : l[k]? = some c ∧ l.drop (k + 1) = r := by
  constructor
  · rw [← List.head?_drop, h]; rfl
  · rw [← List.drop_drop, h]; rfl

theorem Double.doing {calls : Nat → List C} {r : Shop S C P (Option O)} {v : Shop S C P O} {told : Nat → List C}
    {id : Nat → Nat} {n : Nat} (h : Double calls r v told id n) {wr : C → Prop} {j : Nat}
    (hd : Machine.Doing wr told v (id j)) : Machine.Doing wr calls r j := by
  obtain ⟨h1, c, h2, h3⟩ := hd
  rw [h.cur] at h1
  refine ⟨h1, c, ?_, h3⟩
  obtain ⟨c', b1, b2, _⟩ := h.busy j (by intro e; rw [e] at h1; exact (nomatch h1))
  rw [b2] at h2
  injection h2 with h2
  rw [← h2]
  exact (drop_head b1).1

/-- A thread that begins a call is told so. -/
theorem Double.begins {calls : Nat → List C} {r : Shop S C P (Option O)} {v : Shop S C P O} {told told' : Nat → List C}
    {id : Nat → Nat} {n : Nat} (h : Double calls r v told id n) {j : Nat} {c : C} {rest : List C} {p : P}
    (hc : (r.jobs j).cur = none) (hr : (r.jobs j).rest = c :: rest)
    (ht : told' (id j) = told (id j) ++ [c]) (ht' : ∀ x, x ≠ id j → told' x = told x) :
    Double calls (r.set j { r.jobs j with cur := some p, rest := rest })
      (v.set (id j) { v.jobs (id j) with cur := some p }) told' id n := by
  have hlen := h.len (id j) ((h.cur j).trans hc)
  have hdrop := h.idle j hc
  rw [hr] at hdrop
  have hne : ∀ i, i ≠ j → id i ≠ id j := fun i hi e => hi (h.inj _ _ e)
  have hout : ∀ x, ((v.set (id j) { v.jobs (id j) with cur := some p }).jobs x).outs = (v.jobs x).outs := by
    intro x
    by_cases hx : x = id j
    · subst hx; rw [Shop.set_same]
    · rw [Shop.set_other _ _ hx]
  have hpre : ∀ x, told x <+: told' x := by
    intro x
    by_cases hx : x = id j
    · subst hx; rw [ht]; exact List.prefix_append _ _
    · rw [ht' x hx]; exact List.prefix_rfl
  have hget : ∀ (x m : Nat) (c : C), (told x)[m]? = some c → (told' x)[m]? = some c := by
    intro x m c e
    obtain ⟨t, e'⟩ := hpre x
    rw [← e', List.getElem?_append_left (List.getElem?_eq_some_iff.1 e).1]
    exact e
  refine ⟨h.shared, fun i => ?_, fun x hx => ?_, fun i hi => ?_, fun i hi => ?_, fun i m o ho => ?_, fun x c' hc' => ?_, h.inj,
    fun m hm => ⟨(h.fresh m hm).1, ?_⟩⟩
  · by_cases hi : i = j
    · subst hi; rw [Shop.set_same, Shop.set_same]
    · rw [Shop.set_other _ _ hi, Shop.set_other _ _ (hne i hi)]; exact h.cur i
  · by_cases hx' : x = id j
    · subst hx'; rw [Shop.set_same] at hx; exact (nomatch hx)
    · rw [Shop.set_other _ _ hx'] at hx ⊢; rw [ht' x hx']; exact h.len x hx
  · by_cases hij : i = j
    · subst hij; rw [Shop.set_same] at hi; exact (nomatch hi)
    · rw [Shop.set_other _ _ hij] at hi ⊢; exact h.idle i hi
  · by_cases hij : i = j
    · subst hij
      rw [Shop.set_same, Shop.set_same]
      refine ⟨c, hdrop, ?_, ?_⟩
      · rw [ht, ← hlen]; exact List.getElem?_concat_length
      · rw [ht, List.length_append, hlen]; rfl
    · rw [Shop.set_other _ _ hij] at hi ⊢
      rw [Shop.set_other _ _ (hne i hij), ht' _ (hne i hij)]
      exact h.busy i hi
  · have : (r.jobs i).outs[m]? = some (some o) := by
      by_cases hij : i = j
      · subst hij; rw [Shop.set_same] at ho; exact ho
      · rw [Shop.set_other _ _ hij] at ho; exact ho
    obtain ⟨x, m', c', e1, e2, e3⟩ := h.past i m o this
    exact ⟨x, m', c', e1, hget _ _ _ e2, by rw [hout]; exact e3⟩
  · by_cases hx : x = id j
    · subst hx
      rw [ht] at hc'
      rcases List.mem_append.1 hc' with h1 | h1
      · exact h.sub _ _ h1
      · rw [List.mem_singleton.1 h1]
        exact ⟨j, List.mem_of_getElem? (drop_head hdrop).1⟩
    · rw [ht' x hx] at hc'; exact h.sub _ _ hc'
  · have : 2 * m + 1 ≠ id j := fun e => (h.fresh m hm).1 j e.symm
    rw [Shop.set_other _ _ this]; exact (h.fresh m hm).2

/-- A thread goes on with its call. -/
theorem Double.goes {calls : Nat → List C} {r : Shop S C P (Option O)} {v : Shop S C P O} {told : Nat → List C}
    {id : Nat → Nat} {n : Nat} (h : Double calls r v told id n) {j : Nat} {p' : P} {s : S} (hc : (r.jobs j).cur ≠ none) :
    Double calls { r.set j { r.jobs j with cur := some p' } with shared := s }
      { v.set (id j) { v.jobs (id j) with cur := some p' } with shared := s } told id n := by
  have hne : ∀ i, i ≠ j → id i ≠ id j := fun i hi e => hi (h.inj _ _ e)
  have hout : ∀ x, ((v.set (id j) { v.jobs (id j) with cur := some p' }).jobs x).outs = (v.jobs x).outs := by
    intro x
    by_cases hx : x = id j
    · subst hx; rw [Shop.set_same]
    · rw [Shop.set_other _ _ hx]
  refine ⟨rfl, fun i => ?_, fun x hx => ?_, fun i hi => ?_, fun i hi => ?_, fun i m o ho => ?_, h.sub, h.inj,
    fun m hm => ⟨(h.fresh m hm).1, ?_⟩⟩
  · show ((v.set _ _).jobs _).cur = ((r.set _ _).jobs _).cur
    by_cases hi : i = j
    · subst hi; rw [Shop.set_same, Shop.set_same]
    · rw [Shop.set_other _ _ hi, Shop.set_other _ _ (hne i hi)]; exact h.cur i
  · change ((v.set _ _).jobs _).cur = none at hx
    show _ = ((v.set _ _).jobs _).outs.length
    by_cases hx' : x = id j
    · subst hx'; rw [Shop.set_same] at hx; exact (nomatch hx)
    · rw [Shop.set_other _ _ hx'] at hx ⊢; exact h.len x hx
  · change ((r.set _ _).jobs _).cur = none at hi
    show _ = ((r.set _ _).jobs _).rest
    show (calls i).drop ((r.set _ _).jobs _).outs.length = _
    by_cases hij : i = j
    · subst hij; rw [Shop.set_same] at hi; exact (nomatch hi)
    · rw [Shop.set_other _ _ hij] at hi ⊢; exact h.idle i hi
  · change ((r.set _ _).jobs _).cur ≠ none at hi
    show ∃ c, (calls i).drop ((r.set _ _).jobs _).outs.length = c :: ((r.set _ _).jobs _).rest ∧
      (told (id i))[((v.set _ _).jobs _).outs.length]? = some c ∧ (told (id i)).length = ((v.set _ _).jobs _).outs.length + 1
    by_cases hij : i = j
    · subst hij
      rw [Shop.set_same, Shop.set_same]
      exact h.busy i hc
    · rw [Shop.set_other _ _ hij] at hi ⊢
      rw [Shop.set_other _ _ (hne i hij)]
      exact h.busy i hi
  · change ((r.set _ _).jobs _).outs[m]? = _ at ho
    have : (r.jobs i).outs[m]? = some (some o) := by
      by_cases hij : i = j
      · subst hij; rw [Shop.set_same] at ho; exact ho
      · rw [Shop.set_other _ _ hij] at ho; exact ho
    obtain ⟨x, m', c', e1, e2, e3⟩ := h.past i m o this
    exact ⟨x, m', c', e1, e2, by
      show ((v.set _ _).jobs _).outs[m']? = _
      rw [hout]; exact e3⟩
  · have : 2 * m + 1 ≠ id j := fun e => (h.fresh m hm).1 j e.symm
    show ((v.set _ _).jobs _).cur = none
    rw [Shop.set_other _ _ this]; exact (h.fresh m hm).2

/-- A thread ends its call. -/
theorem Double.returns {calls : Nat → List C} {r : Shop S C P (Option O)} {v : Shop S C P O} {told : Nat → List C}
    {id : Nat → Nat} {n : Nat} (h : Double calls r v told id n) {j : Nat} {o : O} {s : S} (hc : (r.jobs j).cur ≠ none) :
    Double calls { r.set j { r.jobs j with cur := none, outs := (r.jobs j).outs ++ [some o] } with shared := s }
      { v.set (id j) { v.jobs (id j) with cur := none, outs := (v.jobs (id j)).outs ++ [o] } with shared := s } told id n := by
  have hne : ∀ i, i ≠ j → id i ≠ id j := fun i hi e => hi (h.inj _ _ e)
  obtain ⟨c, b1, b2, b3⟩ := h.busy j hc
  have hout : ∀ (x m : Nat) (o' : O), (v.jobs x).outs[m]? = some o' →
      ((v.set (id j) { v.jobs (id j) with cur := none, outs := (v.jobs (id j)).outs ++ [o] }).jobs x).outs[m]? = some o' := by
    intro x m o' e
    by_cases hx : x = id j
    · subst hx
      rw [Shop.set_same]
      show ((v.jobs (id j)).outs ++ [o])[m]? = _
      rw [List.getElem?_append_left (List.getElem?_eq_some_iff.1 e).1]
      exact e
    · rw [Shop.set_other _ _ hx]; exact e
  refine ⟨rfl, fun i => ?_, fun x hx => ?_, fun i hi => ?_, fun i hi => ?_, fun i m o' ho => ?_, h.sub, h.inj,
    fun m hm => ⟨(h.fresh m hm).1, ?_⟩⟩
  · show ((v.set _ _).jobs _).cur = ((r.set _ _).jobs _).cur
    by_cases hi : i = j
    · subst hi; rw [Shop.set_same, Shop.set_same]
    · rw [Shop.set_other _ _ hi, Shop.set_other _ _ (hne i hi)]; exact h.cur i
  · change ((v.set _ _).jobs _).cur = none at hx
    show _ = ((v.set _ _).jobs _).outs.length
    by_cases hx' : x = id j
    · subst hx'; rw [Shop.set_same, b3]; simp
    · rw [Shop.set_other _ _ hx'] at hx ⊢; exact h.len x hx
  · change ((r.set _ _).jobs _).cur = none at hi
    show _ = ((r.set _ _).jobs _).rest
    show (calls i).drop ((r.set _ _).jobs _).outs.length = _
    by_cases hij : i = j
    · subst hij
      rw [Shop.set_same]
      simp only [List.length_append, List.length_singleton]
      exact (drop_head b1).2
    · rw [Shop.set_other _ _ hij] at hi ⊢; exact h.idle i hi
  · change ((r.set _ _).jobs _).cur ≠ none at hi
    show ∃ c, (calls i).drop ((r.set _ _).jobs _).outs.length = c :: ((r.set _ _).jobs _).rest ∧
      (told (id i))[((v.set _ _).jobs _).outs.length]? = some c ∧ (told (id i)).length = ((v.set _ _).jobs _).outs.length + 1
    by_cases hij : i = j
    · subst hij; rw [Shop.set_same] at hi; exact absurd rfl hi
    · rw [Shop.set_other _ _ hij] at hi ⊢
      rw [Shop.set_other _ _ (hne i hij)]
      exact h.busy i hi
  · change ((r.set _ _).jobs _).outs[m]? = _ at ho
    have : (r.jobs i).outs[m]? = some (some o') ∨ (i = j ∧ m = (r.jobs j).outs.length ∧ o' = o) := by
      by_cases hij : i = j
      · subst hij
        rw [Shop.set_same] at ho
        change ((r.jobs i).outs ++ [some o])[m]? = _ at ho
        by_cases hm : m < (r.jobs i).outs.length
        · rw [List.getElem?_append_left hm] at ho; exact .inl ho
        · have := (List.getElem?_eq_some_iff.1 ho).1
          rw [List.length_append, List.length_singleton] at this
          have hm : m = (r.jobs i).outs.length := by omega
          subst hm
          rw [List.getElem?_concat_length] at ho
          injection ho with ho
          injection ho with ho
          exact .inr ⟨rfl, rfl, ho.symm⟩
      · rw [Shop.set_other _ _ hij] at ho; exact .inl ho
    rcases this with this | ⟨rfl, rfl, rfl⟩
    · obtain ⟨x, m', c', e1, e2, e3⟩ := h.past i m o' this
      exact ⟨x, m', c', e1, e2, hout _ _ _ e3⟩
    · refine ⟨id i, _, c, (drop_head b1).1, b2, ?_⟩
      show ((v.set _ _).jobs _).outs[_]? = _
      rw [Shop.set_same]
      exact List.getElem?_concat_length
  · have : 2 * m + 1 ≠ id j := fun e => (h.fresh m hm).1 j e.symm
    show ((v.set _ _).jobs _).cur = none
    rw [Shop.set_other _ _ this]; exact (h.fresh m hm).2

/-- A call is ended: from now on the thread is another one. -/
theorem Double.ends {calls : Nat → List C} {r : Shop S C P (Option O)} {v : Shop S C P O} {told : Nat → List C}
    {id : Nat → Nat} {n : Nat} (h : Double calls r v told id n) {j : Nat} (hc : (r.jobs j).cur ≠ none) :
    Double calls (r.set j { r.jobs j with cur := none, outs := (r.jobs j).outs ++ [none] }) v told
      (fun i => if i = j then 2 * n + 1 else id i) (n + 1) := by
  obtain ⟨c, b1, b2, b3⟩ := h.busy j hc
  obtain ⟨f1, f2⟩ := h.fresh n (Nat.le_refl n)
  refine ⟨h.shared, fun i => ?_, h.len, fun i hi => ?_, fun i hi => ?_, fun i m o' ho => ?_, h.sub, fun i i' e => ?_,
    fun m hm => ⟨fun i => ?_, (h.fresh m (by omega)).2⟩⟩
  · by_cases hi : i = j
    · subst hi; rw [Shop.set_same]; simp [f2]
    · rw [Shop.set_other _ _ hi]; simp only [hi, if_false]; exact h.cur i
  · by_cases hij : i = j
    · subst hij
      rw [Shop.set_same]
      simp only [List.length_append, List.length_singleton]
      exact (drop_head b1).2
    · rw [Shop.set_other _ _ hij] at hi ⊢; exact h.idle i hi
  · by_cases hij : i = j
    · subst hij; rw [Shop.set_same] at hi; exact absurd rfl hi
    · rw [Shop.set_other _ _ hij] at hi ⊢
      simp only [hij, if_false]
      exact h.busy i hi
  · by_cases hij : i = j
    · subst hij
      rw [Shop.set_same] at ho
      change ((r.jobs i).outs ++ [none])[m]? = _ at ho
      by_cases hm : m < (r.jobs i).outs.length
      · rw [List.getElem?_append_left hm] at ho; exact h.past i m o' ho
      · have := (List.getElem?_eq_some_iff.1 ho).1
        rw [List.length_append, List.length_singleton] at this
        have hm : m = (r.jobs i).outs.length := by omega
        subst hm
        rw [List.getElem?_concat_length] at ho
        injection ho with ho
        exact (nomatch ho)
    · rw [Shop.set_other _ _ hij] at ho; exact h.past i m o' ho
  · split at e
    · next h1 =>
      split at e
      · next h2 => rw [h1, h2]
      · exact absurd e.symm (f1 i')
    · split at e
      · exact absurd e (f1 i)
      · exact h.inj _ _ e
  · by_cases hij : i = j
    · simp only [hij, if_true]; omega
    · simp only [hij, if_false]; exact (h.fresh m (by omega)).1 i

/-- Threads have been told to make the calls they have ended, and the one they make. -/
theorem told_length (M : Machine S C P O) (s : S) (a : List (Nat × Option C)) :
    M.threads.Apt (Shop.new s fun _ => []) a → ∀ x, (ThreadSystem.told a x).length =
      ((M.threads.obey a (Shop.new s fun _ => [])).jobs x).outs.length +
        if ((M.threads.obey a (Shop.new s fun _ => [])).jobs x).cur.isSome then 1 else 0 := by
  rw [← List.reverse_reverse a]
  induction a.reverse with
  | nil => intro _ x; rfl
  | cons o a ih =>
    rw [List.reverse_cons, M.threads.apt_append]
    rintro ⟨h1, h2, _⟩ x
    have ih := ih h1 x
    rw [M.threads.obey_append, ThreadSystem.told_append, List.length_append]
    revert ih h2
    generalize M.threads.obey a.reverse (Shop.new s fun _ => []) = v
    intro h2 ih
    obtain ⟨j, c⟩ := o
    cases c with
    | some c =>
      have hc : (v.jobs j).cur = none := by
        have : (v.jobs j).cur.isNone = true := h2
        simpa using this
      show _ = ((v.set j { v.jobs j with cur := some (M.enter v.shared c) }).jobs x).outs.length +
        if ((v.set j { v.jobs j with cur := some (M.enter v.shared c) }).jobs x).cur.isSome then 1 else 0
      rw [ThreadSystem.told_start, ih]
      by_cases hx : x = j
      · subst hx; rw [Shop.set_same]; simp [hc]
      · rw [Shop.set_other _ _ hx]; simp [hx]
    | none =>
      have hc : (v.jobs j).cur.isNone = false := h2
      show _ = ((M.step j v).jobs x).outs.length + if ((M.step j v).jobs x).cur.isSome then 1 else 0
      rw [ThreadSystem.told_go, ih]
      cases hp : (v.jobs j).cur with
      | none => rw [hp] at hc; exact (nomatch hc)
      | some p =>
        unfold Machine.step
        rw [hp]
        cases hm : M.move v.shared p with
        | mk s' q =>
          cases q with
          | inl p' =>
            simp only [hm]
            by_cases hx : x = j
            · subst hx; simp [Shop.set, hp]
            · simp [Shop.set, hx]
          | inr o' =>
            simp only [hm]
            by_cases hx : x = j
            · subst hx; simp [Shop.set, hp]
            · simp [Shop.set, hx]

/-- At no moment two threads are in the middle of calls of a certain kind. -/
def Machine.OneDoes (M : Machine S C P O) (wr : C → Prop) (s : S) (calls : Nat → List C) (l : List Happening) : Prop :=
  ∀ l1, l1 <+: l → ∀ j j', Machine.Doing wr calls (M.course l1 (Shop.new s calls)) j →
    Machine.Doing wr calls (M.course l1 (Shop.new s calls)) j' → j = j'

/-- Moment `p` of the threads that are told what to do is moment `mo p` of the others. -/
structure Lives (M : Machine S C P O) (s : S) (calls : Nat → List C) (l : List Happening) (orders : List (Nat × Option C))
    (id : Nat → Nat) (mo : Nat → List Happening) : Prop where
  mono : ∀ p q, p ≤ q → mo p <+: mo q
  pre : ∀ p, mo p <+: l
  shared : ∀ p, p ≤ orders.length →
    (M.threads.obey (orders.take p) (Shop.new s fun _ => [])).shared = (M.course (mo p) (Shop.new s calls)).shared
  live : ∀ j, ((M.course l (Shop.new s calls)).jobs j).cur ≠ none → ∀ p, p ≤ orders.length →
    (M.threads.obey (orders.take p) (Shop.new s fun _ => [])).Running (id j)
      ((M.threads.obey orders (Shop.new s fun _ => [])).jobs (id j)).outs.length →
    (M.course (mo p) (Shop.new s calls)).Running j ((M.course l (Shop.new s calls)).jobs j).outs.length
  lived : ∀ (j m : Nat) (o : O), ((M.course l (Shop.new s calls)).jobs j).outs[m]? = some (some o) →
    ∃ (x m' : Nat) (c : C), (calls j)[m]? = some c ∧ (ThreadSystem.told orders x)[m']? = some c ∧
      ((M.threads.obey orders (Shop.new s fun _ => [])).jobs x).outs[m']? = some o ∧
      ∀ p, p ≤ orders.length → (M.threads.obey (orders.take p) (Shop.new s fun _ => [])).Running x m' →
        (M.course (mo p) (Shop.new s calls)).Running j m

/-- Nothing new runs or has returned. -/
def Unmoved (r r' : Shop S C P (Option O)) (id id' : Nat → Nat) : Prop :=
  ∀ i, ((r'.jobs i).cur ≠ none → (r.jobs i).cur ≠ none ∧ id' i = id i ∧ (r'.jobs i).outs.length = (r.jobs i).outs.length) ∧
    ∀ (m : Nat) (o : O), (r'.jobs i).outs[m]? = some (some o) → (r.jobs i).outs[m]? = some (some o)

/-- Thread `j` begins a call, goes on with it or returns. -/
structure Obeyed (calls : Nat → List C) (r r' : Shop S C P (Option O)) (v v' : Shop S C P O) (id : Nat → Nat) (j : Nat)
    (told' : Nat → List C) : Prop where
  run : ∀ i, (r'.jobs i).cur ≠ none → (v'.jobs (id i)).outs.length = (v.jobs (id i)).outs.length ∧
    (((r.jobs i).cur ≠ none ∧ (r'.jobs i).outs.length = (r.jobs i).outs.length) ∨ (i = j ∧ (r.jobs j).cur = none))
  out : ∀ (i m : Nat) (o : O), (r'.jobs i).outs[m]? = some (some o) → (r.jobs i).outs[m]? = some (some o) ∨
    (i = j ∧ m = (r.jobs j).outs.length ∧ (r.jobs j).cur ≠ none ∧ ∃ c, (calls j)[m]? = some c ∧
      (told' (id j))[(v.jobs (id j)).outs.length]? = some c ∧ (v'.jobs (id j)).outs[(v.jobs (id j)).outs.length]? = some o)
  keep : ∀ (x m : Nat) (o : O), (v.jobs x).outs[m]? = some o → (v'.jobs x).outs[m]? = some o

/-- What threads whose calls may be ended do, threads do that are told so. -/
structure Course (M : Machine S C P O) (s : S) (calls : Nat → List C) (wr : C → Prop) (l : List Happening)
    (orders : List (Nat × Option C)) (id : Nat → Nat) (n : Nat) : Prop where
  apt : M.threads.Apt (Shop.new s fun _ => []) orders
  twin : Double calls (M.course l (Shop.new s calls)) (M.threads.obey orders (Shop.new s fun _ => [])) (ThreadSystem.told orders) id n
  moments : ∀ a o b, orders = a ++ o :: b → ∃ l1 j, l1 <+: l ∧
    (M.threads.obey a (Shop.new s fun _ => [])).shared = (M.course l1 (Shop.new s calls)).shared ∧
    ((M.threads.obey a (Shop.new s fun _ => [])).jobs o.1).cur = ((M.course l1 (Shop.new s calls)).jobs j).cur
  gone : M.OneDoes wr s calls l → ∀ a o b, orders = a ++ o :: b → ∀ x, x ≠ o.1 →
    Machine.Doing wr (ThreadSystem.told a) (M.threads.obey a (Shop.new s fun _ => [])) x →
    Machine.Doing wr (ThreadSystem.told a) (M.threads.obey a (Shop.new s fun _ => [])) o.1 →
    (∀ y ∈ b, y.1 ≠ x) ∧ (∀ j, id j ≠ x) ∧ ∀ m, n ≤ m → x ≠ 2 * m + 1
  lives : ∃ mo, Lives M s calls l orders id mo

variable {M : Machine S C P O} {s : S} {calls : Nat → List C} {wr : C → Prop} {l : List Happening}
  {orders : List (Nat × Option C)} {id : Nat → Nat} {n : Nat}

theorem Machine.OneDoes.init {e : Happening} (h : M.OneDoes wr s calls (l ++ [e])) : M.OneDoes wr s calls l :=
  fun l1 h1 => h l1 (h1.trans (List.prefix_append _ _))

theorem Lives.quiet {mo : Nat → List Happening} (h : Lives M s calls l orders id mo) (e : Happening) {id' : Nat → Nat}
    (hq : Unmoved (M.course l (Shop.new s calls)) (M.course (l ++ [e]) (Shop.new s calls)) id id') :
    Lives M s calls (l ++ [e]) orders id' mo where
  mono := h.mono
  pre p := (h.pre p).trans (List.prefix_append _ _)
  shared := h.shared
  live j hj p hp hr := by
    obtain ⟨h1, h2, h3⟩ := (hq j).1 hj
    rw [h2] at hr
    rw [h3]
    exact h.live j h1 p hp hr
  lived j m o ho := h.lived j m o ((hq j).2 m o ho)

theorem Lives.tell {mo : Nat → List Happening} (h : Lives M s calls l orders id mo) (e : Happening) (j : Nat) (o : Option C)
    (ha : M.threads.Apt (Shop.new s fun _ => []) orders)
    (ht : Double calls (M.course l (Shop.new s calls)) (M.threads.obey orders (Shop.new s fun _ => []))
      (ThreadSystem.told orders) id n)
    (hs : (M.threads.obey1 (M.threads.obey orders (Shop.new s fun _ => [])) (id j, o)).shared =
      (M.course (l ++ [e]) (Shop.new s calls)).shared)
    (hq : Obeyed calls (M.course l (Shop.new s calls)) (M.course (l ++ [e]) (Shop.new s calls))
      (M.threads.obey orders (Shop.new s fun _ => []))
      (M.threads.obey1 (M.threads.obey orders (Shop.new s fun _ => [])) (id j, o)) id j
      (ThreadSystem.told (orders ++ [(id j, o)]))) :
    Lives M s calls (l ++ [e]) (orders ++ [(id j, o)]) id (fun p => if p ≤ orders.length then mo p else l ++ [e]) where
  mono p q hpq := by
    show (if _ then _ else _) <+: (if _ then _ else _)
    by_cases h1 : p ≤ orders.length
    · by_cases h2 : q ≤ orders.length
      · rw [if_pos h1, if_pos h2]; exact h.mono p q hpq
      · rw [if_pos h1, if_neg h2]; exact (h.pre p).trans (List.prefix_append _ _)
    · rw [if_neg h1, if_neg (by omega)]
      exact List.prefix_rfl
  pre p := by
    show (if _ then _ else _) <+: _
    split
    · exact (h.pre p).trans (List.prefix_append _ _)
    · exact List.prefix_rfl
  shared p hp := by
    rw [List.length_append, List.length_singleton] at hp
    by_cases h1 : p ≤ orders.length
    · rw [if_pos h1, List.take_append_of_le_length h1]; exact h.shared p h1
    · rw [if_neg h1, List.take_of_length_le (by simp; omega), M.threads.obey_append]
      exact hs
  live i hi p hp hr := by
    rw [List.length_append, List.length_singleton] at hp
    by_cases h1 : p ≤ orders.length
    · rw [if_pos h1]
      rw [List.take_append_of_le_length h1, M.threads.obey_append] at hr
      obtain ⟨e1, e2⟩ := hq.run i hi
      rw [show (M.threads.obey [(id j, o)] (M.threads.obey orders (Shop.new s fun _ => []))) =
        M.threads.obey1 (M.threads.obey orders (Shop.new s fun _ => [])) (id j, o) from rfl, e1] at hr
      rcases e2 with ⟨e2, e3⟩ | ⟨rfl, e2⟩
      · rw [e3]; exact h.live i e2 p h1 hr
      · exfalso
        have hl := ht.len (id i) ((ht.cur i).trans e2)
        have ha' := ha
        rw [← List.take_append_drop p orders] at ha'
        have hl' := told_length M s (orders.take p) ((M.threads.apt_append _ _ _).1 ha').1 (id i)
        rw [if_pos hr.2, hr.1] at hl'
        have e : ThreadSystem.told orders (id i) =
            ThreadSystem.told (orders.take p) (id i) ++ ThreadSystem.told (orders.drop p) (id i) := by
          rw [← ThreadSystem.told_append, List.take_append_drop]
        rw [e, List.length_append, hl'] at hl
        omega
    · rw [if_neg h1]
      exact ⟨rfl, by
        cases hc : ((M.course (l ++ [e]) (Shop.new s calls)).jobs i).cur with
        | none => exact absurd hc hi
        | some => rfl⟩
  lived i m o' ho := by
    have hlast : ∀ (x m' : Nat) (o' : O), ((M.threads.obey (orders ++ [(id j, o)]) (Shop.new s fun _ => [])).jobs x).outs[m']? = some o' →
        ∀ p, ¬ p ≤ orders.length → (M.threads.obey ((orders ++ [(id j, o)]).take p) (Shop.new s fun _ => [])).Running x m' → False := by
      intro x m' o' h1 p h2 h3
      rw [List.take_of_length_le (by simp; omega)] at h3
      have := (List.getElem?_eq_some_iff.1 h1).1
      rw [h3.1] at this
      exact absurd this (Nat.lt_irrefl _)
    rcases hq.out i m o' ho with ho | ⟨rfl, rfl, hc, c, e1, e2, e3⟩
    · obtain ⟨x, m', c, e1, e2, e3, e4⟩ := h.lived i m o' ho
      have e3' : ((M.threads.obey (orders ++ [(id j, o)]) (Shop.new s fun _ => [])).jobs x).outs[m']? = some o' := by
        rw [M.threads.obey_append]; exact hq.keep x m' o' e3
      refine ⟨x, m', c, e1, ?_, e3', fun p hp hr => ?_⟩
      · rw [ThreadSystem.told_append, List.getElem?_append_left (List.getElem?_eq_some_iff.1 e2).1]; exact e2
      · by_cases h1 : p ≤ orders.length
        · rw [if_pos h1]
          rw [List.take_append_of_le_length h1] at hr
          exact e4 p h1 hr
        · exact (hlast x m' o' e3' p h1 hr).elim
    · have e3' : ((M.threads.obey (orders ++ [(id i, o)]) (Shop.new s fun _ => [])).jobs (id i)).outs[
          ((M.threads.obey orders (Shop.new s fun _ => [])).jobs (id i)).outs.length]? = some o' := by
        rw [M.threads.obey_append]; exact e3
      refine ⟨id i, _, c, e1, e2, e3', fun p hp hr => ?_⟩
      by_cases h1 : p ≤ orders.length
      · rw [if_pos h1]
        rw [List.take_append_of_le_length h1] at hr
        exact h.live i hc p h1 hr
      · exact (hlast _ _ _ e3' p h1 hr).elim

/-- Nothing is told. -/
theorem Course.quiet (h : Course M s calls wr l orders id n) (e : Happening) {id' : Nat → Nat} {n' : Nat}
    (ht : Double calls (M.course (l ++ [e]) (Shop.new s calls)) (M.threads.obey orders (Shop.new s fun _ => []))
      (ThreadSystem.told orders) id' n')
    (hid : ∀ j, id' j = id j ∨ ∃ m, n ≤ m ∧ id' j = 2 * m + 1) (hn : n ≤ n')
    (hq : Unmoved (M.course l (Shop.new s calls)) (M.course (l ++ [e]) (Shop.new s calls)) id id') :
    Course M s calls wr (l ++ [e]) orders id' n' where
  apt := h.apt
  twin := ht
  moments a o b ho := by
    obtain ⟨l1, j, h1, h2⟩ := h.moments a o b ho
    exact ⟨l1, j, h1.trans (List.prefix_append _ _), h2⟩
  gone hone a o b ho x hx d1 d2 := by
    obtain ⟨g1, g2, g3⟩ := h.gone hone.init a o b ho x hx d1 d2
    refine ⟨g1, fun j => ?_, fun m hm => g3 m (Nat.le_trans hn hm)⟩
    rcases hid j with e | ⟨m, hm, e⟩
    · rw [e]; exact g2 j
    · rw [e]; exact fun e' => g3 m hm e'.symm
  lives := h.lives.imp fun _ hm => hm.quiet e hq

/-- A thread is told what to do. -/
theorem Course.tell (h : Course M s calls wr l orders id n) (e : Happening) (j : Nat) (o : Option C)
    (hi : M.threads.idle (M.threads.obey orders (Shop.new s fun _ => [])) (id j) = o.isSome)
    (ht : Double calls (M.course (l ++ [e]) (Shop.new s calls))
      (M.threads.obey1 (M.threads.obey orders (Shop.new s fun _ => [])) (id j, o))
      (ThreadSystem.told (orders ++ [(id j, o)])) id n)
    (hq : Obeyed calls (M.course l (Shop.new s calls)) (M.course (l ++ [e]) (Shop.new s calls))
      (M.threads.obey orders (Shop.new s fun _ => []))
      (M.threads.obey1 (M.threads.obey orders (Shop.new s fun _ => [])) (id j, o)) id j
      (ThreadSystem.told (orders ++ [(id j, o)]))) :
    Course M s calls wr (l ++ [e]) (orders ++ [(id j, o)]) id n where
  apt := (M.threads.apt_append _ _ _).2 ⟨h.apt, hi, trivial⟩
  twin := by rw [M.threads.obey_append]; exact ht
  moments a o' b ho := by
    rcases List.append_eq_append_iff.1 ho with ⟨c, h1, h2⟩ | ⟨c, h1, h2⟩
    · cases c with
      | nil =>
        rw [List.append_nil] at h1
        subst h1
        injection h2 with h2
        subst h2
        exact ⟨l, j, List.prefix_append _ _, h.twin.shared, h.twin.cur j⟩
      | cons x c =>
        injection h2 with _ h2
        exact absurd h2 (by simp)
    · cases c with
      | nil =>
        rw [List.append_nil] at h1
        subst h1
        injection h2 with h2
        subst h2
        exact ⟨l, j, List.prefix_append _ _, h.twin.shared, h.twin.cur j⟩
      | cons x c =>
        injection h2 with h2 h3
        subst h2
        obtain ⟨l1, j', g1, g2⟩ := h.moments a o' c h1
        exact ⟨l1, j', g1.trans (List.prefix_append _ _), g2⟩
  gone hone a o' b ho x hx d1 d2 := by
    have last : a = orders → o' = (id j, o) → b = [] → (∀ y ∈ b, y.1 ≠ x) ∧ (∀ j, id j ≠ x) ∧ ∀ m, n ≤ m → x ≠ 2 * m + 1 := by
      rintro rfl rfl rfl
      refine ⟨fun y hy => absurd hy List.not_mem_nil, fun j' e' => hx ?_, fun m hm e' => ?_⟩
      · subst e'
        rw [hone.init l List.prefix_rfl j' j (h.twin.doing d1) (h.twin.doing d2)]
      · have := d1.1
        rw [e', (h.twin.fresh m hm).2] at this
        exact (nomatch this)
    rcases List.append_eq_append_iff.1 ho with ⟨c, h1, h2⟩ | ⟨c, h1, h2⟩
    · cases c with
      | nil =>
        rw [List.append_nil] at h1
        injection h2 with h2 h3
        exact last h1 h2.symm h3.symm
      | cons x c =>
        injection h2 with _ h2
        exact absurd h2 (by simp)
    · cases c with
      | nil =>
        rw [List.append_nil] at h1
        injection h2 with h2 h3
        exact last h1.symm h2 h3
      | cons x' c =>
        injection h2 with h2 h3
        subst h2
        obtain ⟨g1, g2, g3⟩ := h.gone hone.init a o' c h1 x hx d1 d2
        refine ⟨fun y hy => ?_, g2, g3⟩
        rw [h3] at hy
        rcases List.mem_append.1 hy with hy | hy
        · exact g1 y hy
        · rw [List.mem_singleton.1 hy]; exact g2 j
  lives := h.lives.elim fun _ hm => ⟨_, hm.tell e j o h.apt h.twin ht.shared hq⟩

theorem Machine.course_snoc (M : Machine S C P O) (l : List Happening) (e : Happening) (w : Shop S C P (Option O)) :
    M.course (l ++ [e]) w = M.happen (M.course l w) e := by
  unfold Machine.course; rw [List.foldl_append]; rfl

theorem Unmoved.refl (r : Shop S C P (Option O)) (id : Nat → Nat) : Unmoved r r id id :=
  fun _ => ⟨fun h => ⟨h, rfl, rfl⟩, fun _ _ h => h⟩

theorem Unmoved.ends (r : Shop S C P (Option O)) (id : Nat → Nat) (j x : Nat) :
    Unmoved r (r.set j { r.jobs j with cur := none, outs := (r.jobs j).outs ++ [none] }) id (fun i => if i = j then x else id i) := by
  intro i
  by_cases hi : i = j
  · subst hi
    rw [Shop.set_same]
    refine ⟨fun h => absurd rfl h, fun m o h => ?_⟩
    change ((r.jobs i).outs ++ [none])[m]? = _ at h
    by_cases hm : m < (r.jobs i).outs.length
    · rw [List.getElem?_append_left hm] at h; exact h
    · have := (List.getElem?_eq_some_iff.1 h).1
      rw [List.length_append, List.length_singleton] at this
      have hm : m = (r.jobs i).outs.length := by omega
      subst hm
      rw [List.getElem?_concat_length] at h
      injection h with h
      exact (nomatch h)
  · rw [Shop.set_other _ _ hi]
    exact ⟨fun h => ⟨h, by simp [hi], rfl⟩, fun _ _ h => h⟩

theorem Obeyed.begins {r : Shop S C P (Option O)} {v : Shop S C P O} {j : Nat}
    (rest : List C) (hc : (r.jobs j).cur = none) (p p' : P) (told' : Nat → List C) :
    Obeyed calls r (r.set j { r.jobs j with cur := some p, rest := rest }) v
      (v.set (id j) { v.jobs (id j) with cur := some p' }) id j told' := by
  have hv : ∀ x, ((v.set (id j) { v.jobs (id j) with cur := some p' }).jobs x).outs = (v.jobs x).outs := by
    intro x
    by_cases hx : x = id j
    · subst hx; rw [Shop.set_same]
    · rw [Shop.set_other _ _ hx]
  refine ⟨fun i hi => ⟨by rw [hv], ?_⟩, fun i m o ho => .inl ?_, fun x m o ho => by rw [hv]; exact ho⟩
  · by_cases hij : i = j
    · subst hij; exact .inr ⟨rfl, hc⟩
    · rw [Shop.set_other _ _ hij] at hi ⊢; exact .inl ⟨hi, rfl⟩
  · by_cases hij : i = j
    · subst hij; rw [Shop.set_same] at ho; exact ho
    · rw [Shop.set_other _ _ hij] at ho; exact ho

theorem Obeyed.goes {r : Shop S C P (Option O)} {v : Shop S C P O} {j : Nat} {p p' : P} {s' : S}
    (hc : (r.jobs j).cur ≠ none) (told' : Nat → List C) :
    Obeyed calls r { r.set j { r.jobs j with cur := some p } with shared := s' } v
      { v.set (id j) { v.jobs (id j) with cur := some p' } with shared := s' } id j told' := by
  have hv : ∀ x, ((v.set (id j) { v.jobs (id j) with cur := some p' }).jobs x).outs = (v.jobs x).outs := by
    intro x
    by_cases hx : x = id j
    · subst hx; rw [Shop.set_same]
    · rw [Shop.set_other _ _ hx]
  refine ⟨fun i hi => ⟨congrArg List.length (hv _), .inl ?_⟩, fun i m o ho => .inl ?_, fun x m o ho =>
    (congrArg (·[m]?) (hv x)).trans ho⟩
  · change ((r.set _ _).jobs i).cur ≠ none at hi
    show _ ∧ ((r.set _ _).jobs i).outs.length = _
    by_cases hij : i = j
    · subst hij; rw [Shop.set_same]; exact ⟨hc, rfl⟩
    · rw [Shop.set_other _ _ hij] at hi ⊢; exact ⟨hi, rfl⟩
  · change ((r.set _ _).jobs i).outs[m]? = _ at ho
    by_cases hij : i = j
    · subst hij; rw [Shop.set_same] at ho; exact ho
    · rw [Shop.set_other _ _ hij] at ho; exact ho

theorem Obeyed.returns {r : Shop S C P (Option O)} {v : Shop S C P O} {told : Nat → List C} (ht : Double calls r v told id n)
    {j : Nat} {o : O} {s' : S} (hc : (r.jobs j).cur ≠ none) :
    Obeyed calls r { r.set j { r.jobs j with cur := none, outs := (r.jobs j).outs ++ [some o] } with shared := s' } v
      { v.set (id j) { v.jobs (id j) with cur := none, outs := (v.jobs (id j)).outs ++ [o] } with shared := s' } id j told := by
  obtain ⟨c, b1, b2, b3⟩ := ht.busy j hc
  refine ⟨fun i hi => ?_, fun i m o' ho => ?_, fun x m o' ho => ?_⟩
  · change ((r.set _ _).jobs i).cur ≠ none at hi
    show ((v.set _ _).jobs (id i)).outs.length = _ ∧ ((_ ∧ ((r.set _ _).jobs i).outs.length = _) ∨ _)
    by_cases hij : i = j
    · subst hij; rw [Shop.set_same] at hi; exact absurd rfl hi
    · rw [Shop.set_other _ _ hij] at hi ⊢
      rw [Shop.set_other _ _ (fun e => hij (ht.inj _ _ e))]
      exact ⟨rfl, .inl ⟨hi, rfl⟩⟩
  · change ((r.set _ _).jobs i).outs[m]? = _ at ho
    by_cases hij : i = j
    · subst hij
      rw [Shop.set_same] at ho
      change ((r.jobs i).outs ++ [some o])[m]? = _ at ho
      by_cases hm : m < (r.jobs i).outs.length
      · rw [List.getElem?_append_left hm] at ho; exact .inl ho
      · have := (List.getElem?_eq_some_iff.1 ho).1
        rw [List.length_append, List.length_singleton] at this
        have hm : m = (r.jobs i).outs.length := by omega
        subst hm
        rw [List.getElem?_concat_length] at ho
        injection ho with ho
        injection ho with ho
        refine .inr ⟨rfl, rfl, hc, c, (drop_head b1).1, b2, ?_⟩
        show ((v.set _ _).jobs (id i)).outs[_]? = _
        rw [Shop.set_same, ← ho]
        exact List.getElem?_concat_length
    · rw [Shop.set_other _ _ hij] at ho; exact .inl ho
  · show ((v.set _ _).jobs x).outs[m]? = _
    by_cases hx : x = id j
    · subst hx
      rw [Shop.set_same]
      show ((v.jobs (id j)).outs ++ [o])[m]? = _
      rw [List.getElem?_append_left (List.getElem?_eq_some_iff.1 ho).1]
      exact ho
    · rw [Shop.set_other _ _ hx]; exact ho

/-- Something happens, and perhaps a thread is told what to do. -/
theorem Course.next (h : Course M s calls wr l orders id n) (e : Happening) :
    ∃ orders' id' n', Course M s calls wr (l ++ [e]) orders' id' n' := by
  have hs := M.course_snoc l e (Shop.new s calls)
  have ht := h.twin
  revert hs ht
  have hq := @Course.quiet _ _ _ _ _ _ _ _ _ _ _ _ h e
  have htell := h.tell e
  revert hq htell
  generalize M.course (l ++ [e]) (Shop.new s calls) = r'
  generalize M.course l (Shop.new s calls) = r
  generalize M.threads.obey orders (Shop.new s fun _ => []) = v
  intro hq htell hs ht
  subst hs
  cases e with
  | ends j =>
    unfold Machine.happen at hq
    cases hc : (r.jobs j).cur with
    | none =>
      simp only [hc] at hq
      exact ⟨orders, id, n, hq ht (fun _ => .inl rfl) (Nat.le_refl n) (Unmoved.refl _ _)⟩
    | some p =>
      simp only [hc] at hq
      refine ⟨orders, _, n + 1, hq (ht.ends (j := j) (by rw [hc]; simp)) (fun i => ?_) (Nat.le_succ n) (Unmoved.ends _ _ _ _)⟩
      by_cases hij : i = j
      · right; exact ⟨n, Nat.le_refl n, by simp [hij]⟩
      · left; simp [hij]
  | moves j =>
    unfold Machine.happen Machine.step at hq htell
    have hcv := ht.cur j
    cases hc : (r.jobs j).cur with
    | none =>
      cases hr : (r.jobs j).rest with
      | nil =>
        simp only [hc, hr] at hq
        exact ⟨orders, id, n, hq ht (fun _ => .inl rfl) (Nat.le_refl n) (Unmoved.refl _ _)⟩
      | cons c rest =>
        simp only [hc, hr] at htell
        refine ⟨_, id, n, htell j (some c) ?_ ?_ (Obeyed.begins _ hc _ _ _)⟩
        · show (v.jobs (id j)).cur.isNone = _
          rw [hcv, hc]; rfl
        · have := ht.begins (p := M.enter r.shared c) (told' := ThreadSystem.told (orders ++ [(id j, some c)])) hc hr
            (by rw [ThreadSystem.told_append, ThreadSystem.told_start, if_pos rfl])
            (fun x hx => by rw [ThreadSystem.told_append, ThreadSystem.told_start, if_neg hx, List.append_nil])
          rw [← ht.shared] at this
          rw [← ht.shared]
          exact this
    | some p =>
      have htold : ThreadSystem.told (orders ++ [(id j, none)]) = ThreadSystem.told orders := by
        funext x
        rw [ThreadSystem.told_append, ThreadSystem.told_go, List.append_nil]
      have hidle : (v.jobs (id j)).cur.isNone = false := by rw [hcv, hc]; rfl
      cases hm : M.move r.shared p with
      | mk s' q =>
        cases q with
        | inl p' =>
          simp only [hc, Machine.may, hm] at htell
          refine ⟨_, id, n, htell j none hidle ?_ ?_⟩
          rotate_left
          · show Obeyed calls r _ v (M.step (id j) v) id j _
            unfold Machine.step
            simp only [hcv, hc, ht.shared, hm]
            exact Obeyed.goes (by rw [hc]; simp) _
          rw [htold]
          have := ht.goes (j := j) (p' := p') (s := s') (by rw [hc]; simp)
          show Double calls _ (M.step (id j) v) _ id n
          unfold Machine.step
          simp only [hcv, hc, ht.shared, hm]
          exact this
        | inr o =>
          simp only [hc, Machine.may, hm] at htell
          refine ⟨_, id, n, htell j none hidle ?_ ?_⟩
          rotate_left
          · show Obeyed calls r _ v (M.step (id j) v) id j _
            unfold Machine.step
            simp only [hcv, hc, ht.shared, hm]
            rw [htold]
            exact Obeyed.returns ht (by rw [hc]; simp)
          rw [htold]
          have := ht.returns (j := j) (o := o) (s := s') (by rw [hc]; simp)
          show Double calls _ (M.step (id j) v) _ id n
          unfold Machine.step
          simp only [hcv, hc, ht.shared, hm]
          exact this

theorem Course.new (M : Machine S C P O) (s : S) (calls : Nat → List C) (wr : C → Prop) :
    Course M s calls wr [] [] (fun j => 2 * j) 0 where
  apt := trivial
  twin := by
    refine ⟨rfl, fun j => rfl, fun x _ => rfl, fun j _ => rfl, fun j h => absurd rfl h, fun j m o h => ?_, fun x c h => ?_,
      fun j j' e => ?_, fun m _ => ⟨fun j e => ?_, rfl⟩⟩
    · change ([] : List (Option O))[m]? = _ at h
      exact (nomatch h)
    · exact absurd h List.not_mem_nil
    · omega
    · omega
  moments a o b h := absurd h (by simp)
  gone _ a o b h := absurd h (by simp)
  lives := ⟨fun _ => [], fun _ _ _ => List.prefix_rfl, fun _ => List.prefix_rfl, fun _ _ => by rw [List.take_nil]; rfl, fun _ h => absurd rfl h,
    fun j m o h => by
      change ([] : List (Option O))[m]? = _ at h
      exact (nomatch h)⟩

theorem track_all (M : Machine S C P O) (s : S) (calls : Nat → List C) (wr : C → Prop) (l : List Happening) :
    ∃ orders id n, Course M s calls wr l orders id n := by
  rw [← List.reverse_reverse l]
  induction l.reverse with
  | nil => exact ⟨_, _, _, Course.new M s calls wr⟩
  | cons e l ih =>
    obtain ⟨orders, id, n, h⟩ := ih
    rw [List.reverse_cons]
    exact h.next e

end Pymt
