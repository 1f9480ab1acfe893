import Verif.Lemmas.MerkleThreads

/-!
# Threads that share a `MerkleTree`
-/

namespace Pymt

open MTree MProg

/-- Induction on a list, from its end. -/
theorem snocRec {α : Type} {P : List α → Prop} (l : List α) (nil : P [])
    (append_singleton : ∀ l a, P l → P (l ++ [a])) : P l := by
  have : ∀ l, P (List.reverse l) := by
    intro l
    induction l with
    | nil => exact nil
    | cons a l ih => rw [List.reverse_cons]; exact append_singleton _ _ ih
  simpa using this l.reverse

theorem ofClient_append {α : Type} (j : Nat) (l l' : List (Nat × α)) : ofClient j (l ++ l') = ofClient j l ++ ofClient j l' := by
  simp [ofClient]

theorem ofClient_one {α : Type} (i j : Nat) (a : α) : ofClient i [(j, a)] = if j = i then [a] else [] := by
  by_cases h : j = i <;> simp [ofClient, h]

namespace MWorld

theorem run_snoc (H : HashFn) (sched : List Nat) (j : Nat) (w : MWorld) : w.run H (sched ++ [j]) = (w.run H sched).step H j := by
  simp [run]

theorem threads_set (w : MWorld) (j : Nat) (th : MThread) (i : Nat) :
    (w.setThread j th).threads i = if i = j then th else w.threads i := rfl

/-- The four things that can happen when thread `j` moves. -/
theorem step_cases (H : HashFn) (j : Nat) (w : MWorld) :
    ((w.threads j).cur = none ∧ (w.threads j).rest = [] ∧ w.step H j = w) ∨
    (∃ c rest, (w.threads j).cur = none ∧ (w.threads j).rest = c :: rest ∧
      w.step H j = w.setThread j { (w.threads j) with cur := some (c.prog H w.tree.secure), rest := rest }) ∨
    (∃ r, (w.threads j).cur = some (.done r) ∧
      w.step H j = w.setThread j { (w.threads j) with cur := none, outs := (w.threads j).outs ++ [r] }) ∨
    (∃ p, (w.threads j).cur = some p ∧ (∀ r, p ≠ .done r) ∧
      w.step H j = { w.setThread j { (w.threads j) with cur := some (p.step H w.tree).1 } with tree := (p.step H w.tree).2 }) := by
  unfold step
  cases hc : (w.threads j).cur with
  | none =>
    cases hr : (w.threads j).rest with
    | nil => exact .inl ⟨rfl, rfl, by simp only [hc, hr]⟩
    | cons c rest => exact .inr (.inl ⟨c, rest, rfl, rfl, by simp only [hc, hr]⟩)
  | some p =>
    cases p with
    | done r => exact .inr (.inr (.inl ⟨r, rfl, by simp only [hc]⟩))
    | _ => exact .inr (.inr (.inr ⟨_, rfl, (by intro r h; cases h), by simp only [hc]⟩))

end MWorld

/-- A thread without calls does nothing. -/
theorem idle_run {H : HashFn} {j : Nat} (w : MWorld) (sched : List Nat)
    (h : (w.threads j).rest = [] ∧ (w.threads j).cur = none) :
    ((w.run H sched).threads j).rest = [] ∧ ((w.run H sched).threads j).cur = none := by
  induction sched using snocRec with
  | nil => exact h
  | append_singleton sched i ih =>
    rw [MWorld.run_snoc]
    generalize w.run H sched = w at ih
    by_cases hij : j = i
    · subst hij
      rcases MWorld.step_cases H j w with ⟨_, _, e⟩ | ⟨c, rest, _, e2, _⟩ | ⟨r, e1, _⟩ | ⟨p, e1, _, _⟩
      · rw [e]; exact ih
      · rw [ih.1] at e2; cases e2
      · rw [ih.2] at e1; cases e1
      · rw [ih.2] at e1; cases e1
    · rcases MWorld.step_cases H i w with ⟨_, _, e⟩ | ⟨c, rest, _, _, e⟩ | ⟨r, _, e⟩ | ⟨p, _, _, e⟩ <;> rw [e]
      · exact ih
      · rw [MWorld.threads_set, if_neg hij]; exact ih
      · rw [MWorld.threads_set, if_neg hij]; exact ih
      · show ((w.setThread i _).threads j).rest = [] ∧ ((w.setThread i _).threads j).cur = none
        rw [MWorld.threads_set, if_neg hij]; exact ih

/-! ### A tree that is made -/

/-- A thread that asks a made tree. -/
def Asking (H : HashFn) (t : MTree) (calls : List MCall) (th : MThread) : Prop :=
  ∃ made, th.outs = made.map (fun c => (c.alone H t).1) ∧
    match th.cur with
    | none => calls = made ++ th.rest
    | some p => ∃ c, calls = made ++ c :: th.rest ∧ Goes H false p t.shared (.done (c.alone H t).1) t.shared

theorem asking_run {H : HashFn} {t : MTree} {calls : Nat → List MCall} (hr : t.ready = true)
    (hc : ∀ j, ∀ c ∈ calls j, c.Asks) (sched : List Nat) :
    let w := (MWorld.new t calls).run H sched
    w.tree = t.shared ∧ ∀ j, Asking H t (calls j) (w.threads j) := by
  induction sched using snocRec with
  | nil => exact ⟨rfl, fun j => ⟨[], rfl, rfl⟩⟩
  | append_singleton sched j ih =>
    rw [MWorld.run_snoc]
    generalize (MWorld.new t calls).run H sched = w at ih
    obtain ⟨ht, hth⟩ := ih
    have lift : ∀ th : MThread, Asking H t (calls j) th → ∀ i, Asking H t (calls i) (if i = j then th else w.threads i) := by
      intro th h i
      split
      · next e => subst e; exact h
      · exact hth i
    obtain ⟨made, h1, h2⟩ := hth j
    rcases MWorld.step_cases H j w with ⟨_, _, e⟩ | ⟨c, rest, e1, e2, e⟩ | ⟨r, e1, e⟩ | ⟨p, e1, e2, e⟩
    · rw [e]; exact ⟨ht, hth⟩
    · rw [e]
      refine ⟨ht, lift _ ⟨made, h1, c, ?_⟩⟩
      rw [e1] at h2
      have h2 : calls j = made ++ (w.threads j).rest := h2
      rw [e2] at h2
      refine ⟨h2, ?_⟩
      have := call_asks H t c hr (hc j c (by rw [h2]; simp))
      rw [ht]
      exact this
    · rw [e]
      rw [e1] at h2
      obtain ⟨c, h2, h3⟩ := h2
      refine ⟨ht, lift _ ⟨made ++ [c], ?_, ?_⟩⟩
      · simp [h1, h3.done_eq.1]
      · simp [h2]
    · rw [e]
      rw [e1] at h2
      obtain ⟨c, h2, h3⟩ := h2
      obtain ⟨h4, h5⟩ := h3.next_still
      refine ⟨?_, lift _ ⟨made, h1, c, h2, ?_⟩⟩
      · show (p.step H w.tree).2 = t.shared
        rw [ht]; exact h4
      · rw [ht]; exact h5

/-! ### One call at a time -/

/-- All calls made so far, in order, and the one in progress. -/
structure Ordered (H : HashFn) (t : MTree) (calls : Nat → List MCall) (order : List (Nat × MCall)) (w : MWorld) : Prop where
  outs : ∀ j, (w.threads j).outs = ofClient j (MCall.inTurn H order t)
  state : (∀ j, (w.threads j).cur = none ∧ calls j = ofClient j order ++ (w.threads j).rest) ∧
        w.tree = (MCall.afterTurns H order t).shared ∨
    ∃ j c p, (w.threads j).cur = some p ∧ (∀ i, i ≠ j → (w.threads i).cur = none) ∧
      (∀ i, calls i = ofClient i (order ++ [(j, c)]) ++ (w.threads i).rest) ∧
      Goes H true p w.tree (.done (c.alone H (MCall.afterTurns H order t)).1)
        (c.alone H (MCall.afterTurns H order t)).2.shared

theorem inTurn_append (H : HashFn) (a : List (Nat × MCall)) (j : Nat) (c : MCall) (t : MTree) :
    MCall.inTurn H (a ++ [(j, c)]) t = MCall.inTurn H a t ++ [(j, (c.alone H (MCall.afterTurns H a t)).1)] := by
  induction a generalizing t with
  | nil => rfl
  | cons e a ih =>
    obtain ⟨i, d⟩ := e
    simp [MCall.inTurn, MCall.afterTurns, ih]

theorem afterTurns_append (H : HashFn) (a : List (Nat × MCall)) (j : Nat) (c : MCall) (t : MTree) :
    MCall.afterTurns H (a ++ [(j, c)]) t = (c.alone H (MCall.afterTurns H a t)).2 := by
  simp [MCall.afterTurns]

theorem ordered_run {H : HashFn} {t : MTree} {calls : Nat → List MCall} (sched : List Nat)
    (hl : (MWorld.new t calls).OneAtATime H sched) :
    ∃ order, Ordered H t calls order ((MWorld.new t calls).run H sched) := by
  induction sched using snocRec with
  | nil => exact ⟨[], fun j => rfl, .inl ⟨fun j => ⟨rfl, rfl⟩, rfl⟩⟩
  | append_singleton sched j ih =>
    have hl' : (MWorld.new t calls).OneAtATime H sched := by
      intro q i k hik
      have := hl (min q sched.length) i k hik
      rw [List.take_append_of_le_length (by omega)] at this
      by_cases hq : q ≤ sched.length
      · rwa [Nat.min_eq_left hq] at this
      · rw [Nat.min_eq_right (by omega), List.take_of_length_le (Nat.le_refl _)] at this
        rw [List.take_of_length_le (by omega)]; exact this
    obtain ⟨order, ho⟩ := ih hl'
    have hnow := hl (sched ++ [j]).length
    rw [List.take_of_length_le (Nat.le_refl _)] at hnow
    rw [MWorld.run_snoc] at hnow ⊢
    generalize (MWorld.new t calls).run H sched = w at ho hnow
    obtain ⟨houts, hst⟩ := ho
    rcases MWorld.step_cases H j w with ⟨_, _, e⟩ | ⟨c, rest, e1, e2, e⟩ | ⟨r, e1, e⟩ | ⟨p, e1, e2, e⟩
    · rw [e]; exact ⟨order, houts, hst⟩
    · rw [e] at hnow ⊢
      refine ⟨order, ?_, ?_⟩
      · intro i
        rw [MWorld.threads_set]
        split
        · next h => subst h; exact houts _
        · exact houts i
      · rcases hst with ⟨hidle, htree⟩ | ⟨k, d, p, h1, h2, h3, h4⟩
        · right
          refine ⟨j, c, _, by rw [MWorld.threads_set, if_pos rfl], ?_, ?_, ?_⟩
          · intro i hi; rw [MWorld.threads_set, if_neg hi]; exact (hidle i).1
          · intro i
            rw [MWorld.threads_set, ofClient_append, ofClient_one, (hidle i).2]
            by_cases h : i = j
            · subst h; simp [e2]
            · have : ¬ j = i := fun e => h e.symm
              simp [h, this]
          · show Goes H true (c.prog H w.tree.secure) w.tree _ _
            rw [htree]
            exact call_goes H _ c
        · exfalso
          by_cases h : k = j
          · subst h; rw [h1] at e1; cases e1
          · rcases hnow k j h with hn | hn
            · rw [MWorld.threads_set, if_neg h, h1] at hn; cases hn
            · rw [MWorld.threads_set, if_pos rfl] at hn; cases hn
    · rcases hst with ⟨hidle, _⟩ | ⟨k, d, p, h1, h2, h3, h4⟩
      · rw [(hidle j).1] at e1; cases e1
      have hk : k = j := by
        refine Classical.byContradiction fun h => ?_
        rw [h2 j (fun e => h e.symm)] at e1; cases e1
      subst hk
      rw [h1] at e1
      cases e1
      obtain ⟨q1, q2⟩ := h4.done_eq
      rw [e]
      refine ⟨order ++ [(k, d)], ?_, .inl ⟨?_, ?_⟩⟩
      · intro i
        rw [MWorld.threads_set, inTurn_append, ofClient_append, ofClient_one]
        by_cases h : i = k
        · subst h; simp [houts, q1]
        · have : ¬ k = i := fun e => h e.symm
          simp [h, this, houts]
      · intro i
        rw [MWorld.threads_set]
        by_cases h : i = k
        · subst h; rw [if_pos rfl]; exact ⟨rfl, h3 _⟩
        · rw [if_neg h]; exact ⟨h2 i h, h3 i⟩
      · rw [afterTurns_append]; exact q2
    · rcases hst with ⟨hidle, _⟩ | ⟨k, d, p', h1, h2, h3, h4⟩
      · rw [(hidle j).1] at e1; cases e1
      have hk : k = j := by
        refine Classical.byContradiction fun h => ?_
        rw [h2 j (fun e => h e.symm)] at e1; cases e1
      subst hk
      rw [h1] at e1
      cases e1
      rw [e]
      refine ⟨order, ?_, .inr ⟨k, d, _, ?_, ?_, ?_, h4.next⟩⟩
      · intro i
        show ((w.setThread k _).threads i).outs = _
        rw [MWorld.threads_set]
        split
        · next h => subst h; exact houts _
        · exact houts i
      · show ((w.setThread k _).threads k).cur = _
        rw [MWorld.threads_set, if_pos rfl]
      · intro i hi
        show ((w.setThread k _).threads i).cur = _
        rw [MWorld.threads_set, if_neg hi]; exact h2 i hi
      · intro i
        show calls i = _ ++ ((w.setThread k _).threads i).rest
        rw [MWorld.threads_set]
        split
        · next h => subst h; exact h3 _
        · exact h3 i

/-! ### Calls that touch the leaves only -/

theorem plain_leaves (H : HashFn) : ∀ (order : List (Nat × MCall)) (t : MTree), (∀ e ∈ order, e.2.Plain) →
    (MCall.afterTurns H order t).leaves = t.leaves ++
      ((order.filterMap fun e => (e.2.value?).map fun v => (e.1, v)).map (·.2)).map (leafOf H t.secure)
  | [], t, _ => by simp [MCall.afterTurns]
  | (i, c) :: order, t, h => by
    have ih := plain_leaves H order (c.alone H t).2 fun e he => h e (List.mem_cons_of_mem _ he)
    have e : MCall.afterTurns H ((i, c) :: order) t = MCall.afterTurns H order (c.alone H t).2 := rfl
    rw [e, ih]
    have hc := h (i, c) (by simp)
    cases c with
    | put v => simp [MCall.alone, put_apply, MCall.value?]
    | get k => simp [MCall.alone, MCall.value?]
    | count => simp [MCall.alone, MCall.value?]
    | _ => exact absurd hc id

/-! ### One thread makes the tree while others add leaves -/

/-- More leaves. -/
def MState.grow (s : MState) (more : List Bytes) : MState := { s with leaves := s.leaves ++ more }

/-- For the next `n` steps of this program, whatever others add to the leaves in between: when it ends, `P` is true of the
leaves and the outcome. -/
def AddSafe (H : HashFn) (P : List Bytes → Py MAns → Prop) : Nat → MProg MAns → MState → Prop
  | 0, p, s => ∀ r, p = .done r → P s.leaves r
  | n + 1, p, s => (∀ r, p = .done r → P s.leaves r) ∧ ∀ more, AddSafe H P n (p.step H (s.grow more)).1 (p.step H (s.grow more)).2

section AddSafe
variable {H : HashFn} {P : List Bytes → Py MAns → Prop}

theorem AddSafe.now {n : Nat} {r : Py MAns} {s : MState} (h : AddSafe H P n (.done r) s) : P s.leaves r := by
  cases n with
  | zero => exact h r rfl
  | succ n => exact h.1 r rfl

theorem AddSafe.less {n : Nat} {p : MProg MAns} {s : MState} (h : AddSafe H P (n + 1) p s) : AddSafe H P n p s := by
  induction n generalizing p s with
  | zero => exact h.1
  | succ n ih => exact ⟨h.1, fun more => ih (h.2 more)⟩

theorem grow_grow (s : MState) (a b : List Bytes) : (s.grow a).grow b = s.grow (a ++ b) := by simp [MState.grow]

theorem AddSafe.grow {p : MProg MAns} {s : MState} (hP : ∀ l r a, P l r → P (l ++ a) r) (h : ∀ n, AddSafe H P n p s)
    (more : List Bytes) (n : Nat) : AddSafe H P n p (s.grow more) := by
  have h0 : ∀ r, p = .done r → P (s.grow more).leaves r := fun r e => hP _ _ _ ((h 0) r e)
  cases n with
  | zero => exact h0
  | succ n => exact ⟨h0, fun m => by rw [grow_grow]; exact (h (n + 1)).2 _⟩

theorem AddSafe.step {n : Nat} {p : MProg MAns} {s : MState} (hp : ∀ r, p ≠ .done r)
    (h : ∀ more, AddSafe H P n (p.step H (s.grow more)).1 (p.step H (s.grow more)).2) : AddSafe H P (n + 1) p s :=
  ⟨fun r e => absurd e (hp r), h⟩

theorem AddSafe.any {n : Nat} {p : MProg MAns} {s : MState} (hp : ∀ r, p ≠ .done r)
    (h : ∀ more, AddSafe H P n (p.step H (s.grow more)).1 (p.step H (s.grow more)).2) : AddSafe H P n p s := (AddSafe.step hp h).less

theorem AddSafe.done {n : Nat} {r : Py MAns} {s : MState} (hP : ∀ l r a, P l r → P (l ++ a) r) (h : P s.leaves r) :
    AddSafe H P n (.done r) s := by
  induction n generalizing s with
  | zero => intro r' e; cases e; exact h
  | succ n ih => exact ⟨fun r' e => by cases e; exact h, fun more => ih (hP _ _ _ h)⟩

/-- A level that is no longer the list of leaves. -/
theorem AddSafe.kept {n : Nat} {s : MState} {X : List Bytes} {ls : List LevelRef} {f : List Bytes → MProg MAns}
    (hs : s.levels = some (.kept X :: ls)) (h : ∀ more, AddSafe H P n (f X) (s.grow more)) :
    AddSafe H P n (withLevel 0 f) s := by
  refine AddSafe.any (by intro r e; cases e) fun more => ?_
  have : (s.grow more).levels = some (.kept X :: ls) := hs
  simp only [withLevel, MProg.step, this, onLevel, List.getElem?_cons_zero]
  exact h more

/-- The lowest level. -/
theorem AddSafe.low {n : Nat} {s : MState} {f : List Bytes → MProg MAns}
    (hs : s.levels = some [.leaves]) (h : ∀ more, AddSafe H P n (f (s.leaves ++ more)) (s.grow more)) :
    AddSafe H P n (withLevel 0 f) s := by
  refine AddSafe.any (by intro r e; cases e) fun more => ?_
  have : (s.grow more).levels = some [.leaves] := hs
  simp only [withLevel, MProg.step, this, onLevel, List.getElem?_cons_zero]
  refine AddSafe.any (by intro r e; cases e) fun more' => ?_
  rw [grow_grow]
  exact h _

/-- The end of the loop over a level that is no longer the list of leaves. -/
theorem AddSafe.pairUp {n : Nat} {s : MState} {X : List Bytes} {ls : List LevelRef} {m : Nat} {solo : List Bytes}
    {next : MProg MAns} (hs : s.levels = some (.kept X :: ls))
    (h : ∀ more, AddSafe H P n next { s.grow more with
      levels := some (.kept (((everyOther (X.take m)).zip (everyOther ((X.take m).drop 1))).map (fun (l, r) => H.hash (l ++ r))
        ++ solo) :: .kept X :: ls) }) :
    AddSafe H P n (pairUp H m solo next) s := by
  unfold MProg.pairUp
  refine AddSafe.kept hs fun a => AddSafe.kept (ls := ls) (by exact hs) fun b => ?_
  refine AddSafe.any (by intro r e; cases e) fun c => ?_
  have : (((s.grow a).grow b).grow c).levels = some (.kept X :: ls) := hs
  simp only [MProg.step, this]
  refine AddSafe.any (by intro r e; cases e) fun d => ?_
  simp only [MProg.step]
  simpa only [MState.grow, List.append_assoc] using h (a ++ (b ++ (c ++ d)))

/-- What `get_merkle_root` does when the tree is made. -/
def giveRoot : MProg MAns := MProg.rootRaw fun r => .done (.ok (.bytes r))

theorem AddSafe.finish {n : Nat} {s : MState} (hr : s.ready = true) (hs : s.levels ≠ none)
    (h : ∀ more, AddSafe H P n (withLevel 0 fun l =>
      match l[0]? with
      | none => .done (.error .indexError)
      | some b => .done (.ok (.bytes (hexOf b)))) (s.grow more)) : AddSafe H P n giveRoot s := by
  unfold giveRoot MProg.rootRaw
  refine AddSafe.any (by intro r e; cases e) fun a => ?_
  have : (s.grow a).ready = true := hr
  simp only [MProg.step, this, if_true]
  refine AddSafe.any (by intro r e; cases e) fun b => ?_
  have e : ((s.grow a).grow b).levels = s.levels := rfl
  simp only [MProg.step, e]
  cases hl : s.levels with
  | none => exact absurd hl hs
  | some L =>
    rw [grow_grow]
    exact h _

/-- The rest of `make_tree` and `get_merkle_root`, once the first level is there. -/
theorem AddSafe.climb (hP : ∀ l r a, P l r → P (l ++ a) r) : ∀ (k n : Nat) (s : MState) (X : List Bytes) (ls : List LevelRef),
    X.length ≤ k → s.levels = some (.kept X :: ls) → X ≠ [] → P s.leaves (.ok (.bytes (hexOf (rfcRoot H X)))) →
    AddSafe H P n (.rounds (.setReady true giveRoot)) s := by
  intro k
  induction k with
  | zero => intro n s X ls hk _ hne _; exact absurd (List.length_eq_zero_iff.mp (by omega)) hne
  | succ k ih =>
    intro n s X ls hk hs hne hp
    refine AddSafe.any (by intro r e; cases e) fun a => ?_
    have hs' : (s.grow a).levels = some (.kept X :: ls) := hs
    have hpa := hP _ _ a hp
    simp only [MProg.step, round, hs', onLevel, List.getElem?_cons_zero]
    by_cases h1 : X.length > 1
    · rw [if_pos h1]
      have hlen := nextLevel_length H X
      have up : ∀ s' m solo, s'.levels = some (.kept X :: ls) → P s'.leaves (.ok (.bytes (hexOf (rfcRoot H X)))) →
          ((everyOther (X.take m)).zip (everyOther ((X.take m).drop 1))).map
            (fun (l, r) => H.hash (l ++ r)) ++ solo = MTree.nextLevel H X →
          AddSafe H P n (MProg.pairUp H m solo (.rounds (.setReady true giveRoot))) s' := by
        intro s' m solo hs' hp' e
        refine AddSafe.pairUp hs' fun more => ?_
        rw [e]
        refine ih n _ (MTree.nextLevel H X) (.kept X :: ls) (by omega) rfl ?_ ?_
        · intro e; rw [e] at hlen; simp at hlen; omega
        · rw [rfcRoot_next H _ X (Nat.le_refl _) (by omega)]
          exact hP _ _ _ hp'
      unfold MProg.nextLevel
      refine AddSafe.kept hs' fun b => ?_
      by_cases h : X.length % 2 = 1
      · simp only [h, if_true]
        refine AddSafe.kept (X := X) (ls := ls) (by exact hs) fun c => ?_
        obtain ⟨x, hx⟩ : ∃ x, X.getLast? = some x := by
          cases e : X.getLast? with
          | none => rw [List.getLast?_eq_none_iff] at e; exact absurd e hne
          | some x => exact ⟨x, rfl⟩
        simp only [hx]
        exact up _ _ _ hs (hP _ _ c (hP _ _ b hpa)) (nextLevel_eq H X _ _ (by simp [h]) (by simp [h, hx]))
      · simp only [h, if_false]
        exact up _ _ _ hs (hP _ _ b hpa) (nextLevel_eq H X _ _ (by simp [h]) (by simp [h]))
    · rw [if_neg h1]
      have hl1 : X.length = 1 := by have := List.length_pos_iff.mpr hne; omega
      obtain ⟨x, rfl⟩ := List.length_eq_one_iff.mp hl1
      refine AddSafe.any (by intro r e; cases e) fun b => ?_
      simp only [MProg.step]
      refine AddSafe.finish rfl (by show s.levels ≠ none; rw [hs]; simp) fun c => ?_
      refine AddSafe.kept (X := [x]) (ls := ls) (by exact hs) fun d => ?_
      simp only [List.getElem?_cons_zero]
      refine AddSafe.done hP ?_
      rw [rfcRoot_one] at hp
      exact hP _ _ _ (hP _ _ _ (hP _ _ _ (hP _ _ _ hp)))

/-- The outcome of `get_merkle_root` is the root of `Taken` leaves. -/
def Fine (H : HashFn) (l0 : List Bytes) (F : List Bytes) (x : Py MAns) : Prop :=
  ∃ M, Taken l0 F M ∧ x = .ok (.bytes (hexOf (rfcRoot H M)))

theorem Fine.grow {l0 : List Bytes} : ∀ l r a, Fine H l0 l r → Fine H l0 (l ++ a) r := by
  rintro l r a ⟨M, hM, e⟩
  refine ⟨M, ?_, e⟩
  rcases hM with ⟨h1, h2⟩ | ⟨n, j, b, h1, h2, h3, h4, h5, h6⟩
  · exact .inl ⟨h1, h2.trans (List.prefix_append l a)⟩
  · have hj : j < l.length := (List.getElem?_eq_some_iff.mp h5).1
    refine .inr ⟨n, j, b, h1, h2, h3, h4, ?_, ?_⟩
    · rw [List.getElem?_append_left hj]; exact h5
    · rw [List.take_append_of_le_length (by omega)]; exact h6

/-- The loop of `make_tree` from the start. -/
theorem AddSafe.loop {l0 : List Bytes} (hl0 : l0 ≠ []) (n : Nat) (s : MState) (hs : s.levels = some [.leaves])
    (hpre : l0 <+: s.leaves) : AddSafe H (Fine H l0) n (.rounds (.setReady true giveRoot)) s := by
  have hpos := List.length_pos_iff.mpr hl0
  have pre : ∀ a, l0 <+: s.leaves ++ a := fun a => hpre.trans (List.prefix_append _ _)
  refine AddSafe.any (by intro r e; cases e) fun a => ?_
  have hs' : (s.grow a).levels = some [.leaves] := hs
  simp only [MProg.step, round, hs', onLevel, List.getElem?_cons_zero]
  refine AddSafe.any (by intro r e; cases e) fun b => ?_
  simp only [MProg.step]
  rw [grow_grow]
  generalize a ++ b = a at *
  by_cases h1 : (s.grow a).leaves.length > 1
  · rw [if_pos h1]
    unfold MProg.nextLevel
    refine AddSafe.low (by exact hs) fun b => ?_
    rw [grow_grow]
    have eb : (s.grow a).leaves ++ b = s.leaves ++ (a ++ b) := by simp [MState.grow]
    rw [eb]
    have hC : 1 < (s.leaves ++ (a ++ b)).length := by
      rw [← eb, List.length_append]; omega
    generalize a ++ b = a at *
    -- the slices and the assignment
    have up : ∀ (m : Nat) (solo : List Bytes) (c : List Bytes) (l : List Bytes), m ≤ (s.leaves ++ a).length → 2 ≤ l.length →
        l.take m = (s.leaves ++ a).take m →
        (m = if l.length % 2 = 1 then l.length - 1 else l.length) →
        (solo = if l.length % 2 = 1 then l.getLast?.toList else []) →
        Taken l0 (s.leaves ++ (a ++ c)) l →
        AddSafe H (Fine H l0) n (MProg.pairUp H m solo (.rounds (.setReady true giveRoot))) (s.grow (a ++ c)) := by
      intro m solo c l hm hl ht hm' hsolo htk
      unfold MProg.pairUp
      refine AddSafe.low (by exact hs) fun d => AddSafe.low (by exact hs) fun e => ?_
      refine AddSafe.any (by intro r e; cases e) fun f => ?_
      have hlv : (((((s.grow (a ++ c)).grow d).grow e).grow f)).levels = some [.leaves] := hs
      simp only [MProg.step, hlv]
      refine AddSafe.any (by intro r e; cases e) fun g => ?_
      simp only [MProg.step]
      have t1 : (((s.grow (a ++ c)).leaves ++ d).take m) = l.take m := by
        rw [ht]; simp only [MState.grow]
        rw [← List.append_assoc, List.append_assoc, List.take_append_of_le_length hm]
      have t2 : ((((s.grow (a ++ c)).grow d).leaves ++ e).take m) = l.take m := by
        rw [ht]; simp only [MState.grow]
        rw [← List.append_assoc, List.append_assoc, List.append_assoc, List.take_append_of_le_length hm]
      rw [t1, t2, nextLevel_eq H l m solo hm' hsolo]
      have hlen := nextLevel_length H l
      refine AddSafe.climb Fine.grow _ n _ (MTree.nextLevel H l) [.leaves] (Nat.le_refl _) rfl ?_ ?_
      · intro e; rw [e] at hlen; simp at hlen; omega
      · rw [rfcRoot_next H _ l (Nat.le_refl _) hl]
        exact Fine.grow _ _ _ (Fine.grow _ _ _ (Fine.grow _ _ _ (Fine.grow _ _ _ ⟨l, htk, rfl⟩)))
    by_cases h : (s.leaves ++ a).length % 2 = 1
    · rw [if_pos h]
      refine AddSafe.low (by exact hs) fun c => ?_
      have ec : (s.grow a).leaves ++ c = s.leaves ++ (a ++ c) := by simp [MState.grow]
      rw [grow_grow, ec]
      have hcl : (s.leaves ++ (a ++ c)).length = (s.leaves ++ a).length + c.length := by simp; omega
      obtain ⟨x, hx⟩ : ∃ x, (s.leaves ++ (a ++ c))[(s.leaves ++ (a ++ c)).length - 1]? = some x :=
        ⟨_, List.getElem?_eq_getElem (by omega)⟩
      rw [List.getLast?_eq_getElem?, hx]
      have hlen : ((s.leaves ++ a).take ((s.leaves ++ a).length - 1) ++ [x]).length = (s.leaves ++ a).length := by
        simp only [List.length_append, List.length_take, List.length_singleton]
        have : 1 < s.leaves.length + a.length := by simpa using hC
        omega
      refine up _ _ c ((s.leaves ++ a).take ((s.leaves ++ a).length - 1) ++ [x]) (by omega) (by omega) ?_ ?_ ?_ ?_
      · rw [List.take_append_of_le_length (by simp), List.take_take, Nat.min_self]
      · rw [hlen, if_pos h]
      · rw [hlen, if_pos h]; simp
      · by_cases hc : c = []
        · left
          subst hc
          have hM : (s.leaves ++ a).take ((s.leaves ++ a).length - 1) ++ [x] = s.leaves ++ a := by
            rw [List.append_nil] at hx
            have := List.take_add_one (l := s.leaves ++ a) (i := (s.leaves ++ a).length - 1)
            rw [hx, List.take_of_length_le (by omega)] at this
            exact this.symm
          rw [hM, List.append_nil]
          exact ⟨pre a, List.prefix_refl _⟩
        · right
          have := List.length_pos_iff.mpr hc
          refine ⟨(s.leaves ++ a).length, (s.leaves ++ (a ++ c)).length - 1, x, h, by omega, (pre a).length_le, by omega, hx, ?_⟩
          congr 1
          rw [← List.append_assoc s.leaves a c, List.take_append_of_le_length (l₁ := s.leaves ++ a) (l₂ := c) (by omega)]
    · rw [if_neg h]
      have hz : s.grow a = s.grow (a ++ []) := by rw [List.append_nil]
      rw [hz]
      refine up _ _ [] (s.leaves ++ a) (Nat.le_refl _) (by omega) rfl (by rw [if_neg h]) (by rw [if_neg h]) ?_
      rw [List.append_nil]
      exact .inl ⟨pre a, List.prefix_refl _⟩
  · rw [if_neg h1]
    have hge := (pre a).length_le
    have hl1 : (s.leaves ++ a).length = 1 := by
      have : ¬ (s.leaves ++ a).length > 1 := h1
      omega
    obtain ⟨x, hx⟩ := List.length_eq_one_iff.mp hl1
    refine AddSafe.any (by intro r e; cases e) fun b => ?_
    simp only [MProg.step]
    refine AddSafe.finish rfl (by show s.levels ≠ none; rw [hs]; simp) fun c => ?_
    refine AddSafe.low (by exact hs) fun d => ?_
    have e : ({ (s.grow a).grow b with ready := true }.grow c).leaves ++ d = x :: (b ++ (c ++ d)) := by
      simp [MState.grow, ← List.append_assoc, hx]
    rw [e]
    simp only [List.getElem?_cons_zero]
    refine AddSafe.done Fine.grow ⟨[x], .inl ⟨by rw [← hx]; exact pre a, ?_⟩, by rw [rfcRoot_one]⟩
    have e2 : ((({ (s.grow a).grow b with ready := true } : MState).grow c).grow d).leaves = x :: (b ++ (c ++ d)) := by
      rw [← e]; rfl
    rw [e2]
    exact ⟨b ++ (c ++ d), rfl⟩

theorem AddSafe.root {l0 : List Bytes} (hl0 : l0 ≠ []) (n : Nat) (s : MState) (hr : s.ready = false)
    (hpre : l0 <+: s.leaves) : AddSafe H (Fine H l0) n (MCall.prog H s.secure .root) s := by
  have hpos := List.length_pos_iff.mpr hl0
  show AddSafe H (Fine H l0) n (MProg.root fun r => .done (.ok (.bytes r))) s
  unfold MProg.root
  refine AddSafe.any (by intro r e; cases e) fun a => ?_
  have : (s.grow a).ready = false := hr
  simp only [MProg.step, this, Bool.false_eq_true, if_false]
  unfold MProg.make
  refine AddSafe.any (by intro r e; cases e) fun b => ?_
  simp only [MProg.step]
  refine AddSafe.any (by intro r e; cases e) fun c => ?_
  simp only [MProg.step]
  have hp : l0 <+: (({ (s.grow a).grow b with ready := false } : MState).grow c).leaves :=
    hpre.trans ⟨a ++ (b ++ c), by simp [MState.grow]⟩
  rw [if_pos (Nat.lt_of_lt_of_le hpos hp.length_le)]
  refine AddSafe.any (by intro r e; cases e) fun d => ?_
  simp only [MProg.step]
  exact AddSafe.loop hl0 n _ rfl (hp.trans ⟨d, rfl⟩)

end AddSafe

/-- A thread that is at most adding a leaf. -/
def Modest (th : MThread) : Prop :=
  (∀ c ∈ th.rest, c.Plain) ∧
    match th.cur with
    | none | some (.done _) => True
    | some (.leaves f) => ∀ l, ∃ r, f l = .done r
    | some (.append _ p) => ∃ r, p = .done r
    | _ => False

/-- The thread that asks for the root: it has not begun, or is on its way, or has its answer. -/
def Building (H : HashFn) (l0 : List Bytes) (s : MState) (th : MThread) : Prop :=
  (th.cur = none ∧ th.rest = [.root] ∧ th.outs = [] ∧ s.ready = false) ∨
  (∃ p, th.cur = some p ∧ th.rest = [] ∧ th.outs = [] ∧ ∀ n, AddSafe H (Fine H l0) n p s) ∨
  (th.cur = none ∧ th.rest = [] ∧ ∃ x, th.outs = [x] ∧ Fine H l0 s.leaves x)

theorem Building.grow {H : HashFn} {l0 : List Bytes} {s : MState} {th : MThread} (h : Building H l0 s th) (more : List Bytes) :
    Building H l0 (s.grow more) th := by
  rcases h with h | ⟨p, h1, h2, h3, h4⟩ | ⟨h1, h2, x, h3, h4⟩
  · exact .inl h
  · exact .inr (.inl ⟨p, h1, h2, h3, fun n => AddSafe.grow Fine.grow h4 more n⟩)
  · exact .inr (.inr ⟨h1, h2, x, h3, Fine.grow _ _ _ h4⟩)

theorem step_leaves {H : HashFn} (p : MProg MAns) (s : MState) : ∃ a, (p.step H s).2.leaves = s.leaves ++ a := by
  cases p with
  | append v n => exact ⟨[v], rfl⟩
  | _ => exact ⟨[], (List.append_nil _).symm⟩

theorem building_run {H : HashFn} {t : MTree} {calls : Nat → List MCall} {i : Nat} (hr : t.ready = false) (hl : t.leaves ≠ [])
    (hi : calls i = [.root]) (hc : ∀ j, j ≠ i → ∀ c ∈ calls j, c.Plain) (sched : List Nat) :
    let w := (MWorld.new t calls).run H sched
    t.leaves <+: w.tree.leaves ∧ Building H t.leaves w.tree (w.threads i) ∧ ∀ j, j ≠ i → Modest (w.threads j) := by
  induction sched using snocRec with
  | nil => exact ⟨List.prefix_refl _, .inl ⟨rfl, hi, rfl, hr⟩, fun j hj => ⟨hc j hj, trivial⟩⟩
  | append_singleton sched j ih =>
    rw [MWorld.run_snoc]
    generalize (MWorld.new t calls).run H sched = w at ih
    obtain ⟨hpre, hb, hm⟩ := ih
    by_cases hji : j = i
    · subst hji
      have lift : ∀ th : MThread, ∀ k, k ≠ j → Modest (if k = j then th else w.threads k) := by
        intro th k hk; rw [if_neg hk]; exact hm k hk
      rcases MWorld.step_cases H j w with ⟨_, _, e⟩ | ⟨c, rest, e1, e2, e⟩ | ⟨r, e1, e⟩ | ⟨p, e1, e2, e⟩
      · rw [e]; exact ⟨hpre, hb, hm⟩
      · rw [e]
        refine ⟨hpre, ?_, lift _⟩
        show Building H t.leaves w.tree (if j = j then _ else _)
        rw [if_pos rfl]
        rcases hb with ⟨h1, h2, h3, h4⟩ | ⟨p, h1, h2, h3, h4⟩ | ⟨h1, h2, x, h3, h4⟩
        · rw [h2] at e2
          obtain ⟨rfl, rfl⟩ : MCall.root = c ∧ [] = rest := by simpa using e2
          exact .inr (.inl ⟨_, rfl, rfl, h3, fun n => AddSafe.root hl n _ h4 hpre⟩)
        · rw [h1] at e1; cases e1
        · rw [h2] at e2; cases e2
      · rw [e]
        refine ⟨hpre, ?_, lift _⟩
        show Building H t.leaves w.tree (if j = j then _ else _)
        rw [if_pos rfl]
        rcases hb with ⟨h1, h2, h3, h4⟩ | ⟨p, h1, h2, h3, h4⟩ | ⟨h1, h2, x, h3, h4⟩
        · rw [h1] at e1; cases e1
        · rw [h1] at e1
          cases e1
          exact .inr (.inr ⟨rfl, h2, r, by simp [h3], (h4 0).now⟩)
        · rw [h1] at e1; cases e1
      · rw [e]
        refine ⟨?_, ?_, lift _⟩
        · obtain ⟨a, ha⟩ := step_leaves (H := H) p w.tree
          show _ <+: (p.step H w.tree).2.leaves
          rw [ha]; exact hpre.trans (List.prefix_append _ _)
        · show Building H t.leaves (p.step H w.tree).2 (if j = j then _ else _)
          rw [if_pos rfl]
          rcases hb with ⟨h1, h2, h3, h4⟩ | ⟨q, h1, h2, h3, h4⟩ | ⟨h1, h2, x, h3, h4⟩
          · rw [h1] at e1; cases e1
          · rw [h1] at e1
            cases e1
            refine .inr (.inl ⟨_, rfl, h2, h3, fun n => ?_⟩)
            have := (h4 (n + 1)).2 []
            have hz : w.tree.grow [] = w.tree := by simp [MState.grow]
            rwa [hz] at this
          · rw [h1] at e1; cases e1
    · have hmj := hm j hji
      have hth : ∀ th : MThread, (if i = j then th else w.threads i) = w.threads i :=
        fun th => if_neg fun e => hji e.symm
      have lift : ∀ th : MThread, Modest th → ∀ k, k ≠ i → Modest (if k = j then th else w.threads k) := by
        intro th h k hk
        split
        · exact h
        · exact hm k hk
      rcases MWorld.step_cases H j w with ⟨_, _, e⟩ | ⟨c, rest, e1, e2, e⟩ | ⟨r, e1, e⟩ | ⟨p, e1, e2, e⟩
      · rw [e]; exact ⟨hpre, hb, hm⟩
      · rw [e]
        refine ⟨hpre, ?_, lift _ ⟨fun d hd => hmj.1 d (by rw [e2]; exact List.mem_cons_of_mem _ hd), ?_⟩⟩
        · show Building H t.leaves w.tree (if i = j then _ else _)
          rw [hth]; exact hb
        · have hp := hmj.1 c (by rw [e2]; simp)
          cases c with
          | put v => exact ⟨_, rfl⟩
          | get k => exact fun l => ⟨_, rfl⟩
          | count => exact fun l => ⟨_, rfl⟩
          | _ => exact absurd hp id
      · rw [e]
        refine ⟨hpre, ?_, lift _ ⟨hmj.1, trivial⟩⟩
        show Building H t.leaves w.tree (if i = j then _ else _)
        rw [hth]; exact hb
      · rw [e]
        have h2 := hmj.2
        rw [e1] at h2
        cases p with
        | done r => exact absurd rfl (e2 r)
        | leaves f =>
          refine ⟨hpre, ?_, lift _ ⟨hmj.1, ?_⟩⟩
          · show Building H t.leaves w.tree (if i = j then _ else _)
            rw [hth]; exact hb
          · obtain ⟨r, hr⟩ := h2 w.tree.leaves
            simp only [MProg.step, hr]
        | append v p =>
          obtain ⟨r, rfl⟩ := h2
          refine ⟨hpre.trans (List.prefix_append _ _), ?_, lift _ ⟨hmj.1, trivial⟩⟩
          show Building H t.leaves (w.tree.grow [v]) (if i = j then _ else _)
          rw [hth]; exact hb.grow _
        | _ => exact absurd h2 id

end Pymt
