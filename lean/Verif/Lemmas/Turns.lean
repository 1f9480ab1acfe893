import Verif.Lemmas.Crowd

/-!
# Writers that take turns
-/

namespace Pymt

namespace Prog

/-- The program does not end well before it has set the root, and then it ends. -/
def Pre : Prog Ans → Prop
  | .done x => ∃ e, x = .error e
  | .load _ n => ∀ v, Pre (n v)
  | .save _ _ n => Pre n
  | .root n => ∀ r, Pre (n r)
  | .setRoot _ n => n = .done (.ok .none)

/-- The same for parts of a program. -/
def Pre' {α : Type} : Prog α → Prop
  | .done x => ∃ e, x = .error e
  | .load _ n => ∀ v, Pre' (n v)
  | .save _ _ n => Pre' n
  | .root n => ∀ r, Pre' (n r)
  | .setRoot _ n => ∃ a, n = .done (.ok a)

theorem Blind.pre' {α : Type} {p : Prog α} (h : Blind p) : Pre' p := by
  induction p with
  | done r => exact h
  | load k n ih => exact fun v => ih v (h v)
  | save k v n ih => exact ih h
  | root n ih => exact h.elim
  | setRoot r n ih => exact h

theorem Pre'.pre {α : Type} {p : Prog α} (h : Pre' p) : Pre (p >>= fun _ => Prog.done (.ok .none)) := by
  show Pre (p.bind _)
  induction p with
  | done r => obtain ⟨e, rfl⟩ := h; exact ⟨e, rfl⟩
  | load k n ih => exact fun v => ih v (h v)
  | save k v n ih => exact ih h
  | root n ih => exact fun r => ih r (h r)
  | setRoot r n ih => obtain ⟨a, rfl⟩ := h; rfl

theorem pre_call (E : Env) (sec : Bool) {c : Call} (h : c.op? ≠ none) : Pre (c.prog E sec) := by
  cases c with
  | get => exact absurd rfl h
  | contains => exact absurd rfl h
  | update k v =>
    rw [Call.prog_update]
    intro r
    unfold Call.upd
    exact Pre'.pre (Blind.pre' ((Inner.update (E := E) _ _ _ _).bindBlind fun _ => ⟨_, rfl⟩))
  | delete k =>
    rw [Call.prog_delete]
    intro r
    simp only
    split
    · exact ⟨_, rfl⟩
    · intro r'
      unfold Call.del'
      split
      · exact ⟨_, rfl⟩
      · intro r''
        refine Pre'.pre (Blind.pre' ((Inner.delete (E := E) _ _ _).bindBlind fun x => ?_))
        cases x <;> exact ⟨_, rfl⟩

end Prog

/-- The four ways a thread can move. -/
theorem World.step_self (E : Env) (w : World) (j : Nat) :
    ((w.threads j).cur = none ∧ (w.threads j).rest = [] ∧ w.step E j = w) ∨
    (∃ i c rest, (w.threads j).cur = none ∧ (w.threads j).rest = (i, c) :: rest ∧
      (w.step E j).threads j = { cur := some (i, c.prog E (w.secure i)), rest := rest, outs := (w.threads j).outs }) ∨
    (∃ i r, (w.threads j).cur = some (i, .done r) ∧
      (w.step E j).threads j = { cur := none, rest := (w.threads j).rest, outs := (w.threads j).outs ++ [r] }) ∨
    (∃ i p p', (w.threads j).cur = some (i, p) ∧ p.over = false ∧
      (w.step E j).threads j = { cur := some (i, p'), rest := (w.threads j).rest, outs := (w.threads j).outs } ∧
      (p.Pre → (p'.Pre ∧ ∀ r n, p ≠ .setRoot r n) ∨ ∃ r, p = .setRoot r (.done (.ok .none)) ∧ p' = .done (.ok .none))) := by
  cases hcur : (w.threads j).cur with
  | none =>
    cases hrest : (w.threads j).rest with
    | nil => left; refine ⟨rfl, rfl, ?_⟩; unfold World.step; simp only [hcur, hrest]
    | cons x rest =>
      obtain ⟨i, c⟩ := x
      refine .inr (.inl ⟨i, c, rest, rfl, rfl, ?_⟩)
      unfold World.step; simp only [hcur, hrest]; exact World.setThread_same _ _ _
  | some x =>
    obtain ⟨i, p⟩ := x
    cases p with
    | done r =>
      refine .inr (.inr (.inl ⟨i, r, rfl, ?_⟩))
      unfold World.step; simp only [hcur]; exact World.setThread_same _ _ _
    | load k n =>
      refine .inr (.inr (.inr ?_))
      cases hv : dget w.store.kv k with
      | none =>
        refine ⟨i, _, .done (.error .keyError), rfl, rfl, ?_, fun _ => .inl ⟨⟨_, rfl⟩, fun _ _ e => (nomatch e)⟩⟩
        unfold World.step; simp only [hcur, hv]; exact World.setThread_same _ _ _
      | some v =>
        refine ⟨i, _, n v, rfl, rfl, ?_, fun h => .inl ⟨h v, fun _ _ e => (nomatch e)⟩⟩
        unfold World.step; simp only [hcur, hv]; exact World.setThread_same _ _ _
    | save k v n =>
      refine .inr (.inr (.inr ⟨i, _, n, rfl, rfl, ?_, fun h => .inl ⟨h, fun _ _ e => (nomatch e)⟩⟩))
      unfold World.step; simp only [hcur]; exact World.setThread_same _ _ _
    | root n =>
      refine .inr (.inr (.inr ⟨i, _, n (w.roots i), rfl, rfl, ?_, fun h => .inl ⟨h _, fun _ _ e => (nomatch e)⟩⟩))
      unfold World.step; simp only [hcur]; exact World.setThread_same _ _ _
    | setRoot r n =>
      refine .inr (.inr (.inr ⟨i, _, n, rfl, rfl, ?_, fun h => ?_⟩))
      · unfold World.step; simp only [hcur]; exact World.setThread_same _ _ _
      · cases h; exact .inr ⟨r, rfl, rfl⟩

section
variable {E : Env} {secure : Nat → Bool} {calls : Nat → List (Nat × Call)} {log : List Bytes} {sched : List Nat}

theorem World.outs_step (E : Env) (w : World) (j j' : Nat) :
    (w.threads j).outs.length ≤ ((w.step E j').threads j).outs.length := by
  by_cases h : j = j'
  · subst h
    rcases w.step_self E j with ⟨_, _, e⟩ | ⟨i, c, rest, _, _, e⟩ | ⟨i, r, _, e⟩ | ⟨i, p, p', _, _, e, _⟩ <;> rw [e] <;>
      simp
  · rw [w.step_other E h]; exact Nat.le_refl _

theorem World.running_step (E : Env) {w : World} {j n : Nat} (h : w.Running j n) (j' : Nat) :
    (w.step E j').Running j n ∨ n < ((w.step E j').threads j).outs.length := by
  unfold World.Running at h ⊢
  obtain ⟨h1, h2⟩ := h
  by_cases hj : j = j'
  · subst hj
    rcases w.step_self E j with ⟨e1, _, e⟩ | ⟨i, c, rest, e1, _, e⟩ | ⟨i, r, _, e⟩ | ⟨i, p, p', _, _, e, _⟩
    · rw [e1] at h2; exact (nomatch h2)
    · rw [e1] at h2; exact (nomatch h2)
    · right; rw [e]; simp; omega
    · left; rw [e]; exact ⟨h1, rfl⟩
  · left; rw [w.step_other E hj]; exact ⟨h1, h2⟩

theorem worldAt_next {q : Nat} (hq : q < sched.length) :
    worldAt E secure calls sched (q + 1) = (worldAt E secure calls sched q).step E sched[q] :=
  worldAt_succ (List.getElem?_eq_getElem hq)

theorem outs_mono {q q' : Nat} (hle : q ≤ q') (hq' : q' ≤ sched.length) (j : Nat) :
    ((worldAt E secure calls sched q).threads j).outs.length ≤
      ((worldAt E secure calls sched q').threads j).outs.length := by
  induction q' with
  | zero => rw [Nat.le_zero.1 hle]; exact Nat.le_refl _
  | succ p ih =>
    rcases Nat.lt_or_eq_of_le hle with hlt | rfl
    · rw [worldAt_next hq']
      exact Nat.le_trans (ih (Nat.le_of_lt_succ hlt) (Nat.le_of_lt hq')) (World.outs_step _ _ _ _)
    · exact Nat.le_refl _

theorem running_forward {q q' j n : Nat} (h : (worldAt E secure calls sched q).Running j n) (hle : q ≤ q')
    (hq' : q' ≤ sched.length) : (worldAt E secure calls sched q').Running j n ∨
      n < ((worldAt E secure calls sched q').threads j).outs.length := by
  induction q' with
  | zero => rw [Nat.le_zero.1 hle] at h; exact .inl h
  | succ p ih =>
    rcases Nat.lt_or_eq_of_le hle with hlt | rfl
    · rw [worldAt_next hq']
      rcases ih (Nat.le_of_lt_succ hlt) (Nat.le_of_lt hq') with h1 | h1
      · exact World.running_step E h1 _
      · exact .inr (Nat.lt_of_lt_of_le h1 (World.outs_step _ _ _ _))
    · exact .inl h

/-- A call runs from its first to its last moment. -/
theorem running_between {q p q' j n : Nat} (h : (worldAt E secure calls sched q).Running j n)
    (h' : (worldAt E secure calls sched q').Running j n) (hqp : q ≤ p) (hpq : p ≤ q') (hq' : q' ≤ sched.length) :
    (worldAt E secure calls sched p).Running j n := by
  rcases running_forward h hqp (Nat.le_trans hpq hq') with h1 | h1
  · exact h1
  · have := outs_mono (E := E) (secure := secure) (calls := calls) hpq hq' j
    rw [h'.1] at this
    omega

/-- A call that is about to return returns what it is about to return. -/
theorem fate {q q' j n i : Nat} {x y : Py Ans} (hn : ((worldAt E secure calls sched q).threads j).outs.length = n)
    (hx : ((worldAt E secure calls sched q).threads j).cur = some (i, .done x)) (hle : q ≤ q')
    (hq' : q' ≤ sched.length) (hy : ((worldAt E secure calls sched q').threads j).outs[n]? = some y) : y = x := by
  have key : (((worldAt E secure calls sched q').threads j).outs.length = n ∧
      ((worldAt E secure calls sched q').threads j).cur = some (i, .done x)) ∨
      ((worldAt E secure calls sched q').threads j).outs[n]? = some x := by
    clear hy
    induction q' with
    | zero => rw [Nat.le_zero.1 hle] at hn hx; exact .inl ⟨hn, hx⟩
    | succ p ih =>
      rcases Nat.lt_or_eq_of_le hle with hlt | rfl
      · have ih := ih (Nat.le_of_lt_succ hlt) (Nat.le_of_lt hq')
        rw [worldAt_next hq']
        generalize worldAt E secure calls sched p = w at ih ⊢
        generalize sched[p] = j' at ih ⊢
        by_cases hj : j = j'
        · subst hj
          rcases w.step_self E j with ⟨e1, _, e⟩ | ⟨i, c, rest, e1, _, e⟩ | ⟨i, r, e1, e⟩ | ⟨i, p, p', e1, e2, e, _⟩
          · rw [e]; exact ih
          · rcases ih with ⟨_, ih⟩ | ih
            · rw [e1] at ih; exact (nomatch ih)
            · rw [e]; exact .inr ih
          · rw [e]
            right
            rcases ih with ⟨ih1, ih2⟩ | ih
            · rw [e1] at ih2
              injection ih2 with ih2
              injection ih2 with _ ih2
              injection ih2 with ih2
              subst ih2 ih1
              exact List.getElem?_concat_length
            · show ((w.threads j).outs ++ [r])[n]? = some x
              rw [List.getElem?_append_left (List.getElem?_eq_some_iff.1 ih).1]; exact ih
          · rcases ih with ⟨_, ih⟩ | ih
            · rw [e1] at ih
              injection ih with ih
              injection ih with _ ih
              rw [ih] at e2
              exact (nomatch e2)
            · rw [e]; exact .inr ih
        · rw [w.step_other E hj]; exact ih
      · exact .inl ⟨hn, hx⟩
  rcases key with ⟨h1, _⟩ | h1
  · have := (List.getElem?_eq_some_iff.1 hy).1
    omega
  · rw [h1] at hy; injection hy with e; exact e.symm

/-- The call that is running, if it changes tries. -/
def World.opOf (calls : Nat → List (Nat × Call)) (w : World) (j : Nat) : Option Op :=
  ((calls j)[(w.threads j).outs.length]?).bind fun x => x.2.op?

/-- The call by which a thread that moves now changes the root of trie `i`. -/
def World.effect (calls : Nat → List (Nat × Call)) (w : World) (i j : Nat) : List (Nat × Op) :=
  match (w.threads j).cur with
  | some (i', .setRoot _ _) => if i' = i then ((w.opOf calls j).map fun op => (j, op)).toList else []
  | _ => []

/-- The calls that have changed the root of trie `i`, in order. -/
def effects (E : Env) (secure : Nat → Bool) (calls : Nat → List (Nat × Call)) (sched : List Nat) (i : Nat) :
    Nat → List (Nat × Op)
  | 0 => []
  | q + 1 => effects E secure calls sched i q ++
      match sched[q]? with
      | some j => (worldAt E secure calls sched q).effect calls i j
      | none => []

theorem effects_next {i q : Nat} (hq : q < sched.length) : effects E secure calls sched i (q + 1) =
    effects E secure calls sched i q ++ (worldAt E secure calls sched q).effect calls i sched[q] := by
  rw [effects, List.getElem?_eq_getElem hq]

theorem effects_prefix {i q q' : Nat} (h : q ≤ q') :
    effects E secure calls sched i q <+: effects E secure calls sched i q' := by
  induction q' with
  | zero => rw [Nat.le_zero.1 h]; exact List.prefix_rfl
  | succ p ih =>
    rcases Nat.lt_or_eq_of_le h with hlt | rfl
    · exact (ih (Nat.le_of_lt_succ hlt)).trans (List.prefix_append _ _)
    · exact List.prefix_rfl

/-- What there is to know about a step that changes the root. -/
theorem CrowdOk.effect {hi i : Nat} (h : CrowdOk E secure calls log sched hi) {w : World}
    (hw : worldAt E secure calls sched hi = w) (j : Nat) :
    (w.effect calls i j = [] ∧ (w.step E j).roots i = w.roots i) ∨
    ∃ c op, (calls j)[(w.threads j).outs.length]? = some (i, c) ∧ c.op? = some op ∧ w.effect calls i j = [(j, op)] ∧
      w.Running j (w.threads j).outs.length ∧
      (w.step E j).threads j = { cur := some (i, .done (.ok .none)), rest := (w.threads j).rest, outs := (w.threads j).outs } ∧
      (∀ x, (w.threads j).cur ≠ some (i, .done x)) ∧
      (w.step E j).store = w.store ∧
      ∃ q, During E secure calls sched j (w.threads j).outs.length hi q ∧
        (w.step E j).roots i = (c.seq E ((worldAt E secure calls sched q).obj i)).2.root ∧
        Sub (c.seq E ((worldAt E secure calls sched q).obj i)).2.store w.store ∧
        ∀ x ∈ (c.seq E ((worldAt E secure calls sched q).obj i)).2.store.written, x ∈ log := by
  have hb := h.busy j
  rw [hw] at hb
  unfold World.effect World.step
  cases hcur : (w.threads j).cur with
  | none =>
    simp only [hcur]
    cases hrest : (w.threads j).rest with
    | nil => exact .inl ⟨trivial, rfl⟩
    | cons x rest => exact .inl ⟨trivial, rfl⟩
  | some x =>
    obtain ⟨i', p⟩ := x
    cases p with
    | done r => simp only [hcur]; exact .inl ⟨trivial, rfl⟩
    | load k n =>
      simp only [hcur]
      cases dget w.store.kv k <;> exact .inl ⟨trivial, rfl⟩
    | save k v n => simp only [hcur]; exact .inl ⟨trivial, rfl⟩
    | root n => simp only [hcur]; exact .inl ⟨trivial, rfl⟩
    | setRoot r n =>
      simp only [hcur]
      by_cases hi' : i' = i
      · subst hi'
        obtain ⟨c, hd, hstage⟩ := hb i' _ hcur
        obtain ⟨hop, q, hq, hr, hmd, hsb, hn, hne, hok, hwr⟩ := hstage.ofSet
        right
        cases hop' : c.op? with
        | none => exact absurd hop' hop
        | some op =>
          refine ⟨c, op, drop_get hd, hop', ?_, ⟨rfl, by rw [hcur]; rfl⟩, ?_, ?_, rfl, q, hq, ?_, hsb, hwr⟩
          · rw [if_pos rfl]
            unfold World.opOf
            rw [drop_get hd]
            simp [hop']
          · refine (World.setThread_same _ _ _).trans ?_
            rw [hn, hok]
          · intro x e
            injection e with e
            injection e with _ e
            exact (nomatch e)
          · simp only [if_true]; exact hr
      · left
        rw [if_neg hi', if_neg (fun e => hi' e.symm)]
        exact ⟨rfl, rfl⟩

/-- Writers of trie `i` take turns, but for calls that are never gone on with. -/
def Rounds (E : Env) (secure : Nat → Bool) (calls : Nat → List (Nat × Call)) (sched : List Nat) (i : Nat) : Prop :=
  ∀ p, p ≤ sched.length → ∀ j n c j' n' c',
    (worldAt E secure calls sched p).Running j n → (calls j)[n]? = some (i, c) → c.op? ≠ none →
    (worldAt E secure calls sched p).Running j' n' → (calls j')[n']? = some (i, c') → c'.op? ≠ none →
    sched[p]? = some j' → j ≠ j' → ∀ q, p ≤ q → sched[q]? ≠ some j

theorem Turns.rounds {i : Nat} (h : Turns E secure calls sched i) : Rounds E secure calls sched i :=
  fun p hp j n c j' n' c' h1 h2 h3 h4 h5 h6 _ hj => absurd (h p hp j n c j' n' c' h1 h2 h3 h4 h5 h6) hj

/-- While a call runs that has not set the root yet, nobody else does, if writers take turns. -/
theorem turns_still {i : Nat} (hcr : CrowdOn E secure calls log sched) {q q' j n : Nat}
    {c : Call} (hc : (calls j)[n]? = some (i, c)) (hop : c.op? ≠ none)
    (h : (worldAt E secure calls sched q).Running j n)
    (h' : (worldAt E secure calls sched q').Running j n) (hle : q ≤ q') (hq' : q' ≤ sched.length)
    (hcur : ((worldAt E secure calls sched q').threads j).cur ≠ some (i, .done (.ok .none)))
    (ht : Turns E secure calls sched i ∨ (Rounds E secure calls sched i ∧ ∃ a, q' ≤ a ∧ sched[a]? = some j)) :
    effects E secure calls sched i q' = effects E secure calls sched i q := by
  induction q' with
  | zero => rw [Nat.le_zero.1 hle]
  | succ p ih =>
    rcases Nat.lt_or_eq_of_le hle with hlt | rfl
    · have hqp := Nat.le_of_lt_succ hlt
      have hp : p < sched.length := hq'
      have hrun := running_between h h' hqp (Nat.le_succ p) hq'
      rw [effects_next hp]
      rw [worldAt_next hp] at hcur h'
      have hok := CrowdOk.all hcr p (Nat.le_of_lt hp)
      rcases hok.effect (i := i) rfl sched[p] with ⟨e1, e2⟩ | ⟨c', op, e1, e2, e3, e4, e5, _⟩
      · rw [e1, List.append_nil]
        refine ih hrun hqp (Nat.le_of_lt hp) (fun e => hcur ?_)
          (ht.imp id fun ht => ⟨ht.1, ht.2.imp fun a ha => ⟨Nat.le_trans (Nat.le_succ p) ha.1, ha.2⟩⟩)
        by_cases hj : j = sched[p]
        · have hr := hrun.1
          revert h'
          rw [← hj]
          generalize worldAt E secure calls sched p = w at *
          rcases w.step_self E j with ⟨a1, _, _⟩ | ⟨_, _, _, a1, _, _⟩ | ⟨_, _, _, a⟩ | ⟨i2, p2, p', a1, a2, a, _⟩
          · rw [a1] at e; exact (nomatch e)
          · rw [a1] at e; exact (nomatch e)
          · intro h'
            have := h'.2
            rw [a] at this
            exact (nomatch this)
          · rw [a1] at e
            injection e with e
            injection e with _ e
            rw [e] at a2
            exact (nomatch a2)
        · rw [World.step_other E _ hj]; exact e
      · have : j = sched[p] := by
          by_cases hj : j = sched[p]
          · exact hj
          · rcases ht with ht | ⟨ht, a, ha1, ha2⟩
            · exact ht p (Nat.le_of_lt hp) j n c _ _ c' hrun hc hop e4 e1 (by rw [e2]; simp)
            exact absurd ha2 (ht p (Nat.le_of_lt hp) j n c _ _ c' hrun hc hop e4 e1 (by rw [e2]; simp)
              (List.getElem?_eq_getElem hp) hj a (Nat.le_trans (Nat.le_succ p) ha1))
        rw [← this] at hcur e5
        rw [e5] at hcur
        exact absurd rfl hcur
    · rfl

/-- The dict only grows. -/
theorem CrowdOk.sub {hi : Nat} (hcr : CrowdOn E secure calls log sched) (h : CrowdOk E secure calls log sched hi) {w : World}
    (hw : worldAt E secure calls sched hi = w) (j : Nat) : Sub w.store (w.step E j).store := by
  have hb := h.busy j
  have hg := h.gs
  rw [hw] at hb hg
  unfold World.step
  cases hcur : (w.threads j).cur with
  | none =>
    simp only [hcur]
    cases hrest : (w.threads j).rest with
    | nil => exact Sub.refl _
    | cons x rest => exact Sub.refl _
  | some x =>
    obtain ⟨i', p⟩ := x
    cases p with
    | load k n =>
      simp only [hcur]
      cases dget w.store.kv k <;> exact Sub.refl _
    | save k v n =>
      simp only [hcur]
      obtain ⟨c, hd, hstage⟩ := hb i' _ hcur
      obtain ⟨a1, a2, _⟩ := hstage.ofSave
      show Sub w.store (w.store.set k v)
      rw [a1]; exact hg.sub_set hcr.log a2
    | done | root | setRoot => simp only [hcur]; exact Sub.refl _

/-- With writers that take turns, the trie holds what the calls that changed its root, one after the other, make. -/
theorem Rounds.bears {i : Nat} (ht : Rounds E secure calls sched i) (hcr : CrowdOn E secure calls log sched) (q : Nat)
    (hq : q ≤ sched.length) :
    Bears E ((worldAt E secure calls sched q).obj i)
      (T.grow .empty (((effects E secure calls sched i q).map Prod.snd).map (Op.mapKey (effective E (secure i))))) := by
  induction q using Nat.strongRecOn with
  | ind q ih =>
    cases q with
    | zero => rw [worldAt_zero]; exact Bears.new E (secure i)
    | succ p =>
      have hp : p < sched.length := hq
      have hok := CrowdOk.all hcr p (Nat.le_of_lt hp)
      have hok' := CrowdOk.all hcr (p + 1) hq
      have hgood := hok'.good
      have hs := hok.sub hcr rfl sched[p]
      rw [effects_next hp]
      rw [worldAt_next hp] at hgood ⊢
      rcases hok.effect (i := i) rfl sched[p] with ⟨e1, e2⟩ |
        ⟨c, op, e1, e2, e3, e4, e5, e6, e7, q0, hq0, e8, e9, e10⟩
      · rw [e1, List.append_nil]
        have := (ih p (Nat.lt_succ_self p) (Nat.le_of_lt hp)).lift hs hgood
        unfold World.obj
        rw [e2, World.step_secure]
        exact this
      · have hle : q0 ≤ p := hq0.1
        have hop : c.op? ≠ none := by rw [e2]; simp
        have hst := turns_still hcr e1 hop hq0.2 e4 hle (Nat.le_of_lt hp) (e6 _)
          (.inr ⟨ht, p, Nat.le_refl p, List.getElem?_eq_getElem hp⟩)
        have hinv := ih q0 (Nat.lt_succ_of_le hle) (Nat.le_trans hle (Nat.le_of_lt hp))
        have hmem : (i, c) ∈ calls sched[p] := List.mem_of_getElem? e1
        rw [e3, List.map_append, hst]
        have hsec : ((worldAt E secure calls sched q0).obj i).secure = secure i := congrFun (worldAt_secure _ _) i
        have hseq : (c.seq E ((worldAt E secure calls sched q0).obj i)).2 =
            (MPT.exec E op ((worldAt E secure calls sched q0).obj i)).2 := by
          cases c with
          | update k v => injection e2 with e; subst e; rfl
          | delete k => injection e2 with e; subst e; rfl
          | get => exact (nomatch e2)
          | contains => exact (nomatch e2)
        have hkey : c.key = op.key := by
          cases c with
          | update k v => injection e2 with e; subst e; rfl
          | delete k => injection e2 with e; subst e; rfl
          | get => exact (nomatch e2)
          | contains => exact (nomatch e2)
        have e : T.grow .empty (((effects E secure calls sched i q0).map Prod.snd ++ [op]).map
              (Op.mapKey (effective E (secure i)))) =
            (T.grow .empty (((effects E secure calls sched i q0).map Prod.snd).map
              (Op.mapKey (effective E (secure i))))).act (op.mapKey (effective E (secure i))) := by
          unfold T.grow
          rw [List.map_append, List.foldl_append]; rfl
        rw [hseq] at e8 e9 e10
        have hx := hinv.exec (op := op) (by rw [hsec, ← hkey]; exact hcr.fits _ _ hmem) (hcr.log.mono e10)
        rw [hsec, ← e] at hx
        have := hx.lift e9 (e7 ▸ hgood)
        rw [exec_secure, hsec] at this
        unfold World.obj
        rw [e7, e8, World.step_secure, worldAt_secure]
        exact this

/-- The change a thread has made by the call it is about to return from. -/
def World.pend (calls : Nat → List (Nat × Call)) (w : World) (i j : Nat) : List Op :=
  match (w.threads j).cur with
  | some (i', .done (.ok .none)) => if i' = i then (w.opOf calls j).toList else []
  | _ => []

theorem ofThread_append (j : Nat) (l l' : List (Nat × Op)) : ofThread j (l ++ l') = ofThread j l ++ ofThread j l' :=
  List.filterMap_append

theorem effect_other (w : World) (i : Nat) {j j' : Nat} (h : j ≠ j') : ofThread j (w.effect calls i j') = [] := by
  unfold World.effect
  split
  · split
    · cases w.opOf calls j' with
      | none => rfl
      | some op => simp [ofThread]; exact fun e => h e.symm
    · rfl
  · rfl

theorem Prog.Pre.not_ok {p : Prog Ans} (h : p.Pre) : p ≠ .done (.ok .none) := by
  rintro rfl
  obtain ⟨e, h⟩ := h
  exact (nomatch h)

theorem World.pend_eq_nil {w : World} {i j : Nat} (h : ∀ op, w.opOf calls j = some op → ∀ i' p,
    (w.threads j).cur = some (i', p) → p ≠ .done (.ok .none)) : w.pend calls i j = [] := by
  unfold World.pend
  split
  · rename_i i' hcur
    split
    · cases ho : w.opOf calls j with
      | none => rfl
      | some op => exact absurd rfl (h op ho _ _ hcur)
    · rfl
  · rfl

theorem successes_append {w w' : World} {i j i' : Nat} {c : Call} {r : Py Ans}
    (hc : (calls j)[(w.threads j).outs.length]? = some (i', c))
    (ho : (w'.threads j).outs = (w.threads j).outs ++ [r]) :
    successes calls w' i j = successes calls w i j ++ (if i' = i ∧ r = .ok .none then c.op? else none).toList := by
  have key : ∀ (l : List (Nat × Call)) (o : List (Py Ans)), l[o.length]? = some (i', c) →
      l.zip (o ++ [r]) = l.zip o ++ [((i', c), r)] := by
    intro l o
    induction o generalizing l with
    | nil => intro h; cases l with
      | nil => exact (nomatch h)
      | cons x l => simp at h; subst h; simp
    | cons y o ih => intro h; cases l with
      | nil => exact (nomatch h)
      | cons x l => simp at h ⊢; exact ih l h
  unfold successes
  rw [ho, key _ _ hc, List.filterMap_append]
  congr 1

/-- What a thread has changed are its successful calls, and perhaps the one it is about to return from. -/
theorem changes (hcr : CrowdOn E secure calls log sched) (i j : Nat) (q : Nat) (hq : q ≤ sched.length) :
    ofThread j (effects E secure calls sched i q) = successes calls (worldAt E secure calls sched q) i j ++
      (worldAt E secure calls sched q).pend calls i j ∧
    ∀ op, (worldAt E secure calls sched q).opOf calls j = some op → ∀ i' p,
      ((worldAt E secure calls sched q).threads j).cur = some (i', p) → p.Pre ∨ p = .done (.ok .none) := by
  induction q with
  | zero =>
    rw [worldAt_zero]
    refine ⟨?_, fun _ _ _ _ h => (nomatch h)⟩
    show [] = ((calls j).zip []).filterMap _ ++ []
    simp
  | succ p ih =>
    have hp : p < sched.length := hq
    have hok := CrowdOk.all hcr p (Nat.le_of_lt hp)
    obtain ⟨ih1, ih2⟩ := ih (Nat.le_of_lt hp)
    rw [effects_next hp, ofThread_append, ih1, worldAt_next hp]
    have hidle := hok.idle j
    have hbusy := hok.busy j
    have hsec := hok.sec
    revert ih2 hidle hbusy hsec
    generalize worldAt E secure calls sched p = w
    generalize sched[p] = j'
    intro ih2 hidle hbusy hsec
    by_cases hj : j = j'
    · subst hj
      rcases w.step_self E j with ⟨e1, e2, e⟩ | ⟨i', c, rest, e1, e2, e⟩ | ⟨i', r, e1, e⟩ | ⟨i', p1, p', e1, e2, e, e3⟩
      · rw [e]
        refine ⟨?_, ih2⟩
        unfold World.effect
        rw [e1]
        simp [ofThread]
      · have hopof : (w.step E j).opOf calls j = c.op? := by
          unfold World.opOf
          rw [e]
          have := hidle e1
          rw [e2] at this
          rw [drop_get this]
          rfl
        have hpre : ∀ op, (w.step E j).opOf calls j = some op → ∀ i2 p2, ((w.step E j).threads j).cur = some (i2, p2) →
            p2.Pre := by
          intro op ho i2 p2 h2
          rw [hopof] at ho
          rw [e] at h2
          injection h2 with h2
          injection h2 with _ h2
          subst h2
          exact Prog.pre_call E _ (by rw [ho]; simp)
        refine ⟨?_, fun op ho i2 p2 h2 => .inl (hpre op ho i2 p2 h2)⟩
        rw [World.pend_eq_nil fun op ho i2 p2 h2 => (hpre op ho i2 p2 h2).not_ok]
        unfold World.effect World.pend successes
        rw [e1, e]
        simp [ofThread]
      · refine ⟨?_, fun op ho i2 p2 h2 => by rw [e] at h2; exact (nomatch h2)⟩
        obtain ⟨c, hd, _⟩ := hbusy _ _ e1
        rw [successes_append (w := w) (w' := w.step E j) (drop_get hd) (congrArg Thread.outs e)]
        have h1 : (w.step E j).pend calls i j = [] :=
          World.pend_eq_nil fun op _ i2 p2 h2 => by rw [e] at h2; exact (nomatch h2)
        have h2 : w.effect calls i j = [] := by unfold World.effect; rw [e1]
        rw [h1, h2, List.append_nil]
        show _ ++ [] = _
        rw [List.append_nil]
        congr 1
        unfold World.pend World.opOf
        rw [e1, drop_get hd]
        by_cases hr : r = .ok .none
        · subst hr
          by_cases hi : i' = i
          · simp [hi]
          · simp [hi]
        · have : ¬ (i' = i ∧ r = .ok .none) := fun h => hr h.2
          rw [if_neg this]
          split
          · rename_i heq
            injection heq with heq
            injection heq with _ heq
            injection heq with heq
            exact absurd heq hr
          · rfl
      · obtain ⟨c, hd, _⟩ := hbusy _ _ e1
        have hopof : (w.step E j).opOf calls j = c.op? := by
          unfold World.opOf; rw [e, drop_get hd]; rfl
        have hopof' : w.opOf calls j = c.op? := by
          unfold World.opOf; rw [drop_get hd]; rfl
        have hs : successes calls (w.step E j) i j = successes calls w i j := by
          unfold successes; rw [e]
        have hpend : w.pend calls i j = [] := World.pend_eq_nil fun op _ i2 p2 h2 hne => by
          rw [e1] at h2
          injection h2 with h2
          injection h2 with _ h2
          rw [h2, hne] at e2
          exact (nomatch e2)
        rw [hs, hpend, List.append_nil]
        cases ho : c.op? with
        | none =>
          refine ⟨?_, fun op h => by rw [hopof, ho] at h; exact (nomatch h)⟩
          rw [World.pend_eq_nil fun op h => by rw [hopof, ho] at h; exact (nomatch h)]
          congr 1
          unfold World.effect
          rw [e1, hopof', ho]
          split
          · split <;> rfl
          · rfl
        | some op =>
          have hp1 : p1.Pre := by
            rcases ih2 op (by rw [hopof', ho]) _ _ e1 with h | h
            · exact h
            · rw [h] at e2; exact (nomatch e2)
          rcases e3 hp1 with ⟨h1, h2⟩ | ⟨r, h1, h2⟩
          · have hcur : ∀ i2 p2, ((w.step E j).threads j).cur = some (i2, p2) → p2.Pre := by
              intro i2 p2 h3
              rw [e] at h3
              injection h3 with h3
              injection h3 with _ h3
              exact h3 ▸ h1
            refine ⟨?_, fun _ _ i2 p2 h3 => .inl (hcur i2 p2 h3)⟩
            rw [World.pend_eq_nil fun _ _ i2 p2 h3 => (hcur i2 p2 h3).not_ok]
            congr 1
            unfold World.effect
            rw [e1]
            split
            · rename_i heq
              injection heq with heq
              injection heq with _ heq
              exact absurd heq (h2 _ _)
            · rfl
          · subst h1 h2
            refine ⟨?_, fun _ _ i2 p2 h3 => ?_⟩
            · congr 1
              unfold World.effect World.pend
              rw [hopof, hopof', ho, e1, e]
              by_cases hi : i' = i
              · simp [hi, ofThread]
              · simp [hi, ofThread]
            · rw [e] at h3
              injection h3 with h3
              injection h3 with _ h3
              exact .inr h3.symm
    · rw [effect_other w i hj, List.append_nil]
      have hoth := w.step_other E hj
      refine ⟨?_, fun op h1 => ?_⟩
      · unfold successes World.pend World.opOf; rw [hoth]
      · unfold World.opOf at h1; rw [hoth] at h1 ⊢; exact ih2 op h1

/-- Without a change to trie `i` its root stays as it is. -/
theorem roots_of_effects (hcr : CrowdOn E secure calls log sched) {i q q' : Nat} (hle : q ≤ q') (hq' : q' ≤ sched.length)
    (he : effects E secure calls sched i q' = effects E secure calls sched i q) :
    (worldAt E secure calls sched q').roots i = (worldAt E secure calls sched q).roots i := by
  induction q' with
  | zero => rw [Nat.le_zero.1 hle]
  | succ p ih =>
    rcases Nat.lt_or_eq_of_le hle with hlt | rfl
    · have hp : p < sched.length := hq'
      have hqp := Nat.le_of_lt_succ hlt
      have hok := CrowdOk.all hcr p (Nat.le_of_lt hp)
      have h1 := effects_prefix (E := E) (secure := secure) (calls := calls) (sched := sched) (i := i) hqp
      rw [effects_next hp] at he
      have hlen := congrArg List.length he
      have hlen' := h1.length_le
      rw [List.length_append] at hlen
      have hnil : (worldAt E secure calls sched p).effect calls i sched[p] = [] :=
        List.eq_nil_of_length_eq_zero (by omega)
      rw [hnil, List.append_nil] at he
      rw [worldAt_next hp]
      rcases hok.effect (i := i) rfl sched[p] with ⟨_, e2⟩ | ⟨_, _, _, _, e3, _⟩
      · rw [e2]; exact ih hqp (Nat.le_of_lt hp) he
      · rw [hnil] at e3; exact (nomatch e3)
    · rfl

end
end Pymt
