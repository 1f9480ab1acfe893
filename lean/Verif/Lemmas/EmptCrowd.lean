import Verif.Lemmas.EmptWatching

/-!
# Lemmas: several threads that write to one `EMPT`
-/

namespace Pymt

/-- Keys that nobody deletes stay. -/
def Kept (dels : Bytes → Prop) (d d' : Dict Value) : Prop :=
  ∀ k, ¬ dels k → (dget d k).isSome = true → (dget d' k).isSome = true

theorem Kept.refl (dels : Bytes → Prop) (d : Dict Value) : Kept dels d d := fun _ _ h => h
theorem Kept.trans {dels : Bytes → Prop} {a b c : Dict Value} (h : Kept dels a b) (h' : Kept dels b c) :
    Kept dels a c := fun k hk hs => h' k hk (h k hk hs)

theorem Kept.dset {dels : Bytes → Prop} {d d' : Dict Value} (h : Kept dels d d') (k : Bytes) (v : Value) :
    Kept dels (dset d k v) (dset d' k v) := by
  intro k' hk hs
  rw [dget_dset] at hs ⊢
  split
  · rfl
  · rename_i hne; rw [if_neg hne] at hs; exact h k' hk hs

theorem Kept.ddel {dels : Bytes → Prop} {d d' : Dict Value} (h : Kept dels d d') (k : Bytes) :
    Kept dels (ddel d k) (ddel d' k) := by
  intro k' hk hs
  rw [dget_ddel] at hs ⊢
  split
  · rename_i he; rw [if_pos he] at hs; exact (nomatch hs)
  · rename_i hne; rw [if_neg hne] at hs; exact h k' hk hs

theorem Kept.put {dels : Bytes → Prop} (d : Dict Value) (k : Bytes) (v : Value) : Kept dels d (Pymt.dset d k v) := by
  intro k' _ hs
  rw [dget_dset]
  split
  · rfl
  · exact hs

theorem Kept.drop {dels : Bytes → Prop} (d : Dict Value) {k : Bytes} (hk : dels k) : Kept dels d (Pymt.ddel d k) := by
  intro k' hk' hs
  rw [dget_ddel]
  split
  · rename_i he; subst he; exact absurd hk hk'
  · exact hs

/-- What a program may do to the data storage, and how it may end. -/
def Tame (puts : Bytes → Value → Prop) (dels : Bytes → Prop) (fin : Py EAns → Dict Value → Prop) :
    EProg EAns → Dict Value → Prop
  | .done r, d => fin r d
  | .load _ n, d => ∀ v, Tame puts dels fin (n v) d
  | .save _ _ n, d => Tame puts dels fin n d
  | .root n, d => ∀ r, Tame puts dels fin (n r) d
  | .setRoot _ n, d => Tame puts dels fin n d
  | .data k n, d => ∀ v, puts k v → Tame puts dels fin (n v) d
  | .setData k v n, d => puts k v ∧ Tame puts dels fin n (dset d k v)
  | .delData k n, d => dels k ∧ Tame puts dels fin n (ddel d k)

/-- How a call may end. -/
def Ends (puts : Bytes → Value → Prop) (dels : Bytes → Prop) : ECall → Py EAns → Dict Value → Prop
  | .get k, r, _ => ∀ v, r = .ok (.value v) → puts k v
  | .update k v, r, d => ∀ a, r = .ok a → v.storable = true ∧ (¬ dels k → (dget d k).isSome = true)
  | _, _, _ => True

section
variable {puts : Bytes → Value → Prop} {dels : Bytes → Prop}

theorem Ends.error (c : ECall) (e : Err) (d : Dict Value) : Ends puts dels c (.error e) d := by
  cases c with
  | get k => intro v h; exact (nomatch h)
  | update k v => intro a h; exact (nomatch h)
  | delete k => trivial
  | contains k => trivial

theorem Ends.kept {c : ECall} {r : Py EAns} {d d' : Dict Value} (h : Ends puts dels c r d) (hk : Kept dels d d') :
    Ends puts dels c r d' := by
  cases c with
  | get k => exact h
  | update k v => exact fun a hr => ⟨(h a hr).1, fun hd => hk k hd ((h a hr).2 hd)⟩
  | delete k => trivial
  | contains k => trivial

theorem Tame.kept {c : ECall} {p : EProg EAns} {d d' : Dict Value} (h : Tame puts dels (Ends puts dels c) p d)
    (hk : Kept dels d d') : Tame puts dels (Ends puts dels c) p d' := by
  induction p generalizing d d' with
  | done r => exact Ends.kept h hk
  | load k n ih => exact fun v => ih v (h v) hk
  | save k v n ih => exact ih h hk
  | root n ih => exact fun r => ih r (h r) hk
  | setRoot r n ih => exact ih h hk
  | data k n ih => exact fun v hv => ih v (h v hv) hk
  | setData k v n ih => exact ⟨h.1, ih h.2 (hk.dset k v)⟩
  | delData k n ih => exact ⟨h.1, ih h.2 (hk.ddel k)⟩

/-- Calls on the trie leave the data storage alone. -/
theorem Tame.trie {α : Type} {c : ECall} {p : Prog α} {f : α → EProg EAns} {d : Dict Value}
    (h : ∀ a, Tame puts dels (Ends puts dels c) (f a) d) :
    Tame puts dels (Ends puts dels c) (EProg.trie p >>= f) d := by
  show Tame puts dels (Ends puts dels c) ((EProg.trie p).bind f) d
  induction p with
  | done r =>
    cases r with
    | ok a => exact h a
    | error e => exact Ends.error c e d
  | load k n ih => exact fun v => ih v
  | save k v n ih => exact ih
  | root n ih => exact fun r => ih r
  | setRoot r n ih => exact ih

theorem EProg.bind_assoc {α β γ : Type} (p : EProg α) (f : α → EProg β) (g : β → EProg γ) :
    (p >>= f) >>= g = p >>= fun a => f a >>= g := by
  show (p.bind f).bind g = p.bind fun a => (f a).bind g
  induction p with
  | done r => cases r <;> rfl
  | load k n ih => simp only [EProg.bind, ih]
  | save k v n ih => simp only [EProg.bind, ih]
  | root n ih => simp only [EProg.bind, ih]
  | setRoot r n ih => simp only [EProg.bind, ih]
  | data k n ih => simp only [EProg.bind, ih]
  | setData k v n ih => simp only [EProg.bind, ih]
  | delData k n ih => simp only [EProg.bind, ih]

theorem EMPT.compareRef_ok {E : Env} {k enc : Bytes} {v w : Value} (h : EMPT.compareRef E k enc v = .ok w) :
    w = v := by
  unfold EMPT.compareRef at h
  cases h1 : DataRef.decode E enc with
  | error e => rw [h1] at h; exact (nomatch h)
  | ok ref =>
    rw [h1] at h
    simp only [Except.bind_ok'] at h
    cases h2 : DataRef.ofValue k v with
    | error e => rw [h2] at h; exact (nomatch h)
    | ok ex =>
      rw [h2] at h
      simp only [Except.bind_ok'] at h
      split at h
      · exact (nomatch h)
      · injection h with h
        exact h.symm

/-- The programs of the calls. -/
theorem tame_call (E : Env) (secure : Bool) (c : ECall) (hp : ∀ k v, c = .update k v → v.storable = true → puts k v)
    (hd : ∀ k, c = .delete k → dels k) (d : Dict Value) : Tame puts dels (Ends puts dels c) (c.prog E secure) d := by
  cases c with
  | update k v =>
    show Tame _ _ _ (EMPT.updateCallP E secure k v >>= fun _ => _) d
    cases hv : v.storable with
    | false =>
      obtain ⟨e, h1, _⟩ := EMPT.updateCallP_other E secure k hv
      rw [h1]
      exact Ends.error _ e d
    | true =>
      rw [EMPT.updateCallP_storable E _ k hv]
      unfold EMPT.putP
      rw [Props.ofValue_storable hv]
      show Tame _ _ _ ((EProg.trie (MPT.updateCallP E _ (refOf E k v)) >>= fun _ => _) >>= fun _ => _) d
      rw [EProg.bind_assoc]
      refine Tame.trie fun a => ⟨hp k v rfl hv, fun a _ => ⟨hv, fun _ => ?_⟩⟩
      rw [dget_dset, if_pos rfl]
      rfl
  | delete k =>
    show Tame _ _ _ (EMPT.deleteCallP E secure k >>= fun _ => _) d
    unfold EMPT.deleteCallP EMPT.containsCallP
    rw [EProg.bind_assoc]
    refine Tame.trie fun b => ?_
    cases b with
    | false => exact Ends.error _ _ d
    | true =>
      refine ⟨hd k rfl, ?_⟩
      exact Tame.trie (p := MPT.deleteCallP E _) (f := fun _ => .done (.ok .none)) fun _ => trivial
  | get k =>
    show Tame _ _ _ (EMPT.getCallP E secure k >>= fun _ => _) d
    unfold EMPT.getCallP EProg.dataItem
    intro v hv
    show Tame puts dels (Ends puts dels (.get k))
      ((EProg.trie (MPT.getCallP E (if secure then E.keccak k else k)) >>= fun enc =>
        EProg.lift (EMPT.compareRef E k enc v)) >>= fun v => EProg.done (.ok (.value v))) d
    rw [EProg.bind_assoc]
    refine Tame.trie fun enc => ?_
    unfold EProg.lift
    cases hc : EMPT.compareRef E k enc v with
    | error e => exact Ends.error _ e d
    | ok w =>
      have := EMPT.compareRef_ok hc
      subst this
      intro x hx
      injection hx with hx
      injection hx with hx
      subst hx
      exact hv
  | contains k =>
    show Tame _ _ _ (EMPT.containsCallP E secure k >>= fun _ => _) d
    exact Tame.trie fun _ => trivial

end

/-! ## Worlds -/

/-- Some thread stores the value under the key. -/
def Puts (calls : Nat → List ECall) (k : Bytes) (v : Value) : Prop :=
  v.storable = true ∧ ∃ j, ECall.update k v ∈ calls j

/-- Some thread deletes the key. -/
def Dels (calls : Nat → List ECall) (k : Bytes) : Prop := ∃ j, ECall.delete k ∈ calls j

/-- What is true at every moment. -/
structure EWorldOk (calls : Nat → List ECall) (w : EWorld) : Prop where
  data : ∀ k v, dget w.obj.data k = some v → Puts calls k v
  past : ∀ (j n : Nat) (c : ECall) (r : Py EAns), (calls j)[n]? = some c → (w.threads j).outs[n]? = some r →
    Ends (Puts calls) (Dels calls) c r w.obj.data
  now : ∀ j p, (w.threads j).cur = some p → ∃ c, (calls j)[(w.threads j).outs.length]? = some c ∧
    Tame (Puts calls) (Dels calls) (Ends (Puts calls) (Dels calls) c) p w.obj.data ∧
    (w.threads j).rest = (calls j).drop ((w.threads j).outs.length + 1)
  later : ∀ j, (w.threads j).cur = none → (w.threads j).rest = (calls j).drop (w.threads j).outs.length

section
variable {E : Env} {calls : Nat → List ECall} {w : EWorld}

theorem EWorldOk.new (E : Env) (secure : Bool) (calls : Nat → List ECall) :
    EWorldOk calls (EWorld.new E secure calls) :=
  ⟨fun k v h => (nomatch h), fun j n c r _ h => (nomatch h), fun j p h => (nomatch h), fun j _ => rfl⟩

/-- An access: what the program may do, and what is left of it. -/
theorem tame_access {c : ECall} {p : EProg EAns} {s : EMPT}
    (h : Tame (Puts calls) (Dels calls) (Ends (Puts calls) (Dels calls) c) p s.data)
    (hd : ∀ k v, dget s.data k = some v → Puts calls k v) :
    Kept (Dels calls) s.data (EWorld.access p s).1.data ∧
    (∀ k v, dget (EWorld.access p s).1.data k = some v → Puts calls k v) ∧
    Tame (Puts calls) (Dels calls) (Ends (Puts calls) (Dels calls) c) (EWorld.access p s).2
      (EWorld.access p s).1.data := by
  cases p with
  | done r => exact ⟨Kept.refl _ _, hd, h⟩
  | load k n =>
    simp only [EWorld.access]
    cases dget s.trie.store.kv k with
    | none => exact ⟨Kept.refl _ _, hd, Ends.error c _ _⟩
    | some v => exact ⟨Kept.refl _ _, hd, h v⟩
  | save k v n => exact ⟨Kept.refl _ _, hd, h⟩
  | root n => exact ⟨Kept.refl _ _, hd, h _⟩
  | setRoot r n => exact ⟨Kept.refl _ _, hd, h⟩
  | data k n =>
    simp only [EWorld.access]
    cases hk : dget s.data k with
    | none => exact ⟨Kept.refl _ _, hd, Ends.error c _ _⟩
    | some v => exact ⟨Kept.refl _ _, hd, h v (hd k v hk)⟩
  | setData k v n =>
    refine ⟨Kept.put _ _ _, fun k' v' hk => ?_, h.2⟩
    simp only [EWorld.access] at hk
    rw [dget_dset] at hk
    split at hk
    · rename_i he
      injection hk with hk
      subst he hk
      exact h.1
    · exact hd _ _ hk
  | delData k n =>
    simp only [EWorld.access]
    cases hk : dget s.data k with
    | none => exact ⟨Kept.refl _ _, hd, Ends.error c _ _⟩
    | some v =>
      refine ⟨Kept.drop _ h.1, fun k' v' hk' => ?_, h.2⟩
      simp only at hk'
      rw [dget_ddel] at hk'
      split at hk'
      · exact (nomatch hk')
      · exact hd _ _ hk'

theorem EWorld.setThread_same (w : EWorld) (j : Nat) (th : EThread) : (w.setThread j th).threads j = th := by
  simp [EWorld.setThread]

theorem EWorld.setThread_other (w : EWorld) {i j : Nat} (th : EThread) (h : i ≠ j) :
    (w.setThread j th).threads i = w.threads i := by
  simp [EWorld.setThread, h]

/-- A step of thread `j` with an access. -/
theorem EWorldOk.move (h : EWorldOk calls w) {j : Nat} {p : EProg EAns} (hp : (w.threads j).cur = some p) :
    EWorldOk calls { w.setThread j { w.threads j with cur := some (EWorld.access p w.obj).2 } with
      obj := (EWorld.access p w.obj).1 } := by
  obtain ⟨c, h1, h2, h3⟩ := h.now j p hp
  obtain ⟨a1, a2, a3⟩ := tame_access h2 h.data
  refine ⟨a2, fun i n c' r hc hr => ?_, fun i q hq => ?_, fun i hi => ?_⟩
  · refine (h.past i n c' r hc ?_).kept a1
    by_cases hij : i = j
    · subst hij
      have : (w.setThread i { w.threads i with cur := some (EWorld.access p w.obj).2 }).threads i = _ :=
        w.setThread_same i _
      simp only [this] at hr
      exact hr
    · simp only [w.setThread_other _ hij] at hr
      exact hr
  · by_cases hij : i = j
    · subst hij
      simp only [w.setThread_same] at hq ⊢
      injection hq with hq
      subst hq
      exact ⟨c, h1, a3, h3⟩
    · simp only [w.setThread_other _ hij] at hq ⊢
      obtain ⟨c', b1, b2, b3⟩ := h.now i q hq
      exact ⟨c', b1, b2.kept a1, b3⟩
  · by_cases hij : i = j
    · subst hij
      simp only [w.setThread_same] at hi
      exact (nomatch hi)
    · simp only [w.setThread_other _ hij] at hi ⊢
      exact h.later i hi

theorem EWorldOk.step (h : EWorldOk calls w) (j : Nat) : EWorldOk calls (w.step E j) := by
  have hmove : ∀ p, (w.threads j).cur = some p → (∀ r, p ≠ .done r) → EWorldOk calls (w.step E j) := by
    intro p hp hd
    have e : w.step E j = { w.setThread j { w.threads j with cur := some (EWorld.access p w.obj).2 } with
        obj := (EWorld.access p w.obj).1 } := by
      unfold EWorld.step
      simp only [hp]
    rw [e]
    exact h.move hp
  cases hc : (w.threads j).cur with
  | none =>
    cases hr : (w.threads j).rest with
    | nil =>
      have e : w.step E j = w := by unfold EWorld.step; simp only [hc, hr]
      rw [e]; exact h
    | cons c rest =>
      have e : w.step E j = w.setThread j
          { w.threads j with cur := some (c.prog E w.obj.trie.secure), rest := rest } := by
        unfold EWorld.step; simp only [hc, hr]
      rw [e]
      have hl := h.later j hc
      rw [hr] at hl
      have hget := drop_get hl.symm
      have hmem := List.mem_of_getElem? hget
      refine ⟨h.data, fun i n c' r hc' hr' => ?_, fun i q hq => ?_, fun i hi => ?_⟩
      · refine h.past i n c' r hc' ?_
        by_cases hij : i = j
        · subst hij; rw [w.setThread_same] at hr'; exact hr'
        · rw [w.setThread_other _ hij] at hr'; exact hr'
      · by_cases hij : i = j
        · subst hij
          rw [w.setThread_same] at hq ⊢
          injection hq with hq
          subst hq
          refine ⟨c, hget, tame_call E _ c ?_ ?_ _, ?_⟩
          · rintro k v rfl hv; exact ⟨hv, i, hmem⟩
          · rintro k rfl; exact ⟨i, hmem⟩
          · have := congrArg List.tail hl
            simpa using this
        · rw [w.setThread_other _ hij] at hq ⊢
          exact h.now i q hq
      · by_cases hij : i = j
        · subst hij
          rw [w.setThread_same] at hi
          exact (nomatch hi)
        · rw [w.setThread_other _ hij] at hi ⊢
          exact h.later i hi
  | some p =>
    by_cases hd : ∃ r, p = .done r
    · obtain ⟨r, rfl⟩ := hd
      have e : w.step E j = w.setThread j { w.threads j with cur := none, outs := (w.threads j).outs ++ [r] } := by
        unfold EWorld.step; simp only [hc]
      rw [e]
      obtain ⟨c, h1, h2, h3⟩ := h.now j _ hc
      refine ⟨h.data, fun i n c' r' hc' hr' => ?_, fun i q hq => ?_, fun i hi => ?_⟩
      · by_cases hij : i = j
        · subst hij
          rw [w.setThread_same] at hr'
          simp only at hr'
          rcases Nat.lt_trichotomy n (w.threads i).outs.length with hlt | he | hgt
          · rw [List.getElem?_append_left hlt] at hr'
            exact h.past i n c' r' hc' hr'
          · subst he
            rw [h1] at hc'
            injection hc' with hc'
            subst hc'
            simp only [List.getElem?_append_right (Nat.le_refl _), Nat.sub_self, List.getElem?_cons_zero,
              Option.some.injEq] at hr'
            subst hr'
            exact h2
          · rw [List.getElem?_eq_none (by simp; omega)] at hr'
            exact (nomatch hr')
        · rw [w.setThread_other _ hij] at hr'
          exact h.past i n c' r' hc' hr'
      · by_cases hij : i = j
        · subst hij
          rw [w.setThread_same] at hq
          exact (nomatch hq)
        · rw [w.setThread_other _ hij] at hq ⊢
          exact h.now i q hq
      · by_cases hij : i = j
        · subst hij
          rw [w.setThread_same]
          simp only [List.length_append, List.length_singleton]
          exact h3
        · rw [w.setThread_other _ hij] at hi ⊢
          exact h.later i hi
    · exact hmove p hc fun r hr => hd ⟨r, hr⟩

theorem EWorldOk.run (h : EWorldOk calls w) (sched : List Nat) : EWorldOk calls (w.run E sched) := by
  induction sched generalizing w with
  | nil => exact h
  | cons j sched ih => exact ih (h.step j)

end
end Pymt
