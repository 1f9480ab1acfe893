import Verif.Spec.MerkleInterrupt
import Verif.Lemmas.MerklePast

/-!
# Calls on a `MerkleTree` that an exception ends early
-/

namespace Pymt

open MTree MProg

/-! ### Objects that answer alike -/

/-- The levels matter only when the tree is ready, or has no leaves. -/
structure Akin (t t' : MTree) : Prop where
  secure : t.secure = t'.secure
  leaves : t.leaves = t'.leaves
  ready : t.ready = t'.ready
  upper : t.ready = true ∨ t.leaves = [] → t.upper = t'.upper

theorem Akin.refl (t : MTree) : Akin t t := ⟨rfl, rfl, rfl, fun _ => rfl⟩

theorem Akin.eq_of_ready {t t' : MTree} (h : Akin t t') (hr : t.ready = true) : t = t' := by
  obtain ⟨h1, h2, h3, h4⟩ := h
  have h5 := h4 (.inl hr)
  cases t; cases t'
  simp only at h1 h2 h3 h5
  subst h1 h2 h3 h5
  rfl

theorem Akin.make {t t' : MTree} (H : HashFn) (h : Akin t t') : MTree.make H t = MTree.make H t' := by
  by_cases hl : t.leaves = []
  · have h5 := h.upper (.inr hl)
    obtain ⟨h1, h2, h3, _⟩ := h
    have hl' : t'.leaves = [] := by rw [← h2]; exact hl
    simp only [MTree.make, M.modify, hl, hl', List.length_nil, Nat.lt_irrefl, gt_iff_lt, if_false, h1, h5]
  · rw [make_eq H t hl, make_eq H t' (by rw [← h.leaves]; exact hl), h.secure, h.leaves]

theorem Akin.root {t t' : MTree} (H : HashFn) (h : Akin t t') :
    (MTree.root H t).1 = (MTree.root H t').1 ∧ Akin (MTree.root H t).2 (MTree.root H t').2 := by
  rw [root_apply, root_apply, ← h.ready]
  by_cases hr : t.ready = true
  · rw [h.eq_of_ready hr]
    exact ⟨rfl, .refl _⟩
  · have : t.ready = false := by simpa using hr
    simp only [this, Bool.false_eq_true, if_false, h.make H]
    exact ⟨trivial, .refl _⟩

theorem Akin.call {t t' : MTree} (H : HashFn) (h : Akin t t') (c : MCall) :
    (c.alone H t).1 = (c.alone H t').1 ∧ Akin (c.alone H t).2 (c.alone H t').2 := by
  cases c with
  | put v =>
    refine ⟨rfl, ⟨h.secure, ?_, h.ready, ?_⟩⟩
    · simp only [MCall.alone, MTree.put, M.modify, h.leaves, h.secure]
    · intro hh
      rcases hh with hh | hh
      · exact h.upper (.inl hh)
      · simp [MCall.alone, MTree.put, M.modify] at hh
  | get i => exact ⟨by simp only [MCall.alone, MTree.get, h.leaves], h⟩
  | count => exact ⟨by simp only [MCall.alone, MTree.count, h.leaves], h⟩
  | make =>
    simp only [MCall.alone, h.make H]
    exact ⟨trivial, .refl _⟩
  | root =>
    obtain ⟨h1, h2⟩ := h.root H
    simp only [MCall.alone, h1]
    exact ⟨trivial, h2⟩
  | poi now key =>
    by_cases hr : t.ready = true
    · rw [h.eq_of_ready hr]
      exact ⟨rfl, .refl _⟩
    · have hr : t.ready = false := by simpa using hr
      have e : ∀ t : MTree, t.ready = false → t.proofRaw H key = .error .valueError := by
        intro t ht
        unfold MTree.proofRaw
        rw [ht]
        cases t.leaves.idxOf? _ <;> rfl
      simp only [MCall.alone, getPoi_eq, e t hr, e t' (by rw [← h.ready]; exact hr)]
      exact ⟨trivial, h⟩
  | verify p =>
    simp only [MCall.alone, verifyPoi_eq]
    cases checks H p with
    | error e => exact ⟨rfl, h⟩
    | ok b =>
      cases b with
      | false => exact ⟨rfl, h⟩
      | true =>
        obtain ⟨h1, h2⟩ := h.root H
        generalize MTree.root H t = x at h1 h2
        generalize MTree.root H t' = y at h1 h2
        obtain ⟨x, tx⟩ := x
        obtain ⟨y, ty⟩ := y
        simp only at h1 h2
        subst h1
        cases x <;> exact ⟨rfl, h2⟩

theorem Akin.outcomes (H : HashFn) : ∀ (later : List Deed) {t t' : MTree}, Akin t t' →
    Deed.outcomes H later t = Deed.outcomes H later t'
  | [], _, _, _ => rfl
  | .call c :: later, t, t', h => by
    obtain ⟨h1, h2⟩ := h.call H c
    simp only [Deed.outcomes, Deed.does]
    rw [h1, Akin.outcomes H later h2]
  | .reset :: later, t, t', h => by
    simp only [Deed.outcomes, Deed.does]
    have : Akin (MTree.reset t).2 (MTree.reset t').2 := by
      simp only [MTree.reset, M.modify, h.secure]
      exact .refl _
    rw [Akin.outcomes H later this]
    rfl

/-! ### What a call does on the way -/

variable {α : Type}

/-- Programs that only read. -/
inductive JustReads : MProg α → Prop
  | done (r : Py α) : JustReads (.done r)
  | levels {f : Option (List LevelRef) → MProg α} (h : ∀ x, JustReads (f x)) : JustReads (.levels f)
  | leaves {f : List Bytes → MProg α} (h : ∀ x, JustReads (f x)) : JustReads (.leaves f)
  | ready {f : Bool → MProg α} (h : ∀ x, JustReads (f x)) : JustReads (.ready f)

/-- Programs that only read until they make the tree, if they do, and only read afterwards. -/
inductive Asker : MProg α → Prop
  | done (r : Py α) : Asker (.done r)
  | levels {f : Option (List LevelRef) → MProg α} (h : ∀ x, Asker (f x)) : Asker (.levels f)
  | leaves {f : List Bytes → MProg α} (h : ∀ x, Asker (f x)) : Asker (.leaves f)
  | ready {f : Bool → MProg α} (h : ∀ x, Asker (f x)) : Asker (.ready f)
  | make {p : MProg α} (h : JustReads p) : Asker (MProg.make p)

/-- The list `self.levels` ends with the list of leaves, and is otherwise made of levels made. -/
def LevelsFine (ls : List LevelRef) : Prop := ∃ u : List (List Bytes), ls = u.map .kept ++ [.leaves]

/-- Programs between `self.is_ready = False` and `next`, when the leaves are `l`. -/
inductive Making (l : List Bytes) (next : MProg α) : MProg α → Prop
  | over : Making l next next
  | failed (e : Err) : Making l next (.done (.error e))
  | rounds (hne : l ≠ []) : Making l next (.rounds next)
  | levels {f : Option (List LevelRef) → MProg α} (h0 : Making l next (f none))
      (h : ∀ ls, LevelsFine ls → Making l next (f (some ls))) : Making l next (.levels f)
  | leaves {f : List Bytes → MProg α} (h : Making l next (f l)) : Making l next (.leaves f)
  | setLevels {ls : List LevelRef} {p : MProg α} (hne : l ≠ []) (hl : LevelsFine ls) (h : Making l next p) :
      Making l next (.setLevels ls p)

theorem JustReads.asker {p : MProg α} (h : JustReads p) : Asker p := by
  induction h with
  | done r => exact .done r
  | levels _ ih => exact .levels ih
  | leaves _ ih => exact .leaves ih
  | ready _ ih => exact .ready ih

theorem JustReads.onLevel {f : List Bytes → MProg α} (h : ∀ l, JustReads (f l)) (i : Nat) (x : Option (List LevelRef)) :
    JustReads (MProg.onLevel i f x) := by
  cases x with
  | none => exact .done _
  | some ls =>
    simp only [MProg.onLevel]
    split
    · exact .done _
    · exact h _
    · exact .leaves h

theorem Asker.onLevel {f : List Bytes → MProg α} (h : ∀ l, Asker (f l)) (i : Nat) (x : Option (List LevelRef)) :
    Asker (MProg.onLevel i f x) := by
  cases x with
  | none => exact .done _
  | some ls =>
    simp only [MProg.onLevel]
    split
    · exact .done _
    · exact h _
    · exact .leaves h

theorem Making.onLevel {l0 : List Bytes} {next : MProg α} {f : List Bytes → MProg α} (h : ∀ l, Making l0 next (f l)) (i : Nat)
    (x : Option (List LevelRef)) : Making l0 next (MProg.onLevel i f x) := by
  cases x with
  | none => exact .failed _
  | some ls =>
    simp only [MProg.onLevel]
    split
    · exact .failed _
    · exact h _
    · exact .leaves (h _)

theorem Making.withLevel {l0 : List Bytes} {next : MProg α} {f : List Bytes → MProg α} (h : ∀ l, Making l0 next (f l)) (i : Nat) :
    Making l0 next (MProg.withLevel i f) := .levels (Making.onLevel h i _) fun _ _ => Making.onLevel h i _

theorem Making.nextLevel (H : HashFn) {l0 : List Bytes} (hne : l0 ≠ []) {next p : MProg α} (h : Making l0 next p) :
    Making l0 next (MProg.nextLevel H p) := by
  have up : ∀ n solo, Making l0 next (MProg.pairUp H n solo p) := by
    intro n solo
    unfold MProg.pairUp
    refine Making.withLevel (fun l => Making.withLevel (fun l' => .levels (.failed _) fun ls hl => ?_) 0) 0
    refine .setLevels hne ?_ h
    obtain ⟨u, rfl⟩ := hl
    exact ⟨_ :: u, rfl⟩
  unfold MProg.nextLevel
  refine Making.withLevel (fun l => ?_) 0
  simp only
  split
  · refine Making.withLevel (fun l' => ?_) 0
    split
    · exact .failed _
    · exact up _ _
  · exact up _ _

theorem Making.round (H : HashFn) {l0 : List Bytes} (hne : l0 ≠ []) {next : MProg α} (x : Option (List LevelRef)) :
    Making l0 next (MProg.round H next x) := by
  refine Making.onLevel (fun l => ?_) 0 x
  split
  · exact Making.nextLevel H hne (.rounds hne)
  · exact .over

/-- `make_tree`, after its first access. -/
theorem making_make (l : List Bytes) (next : MProg α) :
    ∃ p, MProg.make next = .setReady false p ∧ Making l (.setReady true next) p := by
  refine ⟨_, rfl, .leaves ?_⟩
  split
  · next h =>
    have hne : l ≠ [] := List.length_pos_iff.mp h
    exact .setLevels hne ⟨[], rfl⟩ (.rounds hne)
  · exact .over

theorem rootRaw_reads {f : Bytes → MProg α} (h : ∀ b, JustReads (f b)) : JustReads (MProg.rootRaw f) := by
  unfold MProg.rootRaw
  refine .ready fun r => ?_
  split
  · refine .levels fun x => ?_
    split
    · exact .done _
    · refine .levels fun x => JustReads.onLevel (fun l => ?_) 0 x
      split
      · exact .done _
      · exact h _
  · exact .done _

theorem root_asker {f : Bytes → MProg α} (h : ∀ b, JustReads (f b)) : Asker (MProg.root f) := by
  unfold MProg.root
  refine .ready fun r => ?_
  split
  · exact (rootRaw_reads h).asker
  · exact .make (rootRaw_reads h)

theorem proofLoop_asker {f : List (Bytes × Bytes) → MProg α} (h : ∀ b, Asker (f b)) : ∀ (x index : Nat) (acc : List (Bytes × Bytes)),
    Asker (MProg.proofLoop f x index acc)
  | 0, _, acc => h acc
  | x + 1, index, acc => by
    unfold MProg.proofLoop
    refine .levels fun v => Asker.onLevel (fun level => ?_) _ v
    split
    · exact proofLoop_asker h x _ _
    · refine .levels fun v => Asker.onLevel (fun level => ?_) _ v
      split
      · exact .done _
      · exact proofLoop_asker h x _ _

theorem proofRaw_asker {f : List (Bytes × Bytes) → MProg α} (h : ∀ b, Asker (f b)) (leaf : Bytes) :
    Asker (MProg.proofRaw leaf f) := by
  unfold MProg.proofRaw
  refine .leaves fun l => ?_
  split
  · exact .done _
  · refine .levels fun x => ?_
    split
    · exact .done _
    · refine .ready fun r => ?_
      split
      · refine .leaves fun _ => .levels fun x => ?_
        split
        · exact .done _
        · exact proofLoop_asker h _ _ _
      · exact .done _

theorem call_asker (H : HashFn) (secure : Bool) (c : MCall) (hc : ∀ v, c ≠ .put v) : Asker (c.prog H secure) := by
  cases c with
  | put v => exact absurd rfl (hc v)
  | get i => exact .leaves fun l => .done _
  | count => exact .leaves fun l => .done _
  | make => exact .make (.done _)
  | root => exact root_asker fun b => .done _
  | poi now key => exact proofRaw_asker (fun ps => root_asker fun b => .done _) _
  | verify p =>
    simp only [MCall.prog, verify]
    split
    · exact .done _
    · exact root_asker fun b => .done _
    · exact .done _

/-- How far a call has come, on the tree `t`: nothing done yet; making the tree; done with it. -/
inductive MakeStage (t : MTree) : MProg α → MState → Prop
  | before {p : MProg α} (h : Asker p) : MakeStage t p t.shared
  | making {p next : MProg α} {s : MState} (hp : Making t.leaves (.setReady true next) p) (hn : JustReads next)
      (h1 : s.secure = t.secure) (h2 : s.leaves = t.leaves) (h3 : s.ready = false)
      (h4 : s.levels = t.shared.levels ∨ ∃ ls, s.levels = some ls ∧ LevelsFine ls ∧ t.leaves ≠ []) : MakeStage t p s
  | after {p : MProg α} {s : MState} (h : JustReads p) : MakeStage t p s

theorem MakeStage.step (H : HashFn) {t : MTree} {p : MProg α} {s : MState} (h : MakeStage t p s) :
    MakeStage t (p.step H s).1 (p.step H s).2 := by
  cases h with
  | after h =>
    refine .after ?_
    cases h with
    | done r => exact .done r
    | levels h => exact h _
    | leaves h => exact h _
    | ready h => exact h _
  | before h =>
    cases h with
    | done r => exact .before (.done r)
    | levels h => exact .before (h _)
    | leaves h => exact .before (h _)
    | ready h => exact .before (h _)
    | make h =>
      rename_i next
      obtain ⟨q, hq, hm⟩ := making_make t.leaves next
      rw [hq]
      exact .making hm h rfl rfl rfl (.inl rfl)
  | making hp hn h1 h2 h3 h4 =>
    generalize hx : MProg.setReady true _ = last at hp
    cases hp with
    | over => subst hx; exact .after hn
    | failed e => subst hx; exact .making (.failed e) hn h1 h2 h3 h4
    | rounds hne => subst hx; exact .making (Making.round H hne _) hn h1 h2 h3 h4
    | levels g0 g =>
      subst hx
      rename_i f
      refine .making ?_ hn h1 h2 h3 h4
      show Making _ _ (f s.levels)
      have fine : ∀ ls, s.levels = some ls → LevelsFine ls := by
        intro ls hls
        rcases h4 with h4 | ⟨ls', h4, h5, _⟩
        · rw [h4] at hls
          unfold MTree.shared at hls
          cases hu : t.upper with
          | none => simp [hu] at hls
          | some u => exact ⟨u, by simp [hu] at hls; exact hls.symm⟩
        · rw [h4] at hls; cases hls; exact h5
      cases hl : s.levels with
      | none => exact g0
      | some ls => exact g ls (fine ls hl)
    | leaves g =>
      subst hx
      rename_i f
      refine .making ?_ hn h1 h2 h3 h4
      show Making _ _ (f s.leaves)
      rw [h2]
      exact g
    | setLevels hne hl g => subst hx; exact .making g hn h1 h2 h3 (.inr ⟨_, rfl, hl, hne⟩)

theorem JustReads.still {H : HashFn} {w : Bool} {p : MProg α} (h : JustReads p) {s s' : MState} {r : Py α}
    (hg : Goes H w p s (.done r) s') : s' = s := by
  induction h with
  | done x => exact hg.done_eq.2.symm
  | levels _ ih => exact ih _ hg.next
  | leaves _ ih => exact ih _ hg.next
  | ready _ ih => exact ih _ hg.next

theorem cutAfter_stage (H : HashFn) {t : MTree} {r : Py α} {final : MState} : ∀ (n : Nat) {p : MProg α} {s : MState}, MakeStage t p s →
    Goes H true p s (.done r) final →
    MakeStage t (cutAfter H n p s).1 (cutAfter H n p s).2 ∧ Goes H true (cutAfter H n p s).1 (cutAfter H n p s).2 (.done r) final
  | 0, _, _, h, hg => ⟨h, hg⟩
  | n + 1, _, _, h, hg => cutAfter_stage H n (h.step H) hg.next

theorem cutAfter_done (H : HashFn) (r : Py α) (s : MState) : ∀ n, cutAfter H n (.done r) s = (.done r, s)
  | 0 => rfl
  | n + 1 => cutAfter_done H r s n

theorem cutAfter_still (H : HashFn) {r : Py α} : ∀ (n : Nat) {p : MProg α} {s : MState}, Goes H false p s (.done r) s →
    (cutAfter H n p s).2 = s
  | 0, _, _, _ => rfl
  | n + 1, p, s, h => by
    obtain ⟨e, h'⟩ := h.next_still
    rw [cutAfter, e]
    exact cutAfter_still H n h'

/-- What is left of an object whose call an exception ended early. -/
theorem call_cut (H : HashFn) (t : MTree) (c : MCall) (n : Nat) :
    ∃ t' : MTree, c.cut H n t = t'.shared ∧ (t' = t ∨ t' = (c.alone H t).2 ∨
      (Akin t' t.unmade ∧ (c = .make ∨ t.ready = false))) := by
  by_cases hput : ∃ v, c = .put v
  · obtain ⟨v, rfl⟩ := hput
    cases n with
    | zero => exact ⟨t, rfl, .inl rfl⟩
    | succ n =>
      refine ⟨_, ?_, .inr (.inl rfl)⟩
      show (cutAfter H n (.done _) _).2 = _
      rw [cutAfter_done]
      rfl
  have hc : ∀ v, c ≠ .put v := fun v e => hput ⟨v, e⟩
  by_cases hr : c = .make ∨ t.ready = false
  · obtain ⟨hs, hg⟩ := cutAfter_stage H n (MakeStage.before (t := t) (call_asker H t.secure c hc)) (call_goes H t c)
    unfold MCall.cut
    generalize cutAfter H n (c.prog H t.secure) t.shared = x at hs hg
    obtain ⟨p, s⟩ := x
    simp only at hs hg ⊢
    cases hs with
    | before h => exact ⟨t, rfl, .inl rfl⟩
    | after h => exact ⟨_, (h.still hg).symm, .inr (.inl rfl)⟩
    | making hp hn h1 h2 h3 h4 =>
      obtain ⟨s1, s2, s3, s4⟩ := s
      simp only at h1 h2 h3 h4
      subst h1 h2 h3
      rcases h4 with h4 | ⟨ls, h4, ⟨u, h5⟩, hne⟩
      · exact ⟨t.unmade, by rw [h4]; rfl, .inr (.inr ⟨.refl _, hr⟩)⟩
      · refine ⟨{ t with upper := some u, ready := false }, by rw [h4, h5]; rfl, .inr (.inr ⟨⟨rfl, rfl, rfl, ?_⟩, hr⟩)⟩
        rintro (h | h)
        · cases h
        · exact absurd h hne
  · have hasks : c.Asks := by
      cases c with
      | put v => exact absurd rfl (hc v)
      | make => exact absurd (.inl rfl) hr
      | _ => trivial
    have hready : t.ready = true := by
      cases h : t.ready with
      | true => rfl
      | false => exact absurd (.inr h) hr
    exact ⟨t, cutAfter_still H n (call_asks H t c hready hasks), .inl rfl⟩

/-- What threads share determines the object. -/
theorem shared_inj {t t' : MTree} (h : t.shared = t'.shared) : t = t' := by
  obtain ⟨a, b, c, d⟩ := t
  obtain ⟨a', b', c', d'⟩ := t'
  simp only [MTree.shared, MState.mk.injEq] at h
  obtain ⟨rfl, rfl, h3, rfl⟩ := h
  have kept_inj : ∀ u v : List (List Bytes), u.map LevelRef.kept = v.map LevelRef.kept → u = v := by
    intro u
    induction u with
    | nil => intro v h; cases v with
      | nil => rfl
      | cons a v => simp at h
    | cons a u ih => intro v h; cases v with
      | nil => simp at h
      | cons b v =>
        simp only [List.map_cons, List.cons.injEq, LevelRef.kept.injEq] at h
        rw [h.1, ih v h.2]
  cases c with
  | none => cases c' with
    | none => rfl
    | some v => simp at h3
  | some u => cases c' with
    | none => simp at h3
    | some v =>
      simp only [Option.map_some, Option.some.injEq, List.append_cancel_right_eq] at h3
      rw [kept_inj u v h3]

theorem Akin.trans {t t' t'' : MTree} (h : Akin t t') (h' : Akin t' t'') : Akin t t'' :=
  ⟨h.secure.trans h'.secure, h.leaves.trans h'.leaves, h.ready.trans h'.ready,
    fun x => (h.upper x).trans (h'.upper (by rw [← h.ready, ← h.leaves]; exact x))⟩

theorem Akin.unmade {t t' : MTree} (h : Akin t t') : Akin t.unmade t'.unmade :=
  ⟨h.secure, h.leaves, rfl, fun x => by
    rcases x with x | x
    · cases x
    · exact h.upper (.inr x)⟩

/-- An object that has to be made again is as good as one that never was made. -/
theorem unmade_akin (H : HashFn) (secure : Bool) (ds : List Deed) :
    Akin (Deed.after H ds (MTree.new secure)).unmade (MTree.shaped H secure (Deed.values ds) none) := by
  rw [Deed.after_eq]
  refine ⟨rfl, rfl, rfl, ?_⟩
  rintro (h | h)
  · cases h
  · have hv : Deed.values ds = [] := by simpa [MTree.unmade, MTree.shaped] using h
    show (MTree.shaped H secure (Deed.values ds) (Deed.lastMade H ds)).upper = none
    cases hm : Deed.lastMade H ds with
    | none => rfl
    | some n =>
      have := Deed.lastMade_le H ds n hm
      rw [hv] at this
      have : n = 0 := by simpa using this
      subst this
      rfl

theorem cutAfter_of_goes (H : HashFn) {w : Bool} {p q : MProg α} {s s' : MState} (h : Goes H w p s q s') :
    ∃ k, cutAfter H k p s = (q, s') := by
  induction h with
  | here => exact ⟨0, rfl⟩
  | step _ _ ih => obtain ⟨k, hk⟩ := ih; exact ⟨k + 1, hk⟩

/-- `make_tree` does not look at the levels there are. -/
theorem make_goes_any (H : HashFn) {s : MState} (hne : s.leaves ≠ []) (next : MProg α) :
    Goes H true (MProg.make next) s next (built H s.secure s.leaves).shared := by
  unfold MProg.make
  refine .act (.act ?_)
  simp only [MProg.step]
  rw [if_pos (List.length_pos_iff.mpr hne)]
  refine .act ?_
  simp only [MProg.step]
  refine (rounds_goes (H := H) _ s.leaves.length [] s.leaves _ (by simp [refs]) (by simp) hne (by omega)).trans ?_
  refine .act ?_
  simp only [MProg.step, built, MTree.shared, refs, Option.map_some]
  exact .here

end Pymt
