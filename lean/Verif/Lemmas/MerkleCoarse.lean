import Verif.Lemmas.MerkleLists
import Verif.Lemmas.MerkleInterrupt
import Verif.Lemmas.MerkleMade

/-!
# As long as nobody resets the tree, the model with lists as objects and the one without do the same
-/

namespace Pymt

open MTree

/-- A level, when list `o` is the list of leaves. -/
def LevelRef.inList (o : Nat) : LevelRef → HLevel
  | .kept l => .kept l
  | .leaves => .list o

/-- `self.levels`, when list `o` is the list of leaves. -/
def inLists (o : Nat) (x : Option (List LevelRef)) : Option (List HLevel) := x.map fun l => l.map (LevelRef.inList o)

variable {α : Type} {H : HashFn} {o n : Nat}

/-- The two programs do the same when list `o` is the list of leaves and there are at least `n` leaves. -/
inductive HFits (o : Nat) : Nat → MProg α → HProg α → Prop
  | done (n : Nat) (r : Py α) : HFits o n (.done r) (.done r)
  | leaves {n : Nat} {f : List Bytes → MProg α} {g : List Bytes → HProg α} :
      (∀ l, n ≤ l.length → HFits o l.length (f l) (g l)) → HFits o n (.leaves f) (.leaves fun o => .list o g)
  | list {n : Nat} {f : List Bytes → MProg α} {g : List Bytes → HProg α} :
      (∀ l, n ≤ l.length → HFits o l.length (f l) (g l)) → HFits o n (.leaves f) (.list o g)
  | append {n : Nat} {p : MProg α} {q : HProg α} (v : Bytes) : HFits o n p q →
      HFits o n (.append v p) (.leaves fun o => .append o v q)
  | appendTo {n : Nat} {p : MProg α} {q : HProg α} (v : Bytes) : HFits o n p q → HFits o n (.append v p) (.append o v q)
  | levels {n : Nat} {f : Option (List LevelRef) → MProg α} {g : Option (List HLevel) → HProg α} :
      (∀ x, HFits o n (f x) (g (inLists o x))) → HFits o n (.levels f) (.levels g)
  | setLevels {n : Nat} {p : MProg α} {q : HProg α} (l : List LevelRef) : HFits o n p q →
      HFits o n (.setLevels l p) (.setLevels (inLists o (some l)) q)
  | makeLevels {n : Nat} {p : MProg α} {q : HProg α} : HFits o n p q →
      HFits o n (.setLevels [.leaves] p) (.leaves fun o => .setLevels (some [.list o]) q)
  | ready {n : Nat} {f : Bool → MProg α} {g : Bool → HProg α} : (∀ x, HFits o n (f x) (g x)) → HFits o n (.ready f) (.ready g)
  | setReady {n : Nat} {p : MProg α} {q : HProg α} (b : Bool) : HFits o n p q → HFits o n (.setReady b p) (.setReady b q)
  | rounds {n : Nat} {p : MProg α} {q : HProg α} : HFits o n p q → HFits o n (.rounds p) (.rounds q)

namespace HFits

theorem more {p : MProg α} {q : HProg α} (h : HFits o n p q) : ∀ {n' : Nat}, n ≤ n' → HFits o n' p q := by
  induction h with
  | done n r => intro n' _; exact .done n' r
  | leaves h _ => intro n' hn; exact .leaves fun l hl => h l (by omega)
  | list h _ => intro n' hn; exact .list fun l hl => h l (by omega)
  | append v _ ih => intro n' hn; exact .append v (ih hn)
  | appendTo v _ ih => intro n' hn; exact .appendTo v (ih hn)
  | levels _ ih => intro n' hn; exact .levels fun x => ih x hn
  | setLevels l _ ih => intro n' hn; exact .setLevels l (ih hn)
  | makeLevels _ ih => intro n' hn; exact .makeLevels (ih hn)
  | ready _ ih => intro n' hn; exact .ready fun x => ih x hn
  | setReady b _ ih => intro n' hn; exact .setReady b (ih hn)
  | rounds _ ih => intro n' hn; exact .rounds (ih hn)

theorem onLevel {i : Nat} {f : List Bytes → MProg α} {g : List Bytes → HProg α} (h : ∀ l, HFits o n (f l) (g l))
    (x : Option (List LevelRef)) : HFits o n (MProg.onLevel i f x) (HProg.onLevel i g (inLists o x)) := by
  cases x with
  | none => exact .done _ _
  | some ls =>
    simp only [MProg.onLevel, HProg.onLevel, inLists, Option.map_some, List.getElem?_map]
    cases ls[i]? with
    | none => exact .done _ _
    | some r =>
      cases r with
      | kept l => exact h l
      | leaves => exact .list fun l hl => (h l).more hl

theorem withLevel {i : Nat} {f : List Bytes → MProg α} {g : List Bytes → HProg α} (h : ∀ l, HFits o n (f l) (g l)) :
    HFits o n (MProg.withLevel i f) (HProg.withLevel i g) := .levels fun x => onLevel h x

theorem onLeaves {f : List Bytes → MProg α} {g : List Bytes → HProg α} (h : ∀ l, n ≤ l.length → HFits o l.length (f l) (g l)) :
    HFits o n (.leaves f) (HProg.onLeaves g) := .leaves h

theorem pairUp {p : MProg α} {q : HProg α} (m : Nat) (solo : List Bytes) (h : HFits o n p q) :
    HFits o n (MProg.pairUp H m solo p) (HProg.pairUp H m solo q) := by
  refine withLevel fun l => withLevel fun l' => .levels fun x => ?_
  cases x with
  | none => exact .done _ _
  | some ls => exact .setLevels (.kept _ :: ls) h

theorem nextLevel {p : MProg α} {q : HProg α} (h : HFits o n p q) : HFits o n (MProg.nextLevel H p) (HProg.nextLevel H q) := by
  refine withLevel fun l => ?_
  by_cases hl : l.length % 2 = 1
  · simp only [hl, if_true]
    refine withLevel fun l' => ?_
    cases l'.getLast? with
    | none => exact .done _ _
    | some solo => exact pairUp _ _ h
  · simp only [hl, if_false]
    exact pairUp _ _ h

theorem round {p : MProg α} {q : HProg α} (h : HFits o n p q) (x : Option (List LevelRef)) :
    HFits o n (MProg.round H p x) (HProg.round H q (inLists o x)) := by
  refine onLevel (fun l => ?_) x
  by_cases hl : l.length > 1
  · simp only [hl, if_true]; exact nextLevel (.rounds h)
  · simp only [hl, if_false]; exact h

theorem make {p : MProg α} {q : HProg α} (h : HFits o n p q) : HFits o n (MProg.make p) (HProg.make q) := by
  refine .setReady _ (onLeaves fun l hl => ?_)
  by_cases h0 : l.length > 0
  · simp only [h0, if_true]; exact .makeLevels (.rounds (.setReady _ (h.more hl)))
  · simp only [h0, if_false]; exact .setReady _ (h.more hl)

theorem rootRaw {f : Bytes → MProg α} {g : Bytes → HProg α} (h : ∀ b, HFits o n (f b) (g b)) :
    HFits o n (MProg.rootRaw f) (HProg.rootRaw g) := by
  refine .ready fun r => ?_
  cases r with
  | false => exact .done _ _
  | true =>
    refine .levels fun x => ?_
    cases x with
    | none => exact .done _ _
    | some ls =>
      refine withLevel fun l => ?_
      cases l[0]? with
      | none => exact .done _ _
      | some b => exact h _

theorem root {f : Bytes → MProg α} {g : Bytes → HProg α} (h : ∀ b, HFits o n (f b) (g b)) :
    HFits o n (MProg.root f) (HProg.root g) := by
  refine .ready fun r => ?_
  cases r with
  | true => exact rootRaw h
  | false => exact make (rootRaw h)

theorem proofLoop {f : List (Bytes × Bytes) → MProg α} {g : List (Bytes × Bytes) → HProg α} (h : ∀ b, HFits o n (f b) (g b)) :
    ∀ (x index : Nat) (acc : List (Bytes × Bytes)), HFits o n (MProg.proofLoop f x index acc) (HProg.proofLoop g x index acc)
  | 0, _, acc => h acc
  | x + 1, index, acc => by
    refine withLevel fun l => ?_
    by_cases hc : index = l.length - 1 ∧ l.length % 2 = 1
    · simp only [hc, and_self, if_true]; exact proofLoop h x _ acc
    · simp only [hc, if_false]
      refine withLevel fun l' => ?_
      cases l'[if index % 2 = 1 then index - 1 else index + 1]? with
      | none => exact .done _ _
      | some s => exact proofLoop h x _ _

theorem proofRaw {f : List (Bytes × Bytes) → MProg α} {g : List (Bytes × Bytes) → HProg α} (h : ∀ b, HFits o n (f b) (g b))
    (leaf : Bytes) : HFits o n (MProg.proofRaw leaf f) (HProg.proofRaw leaf g) := by
  refine onLeaves fun l hl => ?_
  cases hi : l.idxOf? leaf with
  | none => exact .done _ _
  | some index =>
    have hlt := idxOf?_lt hi
    refine .levels fun x => ?_
    cases x with
    | none => exact .done _ _
    | some ls =>
      refine .ready fun r => ?_
      cases r with
      | false => exact .done _ _
      | true =>
        refine onLeaves fun l' hl' => ?_
        rw [if_pos (by omega)]
        refine .levels fun x => ?_
        cases x with
        | none => exact .done _ _
        | some ls' =>
          have : ls'.length - 1 = (ls'.map (LevelRef.inList o)).length - 1 := by simp
          simp only [inLists, Option.map_some, ← this]
          exact proofLoop (fun b => (h b).more (by omega)) _ _ _

theorem call (secure : Bool) (c : MCall) : HFits o n (c.prog H secure) (HCall.prog H secure (.call c)) := by
  cases c with
  | put v => exact .append _ (.done _ _)
  | get i => exact onLeaves fun l _ => .done _ _
  | count => exact onLeaves fun l _ => .done _ _
  | make => exact make (.done _ _)
  | root => exact root fun b => .done _ _
  | poi now key => exact proofRaw (fun ps => root fun b => .done _ _) _
  | verify p =>
    simp only [MCall.prog, HCall.prog, MProg.verify, HProg.verify]
    cases MProg.checks H p with
    | error e => exact .done _ _
    | ok b =>
      cases b with
      | false => exact .done _ _
      | true => exact root fun b => .done _ _

end HFits

/-- The two states are the same, when list `o` is the list of leaves. -/
structure HState.Is (o : Nat) (s : MState) (s' : HState) : Prop where
  secure : s'.secure = s.secure
  leaves : s'.leaves = o
  list : s'.lists[o]? = some s.leaves
  levels : s'.levels = inLists o s.levels
  ready : s'.ready = s.ready

theorem HState.Is.shows {s' : HState} {t : MTree} (h : HState.Is o t.shared s') : s'.Shows t := by
  refine ⟨h.secure, ?_, ?_, h.ready⟩
  · rw [h.leaves]; exact h.list
  · rw [h.levels, h.leaves]
    simp only [MTree.shared, inLists]
    cases t.upper with
    | none => rfl
    | some u => simp [LevelRef.inList]

theorem HState.Shows.is {s' : HState} {t : MTree} (h : s'.Shows t) : HState.Is s'.leaves t.shared s' := by
  refine ⟨h.secure, rfl, h.leaves, ?_, h.ready⟩
  rw [h.levels]
  simp only [MTree.shared, inLists]
  cases t.upper with
  | none => rfl
  | some u => simp [LevelRef.inList]

/-- One access of the one is one or two of the other. -/
theorem HFits.step {p : MProg α} {q : HProg α} {s : MState} {s' : HState} (h : HFits o n p q) (hs : HState.Is o s s')
    (hn : n ≤ s.leaves.length) :
    (∃ r, p = .done r ∧ q = .done r) ∨
    ((∀ r, q ≠ .done r) ∧ (∀ r, p ≠ .done r) ∧ (q.step H s').2 = s' ∧ HFits o n p (q.step H s').1) ∨
    ((∀ r, q ≠ .done r) ∧ (∀ r, p ≠ .done r) ∧ HState.Is o (p.step H s).2 (q.step H s').2 ∧
      s.leaves.length ≤ (p.step H s).2.leaves.length ∧
      ∃ n', n' ≤ (p.step H s).2.leaves.length ∧ HFits o n' (p.step H s).1 (q.step H s').1) := by
  cases h with
  | done n r => exact .inl ⟨r, rfl, rfl⟩
  | leaves h =>
    refine .inr (.inl ⟨fun r h => (by cases h), fun r h => (by cases h), rfl, ?_⟩)
    show HFits o n _ (HProg.list s'.leaves _)
    rw [hs.leaves]
    exact .list h
  | list h =>
    refine .inr (.inr ⟨fun r h => (by cases h), fun r h => (by cases h), hs, Nat.le_refl _, s.leaves.length, Nat.le_refl _, ?_⟩)
    simp only [MProg.step, HProg.step, hs.list, Option.getD_some]
    exact h _ hn
  | append v h =>
    refine .inr (.inl ⟨fun r h => (by cases h), fun r h => (by cases h), rfl, ?_⟩)
    show HFits o n _ (HProg.append s'.leaves v _)
    rw [hs.leaves]
    exact .appendTo v h
  | appendTo v h =>
    refine .inr (.inr ⟨fun r h => (by cases h), fun r h => (by cases h), ?_, by simp [MProg.step], n, by simp [MProg.step]; omega, h⟩)
    refine ⟨hs.secure, hs.leaves, ?_, hs.levels, hs.ready⟩
    simp only [HProg.step, MProg.step, List.getElem?_modify, hs.list, Option.map_eq_map, Option.map_some, if_true]
  | levels h =>
    refine .inr (.inr ⟨fun r h => (by cases h), fun r h => (by cases h), hs, Nat.le_refl _, n, hn, ?_⟩)
    simp only [MProg.step, HProg.step, hs.levels]
    exact h _
  | setLevels l h =>
    exact .inr (.inr ⟨fun r h => (by cases h), fun r h => (by cases h), ⟨hs.secure, hs.leaves, hs.list, rfl, hs.ready⟩,
      Nat.le_refl _, n, hn, h⟩)
  | makeLevels h =>
    refine .inr (.inl ⟨fun r h => (by cases h), fun r h => (by cases h), rfl, ?_⟩)
    show HFits o n _ (HProg.setLevels (some [.list s'.leaves]) _)
    rw [hs.leaves]
    exact .setLevels [.leaves] h
  | ready h =>
    refine .inr (.inr ⟨fun r h => (by cases h), fun r h => (by cases h), hs, Nat.le_refl _, n, hn, ?_⟩)
    simp only [MProg.step, HProg.step, hs.ready]
    exact h _
  | setReady b h =>
    exact .inr (.inr ⟨fun r h => (by cases h), fun r h => (by cases h), ⟨hs.secure, hs.leaves, hs.list, hs.levels, rfl⟩,
      Nat.le_refl _, n, hn, h⟩)
  | rounds h =>
    refine .inr (.inr ⟨fun r h => (by cases h), fun r h => (by cases h), hs, Nat.le_refl _, n, hn, ?_⟩)
    simp only [MProg.step, HProg.step, hs.levels]
    exact h.round _


/-! ### Threads that never reset the tree -/

/-- The two threads are at the same point. -/
def Fitting (n : Nat) (th : MThread) (th' : HThread) : Prop :=
  th'.outs = th.outs ∧ th'.rest = th.rest.map .call ∧
    match th.cur, th'.cur with
    | none, none => True
    | some p, some q => HFits 0 n p q
    | _, _ => False

theorem Fitting.more {n n' : Nat} {th : MThread} {th' : HThread} (h : Fitting n th th') (hn : n ≤ n') : Fitting n' th th' := by
  obtain ⟨h1, h2, h3⟩ := h
  refine ⟨h1, h2, ?_⟩
  cases hc : th.cur with
  | none => cases hc' : th'.cur with
    | none => trivial
    | some q => rw [hc, hc'] at h3; exact h3
  | some p => cases hc' : th'.cur with
    | none => rw [hc, hc'] at h3; exact h3
    | some q => rw [hc, hc'] at h3; exact HFits.more h3 hn

theorem coarse_run {t : MTree} (calls : Nat → List MCall) (sched : List Nat) :
    ∃ sched' : List Nat,
      HState.Is 0 ((MWorld.new t calls).run H sched').tree ((HWorld.new t fun j => (calls j).map .call).run H sched).tree ∧
      (∀ j, Fitting ((MWorld.new t calls).run H sched').tree.leaves.length (((MWorld.new t calls).run H sched').threads j)
        (((HWorld.new t fun j => (calls j).map .call).run H sched).threads j)) ∧
      ∀ q, ∃ q', ∀ j,
        (((HWorld.new t fun j => (calls j).map .call).run H (sched.take q)).threads j).outs =
          (((MWorld.new t calls).run H (sched'.take q')).threads j).outs ∧
        (((HWorld.new t fun j => (calls j).map .call).run H (sched.take q)).threads j).rest =
          (((MWorld.new t calls).run H (sched'.take q')).threads j).rest.map .call := by
  induction sched using snocRec with
  | nil =>
    refine ⟨[], ⟨rfl, rfl, rfl, ?_, rfl⟩, fun j => ⟨rfl, rfl, trivial⟩, fun q => ⟨0, fun j => by rw [List.take_nil]; exact ⟨rfl, rfl⟩⟩⟩
    show t.objects.levels = inLists 0 t.shared.levels
    simp only [MTree.objects, MTree.shared, inLists]
    cases t.upper with
    | none => rfl
    | some u => simp [LevelRef.inList]
  | append_singleton sched j ih =>
    obtain ⟨sched', hs, hth, htime⟩ := ih
    suffices hstep : ∃ more : List Nat,
        HState.Is 0 ((MWorld.new t calls).run H (sched' ++ more)).tree
          (((HWorld.new t fun j => (calls j).map .call).run H sched).step H j).tree ∧
        ∀ i, Fitting ((MWorld.new t calls).run H (sched' ++ more)).tree.leaves.length
          (((MWorld.new t calls).run H (sched' ++ more)).threads i)
          ((((HWorld.new t fun j => (calls j).map .call).run H sched).step H j).threads i) by
      obtain ⟨more, g1, g2⟩ := hstep
      rw [HWorld.run_snoc]
      refine ⟨sched' ++ more, g1, g2, fun q => ?_⟩
      by_cases hq : q ≤ sched.length
      · obtain ⟨q', h⟩ := htime q
        refine ⟨min q' sched'.length, fun i => ?_⟩
        rw [List.take_append_of_le_length hq, List.take_append_of_le_length (Nat.min_le_right _ _), List.take_eq_take_min.symm]
        exact h i
      · refine ⟨(sched' ++ more).length, fun i => ?_⟩
        rw [List.take_of_length_le (by simp; omega), List.take_length, HWorld.run_snoc]
        exact ⟨(g2 i).1, (g2 i).2.1⟩
    clear htime
    have snoc := MWorld.run_snoc H sched' j (MWorld.new t calls)
    generalize (HWorld.new t fun j => (calls j).map .call).run H sched = w at hs hth
    generalize hv : (MWorld.new t calls).run H sched' = v at hs hth snoc
    obtain ⟨h1, h2, h3⟩ := hth j
    have one : ∀ v' : MWorld, v.step H j = v' → ∀ w' : HWorld, HState.Is 0 v'.tree w'.tree →
        (∀ i, Fitting v'.tree.leaves.length (v'.threads i) (w'.threads i)) →
        ∃ more : List Nat, HState.Is 0 ((MWorld.new t calls).run H (sched' ++ more)).tree w'.tree ∧
          ∀ j, Fitting ((MWorld.new t calls).run H (sched' ++ more)).tree.leaves.length (((MWorld.new t calls).run H (sched' ++ more)).threads j)
            (w'.threads j) := by
      intro v' hv' w' a b
      refine ⟨[j], ?_, ?_⟩ <;> rw [snoc, hv']
      · exact a
      · exact b
    have zero : ∀ w' : HWorld, HState.Is 0 v.tree w'.tree → (∀ i, Fitting v.tree.leaves.length (v.threads i) (w'.threads i)) →
        ∃ more : List Nat, HState.Is 0 ((MWorld.new t calls).run H (sched' ++ more)).tree w'.tree ∧
          ∀ j, Fitting ((MWorld.new t calls).run H (sched' ++ more)).tree.leaves.length (((MWorld.new t calls).run H (sched' ++ more)).threads j)
            (w'.threads j) := by
      intro w' a b
      refine ⟨[], ?_, ?_⟩ <;> rw [List.append_nil, hv]
      · exact a
      · exact b
    rcases HWorld.step_cases H j w with ⟨_, _, e⟩ | ⟨c', rest', e1, e2, e⟩ | ⟨r, e1, e⟩ | ⟨q, e1, e2, e⟩
    · rw [e]; exact zero w hs hth
    · -- a call begins
      rcases MWorld.step_cases H j v with ⟨_, f2, _⟩ | ⟨c, rest, f1, f2, f⟩ | ⟨r', f1, _⟩ | ⟨p, f1, _, _⟩
      · rw [h2, f2] at e2; cases e2
      · rw [h2, f2, List.map_cons] at e2
        cases e2
        refine one _ f _ ?_ ?_
        · rw [e]; exact hs
        · intro i
          rw [e]
          show Fitting v.tree.leaves.length _ _
          rw [MWorld.threads_set, HWorld.threads_set]
          by_cases hij : i = j
          · rw [if_pos hij, if_pos hij]
            refine ⟨h1, rfl, ?_⟩
            rw [hs.secure]
            exact HFits.call _ c
          · rw [if_neg hij, if_neg hij]; exact hth i
      · rw [f1, e1] at h3; exact h3.elim
      · rw [f1, e1] at h3; exact h3.elim
    · -- a call ends
      cases hc : (v.threads j).cur with
      | none => rw [hc, e1] at h3; exact h3.elim
      | some p =>
        rw [hc, e1] at h3
        have h3' : HFits 0 v.tree.leaves.length p (.done r) := h3
        generalize hq : HProg.done r = q at h3'
        cases h3' with
        | done n r' =>
          cases hq
          rcases MWorld.step_cases H j v with ⟨f1, _, _⟩ | ⟨c, rest, f1, _, _⟩ | ⟨r', f1, f⟩ | ⟨p, f1, f2, _⟩
          · rw [hc] at f1; cases f1
          · rw [hc] at f1; cases f1
          · rw [hc] at f1
            cases f1
            refine one _ f _ (by rw [e]; exact hs) ?_
            intro i
            rw [e]
            show Fitting v.tree.leaves.length _ _
            rw [MWorld.threads_set, HWorld.threads_set]
            by_cases hij : i = j
            · rw [if_pos hij, if_pos hij]
              exact ⟨by simp only [h1], h2, trivial⟩
            · rw [if_neg hij, if_neg hij]; exact hth i
          · rw [hc] at f1
            cases f1
            exact absurd rfl (f2 _)
        | _ => cases hq
    · -- a call goes on
      cases hc : (v.threads j).cur with
      | none => rw [hc, e1] at h3; exact h3.elim
      | some p =>
        rw [hc, e1] at h3
        rcases HFits.step (H := H) h3 hs (Nat.le_refl _) with ⟨r, _, k⟩ | ⟨_, k1, k2, k3⟩ | ⟨_, k1, k2, k3, n', k4, k5⟩
        · exact absurd k (e2 r)
        · refine zero _ ?_ ?_
          · rw [e]
            show HState.Is 0 v.tree (q.step H w.tree).2
            rw [k2]; exact hs
          · intro i
            rw [e]
            show Fitting v.tree.leaves.length _ ((w.setThread j _).threads i)
            rw [HWorld.threads_set]
            by_cases hij : i = j
            · subst hij
              rw [if_pos rfl]
              refine ⟨h1, h2, ?_⟩
              rw [hc]; exact k3
            · rw [if_neg hij]; exact hth i
        · rcases MWorld.step_cases H j v with ⟨f1, _, _⟩ | ⟨c, rest, f1, _, _⟩ | ⟨r', f1, f⟩ | ⟨p', f1, f2, f⟩
          · rw [hc] at f1; cases f1
          · rw [hc] at f1; cases f1
          · rw [hc] at f1; cases f1; exact absurd rfl (k1 _)
          · rw [hc] at f1
            cases f1
            refine one _ f _ (by rw [e]; exact k2) ?_
            intro i
            rw [e]
            show Fitting (p.step H v.tree).2.leaves.length ((v.setThread j _).threads i) ((w.setThread j _).threads i)
            rw [MWorld.threads_set, HWorld.threads_set]
            by_cases hij : i = j
            · rw [if_pos hij, if_pos hij]
              exact ⟨h1, h2, k5.more k4⟩
            · rw [if_neg hij, if_neg hij]; exact (hth i).more k3


/-! ### Calls that are not interrupted -/

/-- Some number of steps without interruption. -/
inductive HGoes (H : HashFn) : HProg α → HState → HProg α → HState → Prop
  | here {p : HProg α} {s : HState} : HGoes H p s p s
  | step {p q : HProg α} {s s' : HState} : HGoes H (p.step H s).1 (p.step H s).2 q s' → HGoes H p s q s'

theorem HGoes.trans {p q r : HProg α} {s s' s'' : HState} (h : HGoes H p s q s') (h' : HGoes H q s' r s'') :
    HGoes H p s r s'' := by
  induction h with
  | here => exact h'
  | step _ ih => exact .step (ih h')

theorem HGoes.next {p : HProg α} {s s' : HState} {r : Py α} (h : HGoes H p s (.done r) s') :
    HGoes H (p.step H s).1 (p.step H s).2 (.done r) s' := by
  cases h with
  | here => exact .here
  | step h => exact h

theorem HGoes.done_eq {r r' : Py α} {s s' : HState} (h : HGoes H (.done r) s (.done r') s') : r = r' ∧ s = s' := by
  generalize hp : HProg.done r = p at h
  generalize hq : HProg.done r' = q at h
  induction h with
  | here => subst hp; exact ⟨(HProg.done.inj hq).symm, rfl⟩
  | step _ ih => subst hp; subst hq; exact ih rfl rfl

theorem HGoes.alone {p q : HProg α} {s s' : HState} (h : HGoes H p s q s') : ∃ n, p.alone H n s = (q, s') := by
  induction h with
  | here => exact ⟨0, rfl⟩
  | step _ ih => obtain ⟨n, hn⟩ := ih; exact ⟨n + 1, hn⟩

/-- One access of the one is some of the other. -/
theorem HFits.steps {p : MProg α} {q : HProg α} {s : MState} {s' : HState} (h : HFits o n p q) (hs : HState.Is o s s')
    (hn : n ≤ s.leaves.length) : ∃ n' q' s2, HGoes H q s' q' s2 ∧ HState.Is o (p.step H s).2 s2 ∧
      n' ≤ (p.step H s).2.leaves.length ∧ HFits o n' (p.step H s).1 q' := by
  have two : ∀ q', (q.step H s').2 = s' → (q.step H s').1 = q' →
      (HState.Is o (p.step H s).2 (q'.step H s').2 ∧ ∃ n', n' ≤ (p.step H s).2.leaves.length ∧
        HFits o n' (p.step H s).1 (q'.step H s').1) →
      ∃ n' q' s2, HGoes H q s' q' s2 ∧ HState.Is o (p.step H s).2 s2 ∧
        n' ≤ (p.step H s).2.leaves.length ∧ HFits o n' (p.step H s).1 q' := by
    intro q' a b c
    obtain ⟨c1, n', c2, c3⟩ := c
    exact ⟨n', _, _, .step (by rw [a, b]; exact .step .here), c1, c2, c3⟩
  rcases HFits.step (H := H) h hs hn with ⟨r, e1, e2⟩ | ⟨_, _, k2, k3⟩ | ⟨_, _, k2, _, n', k4, k5⟩
  · subst e1 e2
    exact ⟨n, _, _, .here, hs, hn, h⟩
  · cases h with
    | @leaves _ f g h =>
      refine two (.list o g) rfl (by simp only [HProg.step, hs.leaves]) ⟨hs, s.leaves.length, Nat.le_refl _, ?_⟩
      simp only [MProg.step, HProg.step, hs.list, Option.getD_some]
      exact h _ hn
    | append v h =>
      refine two (.append o v _) rfl (by simp only [HProg.step, hs.leaves]) ⟨?_, n, by simp [MProg.step]; omega, h⟩
      refine ⟨hs.secure, hs.leaves, ?_, hs.levels, hs.ready⟩
      simp only [HProg.step, MProg.step, List.getElem?_modify, hs.list, Option.map_eq_map, Option.map_some, if_true]
    | makeLevels h =>
      exact two (.setLevels (some [.list o]) _) rfl (by simp only [HProg.step, hs.leaves])
        ⟨⟨hs.secure, hs.leaves, hs.list, rfl, hs.ready⟩, n, hn, h⟩
    | done n r => exact ⟨n, _, _, .here, hs, hn, .done n r⟩
    | list h =>
      refine ⟨s.leaves.length, _, _, .step .here, hs, Nat.le_refl _, ?_⟩
      simp only [MProg.step, HProg.step, hs.list, Option.getD_some]
      exact h _ hn
    | appendTo v h =>
      refine ⟨n, _, _, .step .here, ⟨hs.secure, hs.leaves, ?_, hs.levels, hs.ready⟩, by simp [MProg.step]; omega, h⟩
      simp only [HProg.step, MProg.step, List.getElem?_modify, hs.list, Option.map_eq_map, Option.map_some, if_true]
    | levels h =>
      refine ⟨n, _, _, .step .here, hs, hn, ?_⟩
      simp only [MProg.step, HProg.step, hs.levels]
      exact h _
    | setLevels l h => exact ⟨n, _, _, .step .here, ⟨hs.secure, hs.leaves, hs.list, rfl, hs.ready⟩, hn, h⟩
    | ready h =>
      refine ⟨n, _, _, .step .here, hs, hn, ?_⟩
      simp only [MProg.step, HProg.step, hs.ready]
      exact h _
    | setReady b h => exact ⟨n, _, _, .step .here, ⟨hs.secure, hs.leaves, hs.list, hs.levels, rfl⟩, hn, h⟩
    | rounds h =>
      refine ⟨n, _, _, .step .here, hs, hn, ?_⟩
      simp only [MProg.step, HProg.step, hs.levels]
      exact h.round _
  · exact ⟨n', _, _, .step .here, k2, k4, k5⟩

theorem HFits.goes {w : Bool} {p p' : MProg α} {s s2 : MState} (hg : MProg.Goes H w p s p' s2) : ∀ {n : Nat} {q : HProg α} {s' : HState},
    HFits o n p q → HState.Is o s s' → n ≤ s.leaves.length →
    ∃ n' q' s2', HGoes H q s' q' s2' ∧ HState.Is o s2 s2' ∧ n' ≤ s2.leaves.length ∧ HFits o n' p' q' := by
  induction hg with
  | here => intro n q s' h hs hn; exact ⟨n, q, s', .here, hs, hn, h⟩
  | step _ _ ih =>
    intro n q s' h hs hn
    obtain ⟨n', q', s2', a, b, c, d⟩ := HFits.steps (H := H) h hs hn
    obtain ⟨n'', q'', s3', a', b', c', d'⟩ := ih d b c
    exact ⟨n'', q'', s3', a.trans a', b', c', d'⟩

theorem HFits.of_done {r : Py α} {q : HProg α} (h : HFits o n (.done r) q) : q = .done r := by
  cases h; rfl

/-- A call run without interruption does what it does in `Model/Merkle.lean`. -/
theorem hcall_goes {s : HState} {t : MTree} (hs : s.Shows t) (c : HCall) :
    ∃ s2, HGoes H (c.prog H t.secure) s (.done (c.alone H t).1) s2 ∧ s2.Shows (c.alone H t).2 := by
  cases c with
  | reset =>
    refine ⟨{ s with lists := s.lists ++ [[]], leaves := s.lists.length, levels := none, ready := false },
      .step (.step (.step .here)), hs.secure, ?_, rfl, rfl⟩
    show (s.lists ++ [[]])[s.lists.length]? = some []
    simp
  | call c =>
    obtain ⟨n', q', s2, a, b, _, d⟩ := HFits.goes (MProg.call_goes H t c) (HFits.call (o := s.leaves) (n := 0) t.secure c) hs.is (Nat.zero_le _)
    rw [d.of_done] at a
    exact ⟨s2, a, b.shows⟩

/-- `make_tree` does not look at the levels there are. -/
theorem hmake_goes {s : HState} {L : List Bytes} (hl : s.lists[s.leaves]? = some L) (hne : L ≠ []) :
    ∃ s2, HGoes H (HCall.prog H s.secure (.call .make)) s (.done (.ok .none)) s2 ∧ s2.Shows (built H s.secure L) := by
  obtain ⟨n', q', s2, a, b, _, d⟩ := HFits.goes (H := H)
    (MProg.rounds_goes (H := H) (.setReady true (.done (.ok MAns.none))) L.length [] L ⟨s.secure, L, some [.leaves], false⟩ (by simp [MProg.refs])
      (by simp) hne (by omega))
    (show HFits s.leaves 0 (.rounds (.setReady true (.done (.ok .none)))) (.rounds (.setReady true (.done (.ok MAns.none)))) from
      .rounds (.setReady _ (.done _ _)))
    (s' := { s with ready := false, levels := some [.list s.leaves] })
    ⟨rfl, rfl, hl, rfl, rfl⟩ (Nat.zero_le _)
  obtain ⟨n'', q'', s3, a', b', _, d'⟩ := HFits.goes (H := H) (show MProg.Goes H true _ _ (.done (.ok .none)) _ from .act .here) d b (by assumption)
  rw [d'.of_done] at a'
  refine ⟨s3, .step (.step (.step ?_)), ?_⟩
  · have hpos : (s.lists[s.leaves]?.getD []).length > 0 := by rw [hl]; exact List.length_pos_iff.mpr hne
    simp only [HCall.prog, HProg.make, HProg.onLeaves, HProg.step]
    rw [if_pos hpos]
    exact .step (.step (a.trans a'))
  · have e : (MProg.step H (MProg.setReady true (MProg.done (Except.ok MAns.none)))
        { secure := s.secure, leaves := L, levels := some (MProg.refs (buildLevels H L.length [L])), ready := false }).2 =
        (built H s.secure L).shared := by
      simp only [MProg.step, built, MTree.shared, MProg.refs, Option.map_some]
    rw [e] at b'
    exact b'.shows

/-- The attribute `self.leaves` always is a list. -/
theorem leaves_lt (sched : List Nat) {t : MTree} {calls : Nat → List HCall} :
    ((HWorld.new t calls).run H sched).tree.leaves < ((HWorld.new t calls).run H sched).tree.lists.length := by
  induction sched using snocRec with
  | nil => exact Nat.zero_lt_one
  | append_singleton sched j ih =>
    rw [HWorld.run_snoc]
    generalize (HWorld.new t calls).run H sched = w at ih
    rcases HWorld.step_cases H j w with ⟨_, _, e⟩ | ⟨c', rest', _, _, e⟩ | ⟨r, _, e⟩ | ⟨q, _, _, e⟩
    · rw [e]; exact ih
    · rw [e]; exact ih
    · rw [e]; exact ih
    · rw [e]
      show (q.step H w.tree).2.leaves < (q.step H w.tree).2.lists.length
      cases q <;> simp [HProg.step, ih]

/-! ### Calls made one at a time -/

/-- The calls so far have been made one at a time, in this order. -/
def HOrdered (H : HashFn) (t : MTree) (calls : Nat → List HCall) (order : List (Nat × HCall)) (w : HWorld) : Prop :=
  (∀ j, (w.threads j).outs = ofClient j (HCall.inTurn H order t)) ∧
  ((∀ j, (w.threads j).cur = none ∧ calls j = ofClient j order ++ (w.threads j).rest) ∧
      w.tree.Shows (HCall.afterTurns H order t) ∨
    ∃ k c q, (w.threads k).cur = some q ∧ (∀ j, j ≠ k → (w.threads j).cur = none) ∧
      (∀ j, calls j = ofClient j (order ++ [(k, c)]) ++ (w.threads j).rest) ∧
      ∃ s2, HGoes H q w.tree (.done (c.alone H (HCall.afterTurns H order t)).1) s2 ∧
        s2.Shows (c.alone H (HCall.afterTurns H order t)).2)

theorem hordered_run {t : MTree} {calls : Nat → List HCall} (sched : List Nat)
    (hl : (HWorld.new t calls).OneAtATime H sched) :
    ∃ order, HOrdered H t calls order ((HWorld.new t calls).run H sched) := by
  induction sched using snocRec with
  | nil =>
    refine ⟨[], fun j => rfl, .inl ⟨fun j => ⟨rfl, rfl⟩, rfl, rfl, rfl, rfl⟩⟩
  | append_singleton sched j ih =>
    have hl' : (HWorld.new t calls).OneAtATime H sched := by
      intro q i k hik
      have := hl (min q sched.length) i k hik
      rw [List.take_append_of_le_length (by omega)] at this
      by_cases hq : q ≤ sched.length
      · rwa [Nat.min_eq_left hq] at this
      · rw [Nat.min_eq_right (by omega), List.take_of_length_le (Nat.le_refl _)] at this
        rw [List.take_of_length_le (by omega)]; exact this
    obtain ⟨order, ho⟩ := ih hl'
    have hnow := hl (sched ++ [j]).length
    rw [List.take_of_length_le (Nat.le_refl _)] at hnow
    rw [HWorld.run_snoc] at hnow ⊢
    generalize (HWorld.new t calls).run H sched = w at ho hnow
    obtain ⟨houts, hst⟩ := ho
    rcases HWorld.step_cases H j w with ⟨_, _, e⟩ | ⟨c, rest, e1, e2, e⟩ | ⟨r, e1, e⟩ | ⟨p, e1, e2, e⟩
    · rw [e]; exact ⟨order, houts, hst⟩
    · rw [e] at hnow ⊢
      refine ⟨order, ?_, ?_⟩
      · intro i
        rw [HWorld.threads_set]
        split
        · next h => subst h; exact houts _
        · exact houts i
      · rcases hst with ⟨hidle, htree⟩ | ⟨k, d, p, h1, h2, h3, h4⟩
        · right
          refine ⟨j, c, _, by rw [HWorld.threads_set, if_pos rfl], ?_, ?_, ?_⟩
          · intro i hi; rw [HWorld.threads_set, if_neg hi]; exact (hidle i).1
          · intro i
            rw [HWorld.threads_set, ofClient_append, ofClient_one, (hidle i).2]
            by_cases h : i = j
            · subst h; simp [e2]
            · have : ¬ j = i := fun e => h e.symm
              simp [h, this]
          · show ∃ s2, HGoes H (c.prog H w.tree.secure) w.tree _ s2 ∧ _
            rw [htree.secure]
            exact hcall_goes htree c
        · exfalso
          by_cases h : k = j
          · subst h; rw [h1] at e1; cases e1
          · rcases hnow k j h with hn | hn
            · rw [HWorld.threads_set, if_neg h, h1] at hn; cases hn
            · rw [HWorld.threads_set, if_pos rfl] at hn; cases hn
    · rcases hst with ⟨hidle, _⟩ | ⟨k, d, p, h1, h2, h3, s2, h4, h5⟩
      · rw [(hidle j).1] at e1; cases e1
      have hk : k = j := by
        refine Classical.byContradiction fun h => ?_
        rw [h2 j (fun e => h e.symm)] at e1; cases e1
      subst hk
      rw [h1] at e1
      cases e1
      obtain ⟨q1, q2⟩ := h4.done_eq
      rw [e]
      refine ⟨order ++ [(k, d)], ?_, .inl ⟨?_, ?_⟩⟩
      · intro i
        rw [HWorld.threads_set, HCall.inTurn_append, ofClient_append]
        show _ = _ ++ ofClient i [(k, (d.alone H (HCall.afterTurns H order t)).1)]
        rw [ofClient_one]
        by_cases h : i = k
        · subst h; simp [houts, q1]
        · have : ¬ k = i := fun e => h e.symm
          simp [h, this, houts]
      · intro i
        rw [HWorld.threads_set]
        by_cases h : i = k
        · subst h; rw [if_pos rfl]; exact ⟨rfl, h3 _⟩
        · rw [if_neg h]; exact ⟨h2 i h, h3 i⟩
      · rw [HCall.afterTurns_append]
        show w.tree.Shows (d.alone H (HCall.afterTurns H order t)).2
        rw [q2]; exact h5
    · rcases hst with ⟨hidle, _⟩ | ⟨k, d, p', h1, h2, h3, s2, h4, h5⟩
      · rw [(hidle j).1] at e1; cases e1
      have hk : k = j := by
        refine Classical.byContradiction fun h => ?_
        rw [h2 j (fun e => h e.symm)] at e1; cases e1
      subst hk
      rw [h1] at e1
      cases e1
      rw [e]
      refine ⟨order, ?_, .inr ⟨k, d, _, ?_, ?_, ?_, s2, h4.next, h5⟩⟩
      · intro i
        show ((w.setThread k _).threads i).outs = _
        rw [HWorld.threads_set]
        split
        · next h => subst h; exact houts _
        · exact houts i
      · show ((w.setThread k _).threads k).cur = _
        rw [HWorld.threads_set, if_pos rfl]
      · intro i hi
        show ((w.setThread k _).threads i).cur = _
        rw [HWorld.threads_set, if_neg hi]; exact h2 i hi
      · intro i
        show calls i = _ ++ ((w.setThread k _).threads i).rest
        rw [HWorld.threads_set]
        split
        · next h => subst h; exact h3 _
        · exact h3 i

end Pymt
