import Verif.Spec.MerkleThreads
import Verif.Lemmas.MerkleBind

/-!
# Calls on a `MerkleTree` in steps
-/

namespace Pymt

open MTree

namespace MProg

variable {α : Type} {H : HashFn}

/-- Some number of steps without interruption; if `w` is false they change nothing. -/
inductive Goes (H : HashFn) (w : Bool) : MProg α → MState → MProg α → MState → Prop
  | here {p : MProg α} {s : MState} : Goes H w p s p s
  | step {p q : MProg α} {s s' : MState} : (w = true ∨ (p.step H s).2 = s) →
      Goes H w (p.step H s).1 (p.step H s).2 q s' → Goes H w p s q s'

variable {w : Bool}

theorem Goes.read {p q : MProg α} {s s' : MState} (hs : (p.step H s).2 = s) (h : Goes H w (p.step H s).1 s q s') :
    Goes H w p s q s' := .step (.inr hs) (by rw [hs]; exact h)

theorem Goes.act {p q : MProg α} {s s' : MState} (h : Goes H true (p.step H s).1 (p.step H s).2 q s') :
    Goes H true p s q s' := .step (.inl rfl) h

theorem Goes.trans {p q r : MProg α} {s s' s'' : MState} (h : Goes H w p s q s') (h' : Goes H w q s' r s'') :
    Goes H w p s r s'' := by
  induction h with
  | here => exact h'
  | step hw _ ih => exact .step hw (ih h')

theorem Goes.next {p : MProg α} {s s' : MState} {r : Py α} (h : Goes H w p s (.done r) s') :
    Goes H w (p.step H s).1 (p.step H s).2 (.done r) s' := by
  cases h with
  | here => exact .here
  | step _ h => exact h

theorem Goes.still {p q : MProg α} {s s' : MState} (h : Goes H false p s q s') : s' = s := by
  induction h with
  | here => rfl
  | step hw _ ih => rcases hw with hw | hw; cases hw; rw [ih, hw]

theorem Goes.next_still {p : MProg α} {s s' : MState} {r : Py α} (h : Goes H false p s (.done r) s') :
    (p.step H s).2 = s ∧ Goes H false (p.step H s).1 s (.done r) s := by
  have e := h.still
  have hn := h.next
  have e' := hn.still
  rw [e] at hn e'
  rw [← e'] at hn
  exact ⟨e'.symm, hn⟩

theorem Goes.done_eq {r r' : Py α} {s s' : MState} (h : Goes H w (.done r) s (.done r') s') : r = r' ∧ s = s' := by
  generalize hp : MProg.done r = p at h
  generalize hq : MProg.done r' = q at h
  induction h with
  | here => subst hp; exact ⟨(MProg.done.inj hq).symm, rfl⟩
  | step _ _ ih => subst hp; subst hq; exact ih rfl rfl

/-- The levels of a tree as threads see them. -/
def refs (L : List (List Bytes)) : List LevelRef := L.dropLast.map .kept ++ [.leaves]

theorem refs_length {L : List (List Bytes)} (h : L ≠ []) : (refs L).length = L.length := by
  have := List.length_pos_iff.mpr h
  simp [refs]; omega

theorem refs_cons {L : List (List Bytes)} (a : List Bytes) (h : L ≠ []) : refs (a :: L) = .kept a :: refs L := by
  simp [refs, List.dropLast_cons_of_ne_nil h]

theorem onLevel_goes {L : List (List Bytes)} {s : MState} {i : Nat} {l : List Bytes} (f : List Bytes → MProg α)
    (hs : s.levels = some (refs L)) (hl : L.getLast? = some s.leaves) (hi : L[i]? = some l) :
    Goes H w (onLevel i f s.levels) s (f l) s := by
  have hlt : i < L.length := (List.getElem?_eq_some_iff.mp hi).1
  simp only [hs, onLevel]
  by_cases h : i < L.length - 1
  · have : (refs L)[i]? = some (.kept l) := by
      unfold refs
      rw [List.getElem?_append_left (by simp; omega)]
      rw [List.getElem?_map, List.getElem?_dropLast, if_pos h, hi]
      rfl
    rw [this]
    exact .here
  · have hi' : i = L.length - 1 := by omega
    have : (refs L)[i]? = some .leaves := by
      unfold refs
      rw [List.getElem?_append_right (by simp; omega)]
      simp [hi']
    rw [this]
    refine .read rfl ?_
    have hll : s.leaves = l := by
      rw [List.getLast?_eq_getElem?, ← hi', hi] at hl
      exact (Option.some.inj hl).symm
    simp only [MProg.step, hll]
    exact .here

theorem withLevel_goes {L : List (List Bytes)} {s : MState} {i : Nat} {l : List Bytes} (f : List Bytes → MProg α)
    (hs : s.levels = some (refs L)) (hl : L.getLast? = some s.leaves) (hi : L[i]? = some l) :
    Goes H w (withLevel i f) s (f l) s := .read rfl (onLevel_goes f hs hl hi)

theorem withLevel_short {L : List LevelRef} {s : MState} {i : Nat} (f : List Bytes → MProg α)
    (hs : s.levels = some L) (hi : L[i]? = none) : Goes H w (withLevel i f) s (.done (.error .indexError)) s := by
  unfold withLevel
  refine .read rfl ?_
  simp only [MProg.step, hs, onLevel, hi]
  exact .here

theorem nextLevel_eq (H : HashFn) (l : List Bytes) (n : Nat) (solo : List Bytes)
    (hn : n = if l.length % 2 = 1 then l.length - 1 else l.length)
    (hs : solo = if l.length % 2 = 1 then l.getLast?.toList else []) :
    ((everyOther (l.take n)).zip (everyOther ((l.take n).drop 1))).map (fun (l, r) => H.hash (l ++ r)) ++ solo =
      MTree.nextLevel H l := by
  unfold MTree.nextLevel
  subst hn hs
  by_cases h : l.length % 2 = 1
  · simp [h]
  · simp [h]

theorem nextLevel_goes {L : List (List Bytes)} {s : MState} {l : List Bytes} (next : MProg α)
    (hs : s.levels = some (refs (l :: L))) (hl : (l :: L).getLast? = some s.leaves) (hne : l ≠ []) :
    Goes H true (nextLevel H next) s next { s with levels := some (refs (MTree.nextLevel H l :: l :: L)) } := by
  have w : ∀ f : List Bytes → MProg α, Goes H true (withLevel 0 f) s (f l) s := fun f => withLevel_goes f hs hl rfl
  have up : ∀ n solo, ((everyOther (l.take n)).zip (everyOther ((l.take n).drop 1))).map
        (fun (l, r) => H.hash (l ++ r)) ++ solo = MTree.nextLevel H l →
      Goes H true (pairUp H n solo next) s next { s with levels := some (refs (MTree.nextLevel H l :: l :: L)) } := by
    intro n solo e
    unfold pairUp
    refine (w _).trans ((w _).trans (.act ?_))
    simp only [MProg.step, hs]
    refine .act ?_
    simp only [MProg.step, e]
    rw [refs_cons (MTree.nextLevel H l) (by simp)]
    exact .here
  unfold nextLevel
  refine (w _).trans ?_
  by_cases h : l.length % 2 = 1
  · simp only [h, if_true]
    refine (w _).trans ?_
    obtain ⟨a, ha⟩ : ∃ a, l.getLast? = some a := by
      cases e : l.getLast? with
      | none => rw [List.getLast?_eq_none_iff] at e; exact absurd e hne
      | some a => exact ⟨a, rfl⟩
    simp only [ha]
    exact up _ _ (nextLevel_eq H l _ _ (by simp [h]) (by simp [h, ha]))
  · simp only [h, if_false]
    exact up _ _ (nextLevel_eq H l _ _ (by simp [h]) (by simp [h]))

theorem rounds_goes (next : MProg α) : ∀ (n : Nat) (L : List (List Bytes)) (l : List Bytes) (s : MState),
    s.levels = some (refs (l :: L)) → (l :: L).getLast? = some s.leaves → l ≠ [] → l.length ≤ n + 1 →
    Goes H true (.rounds next) s next { s with levels := some (refs (buildLevels H n (l :: L))) } := by
  intro n
  induction n with
  | zero =>
    intro L l s hs hl hne hn
    have h1 : ¬ l.length > 1 := by omega
    have := onLevel_goes (H := H) (w := true) (fun l => if l.length > 1 then nextLevel H (.rounds next) else next) hs hl
      (show (l :: L)[0]? = some l from rfl)
    rw [if_neg h1] at this
    simp only [buildLevels, ← hs]
    exact .act this
  | succ n ih =>
    intro L l s hs hl hne hn
    have hw := onLevel_goes (H := H) (w := true) (fun l => if l.length > 1 then nextLevel H (.rounds next) else next) hs hl
      (show (l :: L)[0]? = some l from rfl)
    rw [show buildLevels H (n + 1) (l :: L) =
      if l.length > 1 then buildLevels H n (MTree.nextLevel H l :: l :: L) else l :: L from rfl]
    by_cases h1 : l.length > 1
    · rw [if_pos h1] at hw ⊢
      refine .act (hw.trans ((nextLevel_goes _ hs hl hne).trans ?_))
      have hlen := nextLevel_length H l
      refine ih (l :: L) (MTree.nextLevel H l) { s with levels := some (refs (MTree.nextLevel H l :: l :: L)) } rfl ?_ ?_ ?_
      · simpa using hl
      · intro e; rw [e] at hlen; simp at hlen; omega
      · omega
    · rw [if_neg h1] at hw ⊢
      simp only [← hs]
      exact .act hw

/-- The levels of a tree. -/
theorem shared_levels (t : MTree) : t.shared.levels = t.levels.map refs := by
  unfold MTree.shared MTree.levels
  cases t.upper with
  | none => rfl
  | some u => simp [refs]

theorem buildLevels_last (H : HashFn) : ∀ (n : Nat) (L : List (List Bytes)), L ≠ [] →
    (buildLevels H n L).getLast? = L.getLast? ∧ buildLevels H n L ≠ []
  | 0, L, h => by simp [buildLevels, h]
  | n + 1, [], h => absurd rfl h
  | n + 1, top :: rest, _ => by
    unfold buildLevels
    by_cases h1 : top.length > 1
    · simp only [h1, if_true]
      obtain ⟨e, e'⟩ := buildLevels_last H n (MTree.nextLevel H top :: top :: rest) (by simp)
      exact ⟨by rw [e]; simp, e'⟩
    · simp [h1]

theorem make_goes (t : MTree) (next : MProg α) : Goes H true (make next) t.shared next (MTree.make H t).2.shared := by
  unfold make
  refine .act (.act ?_)
  simp only [MProg.step]
  have hlv : t.shared.leaves = t.leaves := rfl
  by_cases h : t.leaves.length > 0
  · have hne : t.leaves ≠ [] := List.length_pos_iff.mp h
    rw [if_pos (by rw [hlv]; exact h)]
    refine .act ?_
    simp only [MProg.step]
    refine (rounds_goes (H := H) _ t.leaves.length [] t.leaves _ (by simp [refs]) (by simp [hlv]) hne (by omega)).trans ?_
    refine .act ?_
    have e : (MTree.make H t).2 = built H t.secure t.leaves := by rw [make_eq H t hne]
    rw [e]
    simp only [MProg.step, built, MTree.shared, refs, Option.map_some]
    exact .here
  · rw [if_neg (by rw [hlv]; exact h)]
    refine .act ?_
    have e : (MTree.make H t).2 = { t with ready := true } := by simp [MTree.make, h]
    rw [e]
    exact .here

theorem shared_last {t : MTree} {L : List (List Bytes)} (h : t.levels = some L) : L.getLast? = some t.shared.leaves := by
  unfold MTree.levels at h
  cases hu : t.upper with
  | none => simp [hu] at h
  | some u =>
    simp only [hu, Option.map_some, Option.some.injEq] at h
    subst h
    simp [MTree.shared]

theorem levels_ne {t : MTree} {L : List (List Bytes)} (h : t.levels = some L) : L ≠ [] := by
  intro e; have := shared_last h; simp [e] at this

theorem level_goes {t : MTree} {L : List (List Bytes)} {i : Nat} (f : List Bytes → MProg α) (h : t.levels = some L) :
    Goes H w (withLevel i f) t.shared (match pyIndex L i with | .ok l => f l | .error e => .done (.error e)) t.shared := by
  have hs : t.shared.levels = some (refs L) := by rw [shared_levels, h]; rfl
  cases hi : L[i]? with
  | some l =>
    simp only [pyIndex, hi]
    exact withLevel_goes f hs (shared_last h) hi
  | none =>
    simp only [pyIndex, hi]
    refine withLevel_short f hs ?_
    rw [List.getElem?_eq_none_iff] at hi ⊢
    rw [refs_length (levels_ne h)]; exact hi

theorem rootRaw_goes (t : MTree) (f : Bytes → MProg α) :
    Goes H w (rootRaw f) t.shared (match t.rootRaw with | .ok b => f b | .error e => .done (.error e)) t.shared := by
  unfold rootRaw MTree.rootRaw
  refine .read rfl ?_
  simp only [MProg.step]
  have hr : t.shared.ready = t.ready := rfl
  rw [hr]
  cases t.ready with
  | false => exact .here
  | true =>
    simp only [if_true]
    refine .read rfl ?_
    simp only [MProg.step]
    cases hl : t.levels with
    | none =>
      have : t.shared.levels = none := by rw [shared_levels, hl]; rfl
      simp only [this]
      exact .here
    | some L =>
      have : t.shared.levels = some (refs L) := by rw [shared_levels, hl]; rfl
      simp only [this]
      refine (level_goes _ hl).trans ?_
      cases h0 : pyIndex L 0 with
      | error e => exact .here
      | ok l =>
        simp only [Except.bind_ok']
        cases hb : l[0]? with
        | none => simp only [pyIndex, hb, Except.bind_error']; exact .here
        | some b => simp only [pyIndex, hb, Except.bind_ok', Except.pure_ok']; exact .here

theorem root_goes (t : MTree) (f : Bytes → MProg α) :
    Goes H true (root f) t.shared (match (MTree.root H t).1 with | .ok b => f b | .error e => .done (.error e))
      (MTree.root H t).2.shared := by
  unfold root
  rw [root_apply]
  refine .act ?_
  simp only [MProg.step]
  have hr : t.shared.ready = t.ready := rfl
  rw [hr]
  cases t.ready with
  | true => simp only [if_true]; exact rootRaw_goes t f
  | false =>
    simp only [Bool.false_eq_true, if_false]
    exact (make_goes t _).trans (rootRaw_goes _ f)

theorem proofLoop_goes {t : MTree} {L : List (List Bytes)} (f : List (Bytes × Bytes) → MProg α) (h : t.levels = some L) :
    ∀ (x index : Nat) (acc : List (Bytes × Bytes)), x < L.length →
    Goes H w (proofLoop f x index acc) t.shared
      (match MTree.proofLoop ((L.take (x + 1)).drop 1).reverse index with
        | .ok ps => f (acc ++ ps) | .error e => .done (.error e)) t.shared := by
  intro x
  induction x with
  | zero =>
    intro index acc hx
    have : (L.take (0 + 1)).drop 1 = [] := by simp
    rw [this]
    simp only [proofLoop, List.reverse_nil, MTree.proofLoop, List.append_nil]
    exact .here
  | succ x ih =>
    intro index acc hx
    obtain ⟨level, hlevel⟩ : ∃ level, L[x + 1]? = some level := ⟨_, List.getElem?_eq_getElem hx⟩
    have e : ((L.take (x + 1 + 1)).drop 1).reverse = level :: ((L.take (x + 1)).drop 1).reverse := by
      rw [List.take_add_one (i := x + 1), hlevel]
      rw [List.drop_append_of_le_length (by simp; omega)]
      simp
    rw [e]
    simp only [proofLoop, MTree.proofLoop]
    refine (level_goes _ h).trans ?_
    have hp : pyIndex L (x + 1) = .ok level := by simp [pyIndex, hlevel]
    simp only [hp]
    by_cases hc : index = level.length - 1 ∧ level.length % 2 = 1
    · rw [if_pos hc, if_pos hc]
      exact ih (index / 2) acc (by omega)
    · rw [if_neg hc, if_neg hc]
      refine (level_goes _ h).trans ?_
      simp only [hp]
      cases hsib : level[if index % 2 = 1 then index - 1 else index + 1]? with
      | none => simp only [pyIndex, hsib, Except.bind_error']; exact .here
      | some sibling =>
        simp only [pyIndex, hsib, Except.bind_ok']
        refine (ih (index / 2) _ (by omega)).trans ?_
        cases MTree.proofLoop ((L.take (x + 1)).drop 1).reverse (index / 2) with
        | error e => simp only [Except.bind_error']; exact .here
        | ok ps => simp only [Except.bind_ok', Except.pure_ok', List.append_assoc, List.singleton_append]; exact .here

theorem proofRaw_goes (t : MTree) (key : Bytes) (f : List (Bytes × Bytes) → MProg α) :
    Goes H w (proofRaw (leafOf H t.secure key) f) t.shared
      (match t.proofRaw H key with | .ok ps => f ps | .error e => .done (.error e)) t.shared := by
  unfold proofRaw MTree.proofRaw
  refine .read rfl ?_
  simp only [MProg.step]
  have hlv : t.shared.leaves = t.leaves := rfl
  rw [hlv]
  cases t.leaves.idxOf? (leafOf H t.secure key) with
  | none => exact .here
  | some index =>
    refine .read rfl ?_
    simp only [MProg.step]
    have hr : t.shared.ready = t.ready := rfl
    cases hl : t.levels with
    | none =>
      have : t.shared.levels = none := by rw [shared_levels, hl]; rfl
      simp only [this]
      cases t.ready <;> exact .here
    | some L =>
      have hs : t.shared.levels = some (refs L) := by rw [shared_levels, hl]; rfl
      simp only [hs]
      refine .read rfl ?_
      simp only [MProg.step, hr]
      cases t.ready with
      | false => exact .here
      | true =>
        simp only [if_true]
        refine .read rfl (.read rfl ?_)
        simp only [MProg.step, hs]
        have hne := levels_ne hl
        have hpos := List.length_pos_iff.mpr hne
        refine (proofLoop_goes f hl _ index [] (by rw [refs_length hne]; omega)).trans ?_
        have e : ((L.take ((refs L).length - 1 + 1)).drop 1).reverse = L.reverse.dropLast := by
          rw [refs_length hne, List.take_of_length_le (by omega)]
          cases L with
          | nil => exact absurd rfl hne
          | cons a L => simp
        rw [e]
        simp only [List.nil_append]
        exact .here

theorem getPoi_eq (H : HashFn) (t : MTree) (now key : Bytes) : MTree.getPoi H now key t = match t.proofRaw H key with
    | .error e => (.error e, t)
    | .ok ps => match (MTree.root H t) with
      | (.ok r, t') => (.ok { type := mtPoi, timestamp := now, targetKey := key, trieRoot := r, proof := ps }, t')
      | (.error e, t') => (.error e, t') := by
  unfold MTree.getPoi
  simp only [M.bind_apply, M.get_apply, M.lift_apply, M.pure_apply]
  cases t.proofRaw H key with
  | error e => rfl
  | ok ps =>
    simp only []
    generalize MTree.root H t = x
    obtain ⟨x | x, t'⟩ := x <;> rfl

theorem verifyPoi_eq (H : HashFn) (t : MTree) (p : Proof (Bytes × Bytes)) : MTree.verifyPoi H p t = match checks H p with
    | .error e => (.error e, t)
    | .ok true => match MTree.root H t with
      | (.ok r, t') => (.ok (r == p.trieRoot), t')
      | (.error e, t') => (.error e, t')
    | .ok false => (.ok false, t) := by
  unfold MTree.verifyPoi checks
  simp only [M.bind_apply, M.lift_apply]
  cases decodeEntries p.proof with
  | error e => rfl
  | ok entries =>
  simp only [Except.bind_ok']
  cases decodeUtf8 p.trieRoot with
  | error e => rfl
  | ok text =>
  simp only [Except.bind_ok']
  cases fromHex text with
  | error e => rfl
  | ok mr =>
  simp only [Except.bind_ok']
  cases verifyRaw H entries p.targetKey mr with
  | error e =>
    simp only
    cases isValueError e <;> rfl
  | ok b =>
    cases b with
    | false => rfl
    | true =>
      simp only [M.bind_apply]
      generalize MTree.root H t = x
      obtain ⟨x | x, t'⟩ := x <;> rfl

/-- A call run without interruption does what it does in `Model/Merkle.lean`. -/
theorem call_goes (H : HashFn) (t : MTree) (c : MCall) :
    Goes H true (c.prog H t.secure) t.shared (.done (c.alone H t).1) (c.alone H t).2.shared := by
  cases c with
  | put v => exact .act .here
  | get i =>
    refine .act ?_
    have : (MTree.get t i).map MAns.bytes = (pyIndexInt t.leaves i).map fun b => .bytes (hexOf b) := by
      unfold MTree.get
      cases pyIndexInt t.leaves i <;> rfl
    simp only [MCall.alone, this]
    exact .here
  | count => exact .act .here
  | make => exact make_goes t _
  | root =>
    refine (root_goes t _).trans ?_
    simp only [MCall.alone]
    cases (MTree.root H t).1 <;> exact .here
  | poi now key =>
    refine (proofRaw_goes t key _).trans ?_
    simp only [MCall.alone, getPoi_eq]
    cases t.proofRaw H key with
    | error e => exact .here
    | ok ps =>
      refine (root_goes t _).trans ?_
      cases hr : MTree.root H t with
      | mk x t' => cases x <;> exact .here
  | verify p =>
    simp only [MCall.prog, MCall.alone, verifyPoi_eq, verify]
    cases checks H p with
    | error e => exact .here
    | ok b =>
      cases b with
      | false => exact .here
      | true =>
        refine (root_goes t _).trans ?_
        cases hr : MTree.root H t with
        | mk x t' => cases x <;> exact .here

theorem root_ready (t : MTree) (hr : t.ready = true) (f : Bytes → MProg α) :
    (MTree.root H t).2 = t ∧
    Goes H w (root f) t.shared (match (MTree.root H t).1 with | .ok b => f b | .error e => .done (.error e)) t.shared := by
  rw [root_apply, hr]
  refine ⟨rfl, ?_⟩
  unfold root
  refine .read rfl ?_
  simp only [MProg.step]
  have : t.shared.ready = true := hr
  rw [this]
  exact rootRaw_goes t f

/-- On a tree that is made, a call that asks something changes nothing. -/
theorem call_asks (H : HashFn) (t : MTree) (c : MCall) (hr : t.ready = true) (hc : c.Asks) :
    Goes H false (c.prog H t.secure) t.shared (.done (c.alone H t).1) t.shared := by
  cases c with
  | put v => exact absurd hc id
  | make => exact absurd hc id
  | get i =>
    refine .read rfl ?_
    have : (MTree.get t i).map MAns.bytes = (pyIndexInt t.leaves i).map fun b => .bytes (hexOf b) := by
      unfold MTree.get
      cases pyIndexInt t.leaves i <;> rfl
    simp only [MCall.alone, this]
    exact .here
  | count => exact .read rfl .here
  | root =>
    refine (root_ready t hr _).2.trans ?_
    simp only [MCall.alone]
    cases (MTree.root H t).1 <;> exact .here
  | poi now key =>
    refine (proofRaw_goes t key _).trans ?_
    simp only [MCall.alone, getPoi_eq]
    cases t.proofRaw H key with
    | error e => exact .here
    | ok ps =>
      refine (root_ready t hr _).2.trans ?_
      cases hr : MTree.root H t with
      | mk x t' => cases x <;> exact .here
  | verify p =>
    simp only [MCall.prog, MCall.alone, verifyPoi_eq, verify]
    cases checks H p with
    | error e => exact .here
    | ok b =>
      cases b with
      | false => exact .here
      | true =>
        refine (root_ready t hr _).2.trans ?_
        cases hr : MTree.root H t with
        | mk x t' => cases x <;> exact .here

end MProg
end Pymt
