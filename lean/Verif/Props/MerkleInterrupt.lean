import Verif.Lemmas.MerkleInterrupt
import Verif.Props.MerklePast

/-!
# Properties C142, C143: calls on a `MerkleTree` that an exception ends early
-/

namespace Pymt.Props

open Pymt MTree

/-! ### C142: all calls but `reset_tree` -/

/-- C142, in full: when an exception ends a call on a tree early, the tree is as good as one on which the call was not made,
or as one on which it was. -/
def C142 : Prop :=
  ∀ (H : HashFn) (secure : Bool) (ds : List Deed) (c : MCall) (n : Nat),
    let t := Deed.after H ds (MTree.new secure)
    ∃ t' : MTree, c.cut H n t = t'.shared ∧
      ((∀ later, Deed.outcomes H later t' = Deed.outcomes H later t) ∨
        (∀ later, Deed.outcomes H later t' = Deed.outcomes H later (c.alone H t).2))

/-- C142 does not hold: when `make_tree` is called on a made tree and ends early, proofs can no longer be had. -/
theorem C142_false : ¬ C142 := by
  intro h
  obtain ⟨t', h1, h2⟩ := h toyHash false [.call (.put [1]), .call .make] .make 1
  have e : t' = ⟨false, [[1]], some [], false⟩ := by
    refine shared_inj (h1.symm.trans ?_)
    decide +kernel
  subst e
  rcases h2 with h2 | h2
  · have := h2 [.call (.poi [] [1])]
    revert this
    decide +kernel
  · have := h2 [.call (.poi [] [1])]
    revert this
    decide +kernel

/-- The tree is as good as one on which the call was not made, or as one on which it was; or, if the call was to make the
tree (`make_tree`, or a call on a tree that is not made), as a new one into which the same values are put. -/
theorem C142_partial (H : HashFn) (secure : Bool) (ds : List Deed) (c : MCall) (n : Nat) :
    let t := Deed.after H ds (MTree.new secure)
    ∃ t' : MTree, c.cut H n t = t'.shared ∧
      ((∀ later, Deed.outcomes H later t' = Deed.outcomes H later t) ∨
        (∀ later, Deed.outcomes H later t' = Deed.outcomes H later (c.alone H t).2) ∨
        ((c = .make ∨ Deed.lastMade H ds = none) ∧ ∀ later, Deed.outcomes H later t' =
          Deed.outcomes H later (Deed.after H (puts (Deed.values ds)) (MTree.new secure)))) := by
  intro t
  obtain ⟨t', h1, h2⟩ := call_cut H t c n
  refine ⟨t', h1, ?_⟩
  rcases h2 with h2 | h2 | ⟨h2, h3⟩
  · exact .inl fun later => by rw [h2]
  · exact .inr (.inl fun later => by rw [h2])
  · refine .inr (.inr ⟨?_, fun later => ?_⟩)
    · rcases h3 with h3 | h3
      · exact .inl h3
      · refine .inr ?_
        rw [show t = MTree.shaped H secure (Deed.values ds) (Deed.lastMade H ds) from Deed.after_eq H secure ds] at h3
        cases hm : Deed.lastMade H ds with
        | none => rfl
        | some m => rw [hm] at h3; cases h3
    · rw [(h2.trans (unmade_akin H secure ds)).outcomes H later]
      rw [Deed.after_eq, (puts_facts H _).1, (puts_facts H _).2]

/-- If the tree is not made yet, C142 holds: an interrupted call is as good as not made, or made. -/
theorem C142_unmade_partial (H : HashFn) (secure : Bool) (ds : List Deed) (hm : Deed.lastMade H ds = none) (c : MCall) (n : Nat) :
    let t := Deed.after H ds (MTree.new secure)
    ∃ t' : MTree, c.cut H n t = t'.shared ∧
      ((∀ later, Deed.outcomes H later t' = Deed.outcomes H later t) ∨
        (∀ later, Deed.outcomes H later t' = Deed.outcomes H later (c.alone H t).2)) := by
  intro t
  obtain ⟨t', h1, h2 | h2 | ⟨_, h2⟩⟩ := C142_partial H secure ds c n
  · exact ⟨t', h1, .inl h2⟩
  · exact ⟨t', h1, .inr h2⟩
  · exact ⟨t', h1, .inl fun later => by rw [h2 later, (C141_fresh_partial H secure ds later).1 hm]⟩

/-- Calls one after another, any number of them ended early: the tree is as good as one with a history in which no call
was ended early; the values in it are those whose `put` came to its access. -/
theorem C142_many (H : HashFn) (secure : Bool) (cs : List (MCall × Option Nat)) (t' : MTree)
    (h : BrokenRun H cs (MTree.new secure) t') :
    ∃ ds : List Deed, Deed.values ds = keptValues cs ∧
      ∀ later, Deed.outcomes H later t' = Deed.outcomes H later (Deed.after H ds (MTree.new secure)) := by
  have main : ∀ {cs : List (MCall × Option Nat)} {t t' : MTree}, BrokenRun H cs t t' → ∀ ds0 : List Deed,
      Akin t (Deed.after H ds0 (MTree.new secure)) →
      ∃ ds, Deed.values ds = Deed.values ds0 ++ keptValues cs ∧ Akin t' (Deed.after H ds (MTree.new secure)) := by
    intro cs t t' h
    have values_snoc : ∀ (ds : List Deed) (c : MCall), Deed.values (ds ++ [.call c]) = Deed.values ds ++ c.value?.toList := by
      intro ds c
      simp only [Deed.values, List.foldl_append, List.foldl_cons, List.foldl_nil]
      cases c <;> simp [MCall.value?]
    have after_snoc : ∀ (ds : List Deed) (c : MCall), Deed.after H (ds ++ [.call c]) (MTree.new secure) =
        (c.alone H (Deed.after H ds (MTree.new secure))).2 := by
      intro ds c; simp [Deed.after, Deed.does]
    induction h with
    | nil => intro ds0 h0; exact ⟨ds0, by simp [keptValues], h0⟩
    | @full c cs t t' _ ih =>
      intro ds0 h0
      obtain ⟨ds, h1, h2⟩ := ih (ds0 ++ [.call c]) (by rw [after_snoc]; exact (h0.call H c).2)
      refine ⟨ds, ?_, h2⟩
      rw [h1, values_snoc, List.append_assoc]
      congr 1
      unfold keptValues
      rw [List.filterMap_cons]
      cases c <;> rfl
    | @cut c n cs t mid t' hc _ ih =>
      intro ds0 h0
      obtain ⟨mid', h1, h2⟩ := call_cut H t c n
      have e : mid = mid' := shared_inj (hc.symm.trans h1)
      subst e
      by_cases hput : ∃ v, c = .put v
      · obtain ⟨v, rfl⟩ := hput
        cases n with
        | zero =>
          have : mid = t := shared_inj hc.symm
          subst this
          obtain ⟨ds, h3, h4⟩ := ih ds0 h0
          exact ⟨ds, by rw [h3]; rfl, h4⟩
        | succ n =>
          have : mid = ((MCall.put v).alone H t).2 := by
            refine shared_inj (hc.symm.trans ?_)
            show (MProg.cutAfter H n (.done _) _).2 = _
            rw [cutAfter_done]
            rfl
          subst this
          obtain ⟨ds, h3, h4⟩ := ih (ds0 ++ [.call (.put v)]) (by rw [after_snoc]; exact (h0.call H _).2)
          refine ⟨ds, ?_, h4⟩
          rw [h3, values_snoc, List.append_assoc]
          rfl
      · have hk : keptValues ((c, some n) :: cs) = keptValues cs := by
          unfold keptValues
          rw [List.filterMap_cons]
          cases c with
          | put v => exact absurd ⟨v, rfl⟩ hput
          | _ => cases n <;> rfl
        have hv : c.value? = none := by
          cases c with
          | put v => exact absurd ⟨v, rfl⟩ hput
          | _ => rfl
        rw [hk]
        rcases h2 with h2 | h2 | ⟨h2, _⟩
        · subst h2; exact ih ds0 h0
        · subst h2
          obtain ⟨ds, h3, h4⟩ := ih (ds0 ++ [.call c]) (by rw [after_snoc]; exact (h0.call H c).2)
          refine ⟨ds, ?_, h4⟩
          rw [h3, values_snoc, hv]
          simp
        · obtain ⟨ds, h3, h4⟩ := ih (puts (Deed.values ds0)) (by
            rw [Deed.after_eq, (puts_facts H _).1, (puts_facts H _).2]
            exact h2.trans (h0.unmade.trans (unmade_akin H secure ds0)))
          exact ⟨ds, by rw [h3, (puts_facts H _).1], h4⟩
  obtain ⟨ds, h1, h2⟩ := main h [] (.refl _)
  exact ⟨ds, by rw [h1]; rfl, fun later => h2.outcomes H later⟩

/-- `get_merkle_root` on a tree of three values, ended early after 16 accesses: one level is made.  The tree is not ready;
who asks for the root again gets the right one. -/
example :
    let t := Deed.after toyHash (puts [[1], [2], [3]]) (MTree.new false)
    let t' : MTree := ⟨false, [[1], [2], [3]], some [[[2, 104], [3]]], false⟩
    MCall.cut toyHash 16 .root t = t'.shared ∧
      Deed.outcomes toyHash [.call .root] t' = [.ok (.bytes (hexOf (rfcRoot toyHash [[1], [2], [3]])))] := by decide +kernel
/-- A run with two calls ended early. -/
example : BrokenRun toyHash [(.put [1], none), (.put [2], some 0), (.make, some 2), (.put [3], some 1)] (MTree.new false)
    ⟨false, [[1], [3]], none, false⟩ ∧ keptValues [(.put [1], none), (.put [2], some 0), (.make, some 2), (.put [3], some 1)] = [[1], [3]] :=
  ⟨.full (.cut (mid := ⟨false, [[1]], none, false⟩) (by decide +kernel) (.cut (mid := ⟨false, [[1]], none, false⟩) (by decide +kernel)
    (.cut (by decide +kernel) .nil))), rfl⟩

/-! ### C143: `reset_tree` -/

/-- C143, in full: when an exception ends `reset_tree()` early, the tree is as good as before, or as new. -/
def C143 : Prop :=
  ∀ (H : HashFn) (secure : Bool) (ds : List Deed) (n : Nat),
    ∃ t' : MTree, (Deed.after H ds (MTree.new secure)).shared.resetAfter n = t'.shared ∧
      ((∀ later, Deed.outcomes H later t' = Deed.outcomes H later (Deed.after H ds (MTree.new secure))) ∨
        (∀ later, Deed.outcomes H later t' = Deed.outcomes H later (MTree.new secure)))

/-- C143 does not hold: the flag `is_ready` is set last; a tree that was made gives no root any more, although it has
leaves. -/
theorem C143_false : ¬ C143 := by
  intro h
  obtain ⟨t', h1, h2⟩ := h toyHash false [.call (.put [1]), .call .make] 2
  have e : t' = ⟨false, [], none, true⟩ := by
    refine shared_inj (h1.symm.trans ?_)
    decide +kernel
  subst e
  rcases h2 with h2 | h2
  · have := h2 [.call (.put [2]), .call .root]
    revert this
    decide +kernel
  · have := h2 [.call (.put [2]), .call .root]
    revert this
    decide +kernel

/-- One assignment earlier, it has no leaves and still gives the root of those it had: this is the state, and the program of
`get_merkle_root` comes to the old root. -/
theorem C143_ghost :
    let t := Deed.after toyHash [.call (.put [1]), .call (.put [2]), .call .make] (MTree.new false)
    let s := t.shared.resetAfter 1
    s.leaves = [] ∧ ∃ k, MProg.cutAfter toyHash k (MCall.root.prog toyHash false) s =
      (.done (.ok (.bytes (hexOf (rfcRoot toyHash [[1], [2]])))), s) := by
  refine ⟨by decide +kernel, 4, ?_⟩
  rfl

/-- If the tree was not made, C143 holds. -/
theorem C143_unmade_partial (H : HashFn) (secure : Bool) (ds : List Deed) (hm : Deed.lastMade H ds = none) (n : Nat) :
    ∃ t' : MTree, (Deed.after H ds (MTree.new secure)).shared.resetAfter n = t'.shared ∧
      ((∀ later, Deed.outcomes H later t' = Deed.outcomes H later (Deed.after H ds (MTree.new secure))) ∨
        (∀ later, Deed.outcomes H later t' = Deed.outcomes H later (MTree.new secure))) := by
  have e := Deed.after_eq H secure ds
  rw [hm] at e
  rw [e]
  match n with
  | 0 => exact ⟨_, rfl, .inl fun _ => rfl⟩
  | 1 => exact ⟨MTree.new secure, rfl, .inr fun _ => rfl⟩
  | 2 => exact ⟨MTree.new secure, rfl, .inr fun _ => rfl⟩
  | n + 3 => exact ⟨MTree.new secure, rfl, .inr fun _ => rfl⟩

/-- Resetting again repairs every tree. -/
theorem C143_again_partial (t : MTree) (n : Nat) : (t.shared.resetAfter n).resetAfter 3 = (MTree.new t.secure).shared := by
  match n with
  | 0 => rfl
  | 1 => rfl
  | 2 => rfl
  | n + 3 => rfl

/-- So does `make_tree()`, when something has been put in: the tree becomes that of the new values alone. -/
theorem C143_make_partial (H : HashFn) (t : MTree) (n : Nat) (hn : n ≠ 0) (vs : List Bytes) (hv : vs ≠ []) :
    let s := t.shared.resetAfter n
    ∃ k, MProg.cutAfter H k (MCall.make.prog H t.secure) { s with leaves := s.leaves ++ vs.map (leafOf H t.secure) } =
      (.done (.ok .none), (Deed.after H (puts vs ++ [.call .make]) (MTree.new t.secure)).shared) := by
  intro s
  have all : ∀ n, n ≠ 0 → (t.shared.resetAfter n).leaves = [] ∧ (t.shared.resetAfter n).secure = t.secure
    | 0, h => absurd rfl h
    | 1, _ => ⟨rfl, rfl⟩
    | 2, _ => ⟨rfl, rfl⟩
    | n + 3, _ => ⟨rfl, rfl⟩
  have hs : s.leaves = [] ∧ s.secure = t.secure := all n hn
  have e : Deed.after H (puts vs ++ [.call .make]) (MTree.new t.secure) = built H t.secure (vs.map (leafOf H t.secure)) := by
    have : Deed.after H (puts vs ++ [.call .make]) (MTree.new t.secure) =
        (MTree.make H (Deed.after H (puts vs) (MTree.new t.secure))).2 := by simp [Deed.after, Deed.does, MCall.alone]
    rw [this, Deed.after_eq, (puts_facts H vs).1, (puts_facts H vs).2, make_eq _ _ (by simpa [MTree.shaped] using hv)]
    rfl
  have := cutAfter_of_goes H (make_goes_any H (s := { s with leaves := s.leaves ++ vs.map (leafOf H t.secure) })
    (by simpa [hs.1] using hv) (MProg.done (.ok MAns.none)))
  rw [e]
  simp only [hs.1, hs.2, List.nil_append] at this ⊢
  exact this

/-- The three states on the way, for a made tree of two values. -/
example :
    let t := Deed.after toyHash [.call (.put [1]), .call (.put [2]), .call .make] (MTree.new false)
    t.shared.resetAfter 1 = ⟨false, [], some [.kept [[2, 104]], .kept [[1], [2]]], true⟩ ∧
    t.shared.resetAfter 2 = ⟨false, [], none, true⟩ ∧ t.shared.resetAfter 3 = (MTree.new false).shared := by decide +kernel

end Pymt.Props
