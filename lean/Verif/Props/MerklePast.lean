import Verif.Lemmas.MerklePast
import Verif.Props.MerkleThreads

/-!
# Property C141: the past of a `MerkleTree` in the answers of its calls
-/

namespace Pymt.Props

open Pymt MTree

/-- C141, in full: what a tree answers, now and after further calls, depends on the values put in since the last reset
only. -/
def C141 : Prop :=
  ∀ (H : HashFn) (secure : Bool) (a b : List Deed), Deed.values a = Deed.values b →
    ∀ later : List Deed, Deed.outcomes H later (Deed.after H a (MTree.new secure)) =
      Deed.outcomes H later (Deed.after H b (MTree.new secure))

/-- C141 does not hold: somebody asked for the root before the last value was put in. -/
theorem C141_false : ¬ C141 := by
  intro h
  have := h toyHash false [.call (.put [1]), .call .root, .call (.put [2])] [.call (.put [1]), .call (.put [2])] rfl
    [.call .root]
  revert this
  decide +kernel

/-- Nor can the question be left out when it is only whether a proof is right. -/
theorem C141_verify :
    let p : Proof (Bytes × Bytes) := ⟨mtPoi, [], [1], hexOf [1], []⟩
    let a : List Deed := [.call (.put [1]), .call (.verify p), .call (.put [2])]
    let b : List Deed := [.call (.put [1]), .call (.put [2])]
    Deed.outcomes toyHash [.call .root] (Deed.after toyHash a (MTree.new false)) = [.ok (.bytes (hexOf [1]))] ∧
    Deed.outcomes toyHash [.call .root] (Deed.after toyHash b (MTree.new false)) = [.ok (.bytes (hexOf (rfcRoot toyHash [[1], [2]])))] := by
  decide +kernel

/-- Two trees with the same values, made when there were equally many of them (or both not made), answer alike. -/
theorem C141_partial (H : HashFn) (secure : Bool) (a b : List Deed) (hv : Deed.values a = Deed.values b)
    (hm : Deed.lastMade H a = Deed.lastMade H b) (later : List Deed) :
    Deed.outcomes H later (Deed.after H a (MTree.new secure)) =
      Deed.outcomes H later (Deed.after H b (MTree.new secure)) := by
  rw [Deed.after_eq, Deed.after_eq, hv, hm]

/-- After `reset_tree()` nothing of the past can be seen. -/
theorem C141_reset (H : HashFn) (secure : Bool) (a b later : List Deed) :
    Deed.outcomes H later (Deed.after H (a ++ .reset :: b) (MTree.new secure)) =
      Deed.outcomes H later (Deed.after H b (MTree.new secure)) := by
  refine C141_partial H secure _ _ ?_ ?_ later
  · simp [Deed.values, List.foldl_append]
  · simp [Deed.lastMade, List.foldl_append]

/-- A call that neither puts a value in nor makes the tree can be left out, if the tree had been made or the call does not
need the root. -/
theorem C141_asks_partial (H : HashFn) (secure : Bool) (a b later : List Deed) (c : MCall) (hc : c.Asks)
    (h : c.NeedsRoot H = false ∨ Deed.lastMade H a ≠ none) :
    Deed.outcomes H later (Deed.after H (a ++ .call c :: b) (MTree.new secure)) =
      Deed.outcomes H later (Deed.after H (a ++ b) (MTree.new secure)) := by
  have e : Deed.after H (a ++ [.call c]) (MTree.new secure) = Deed.after H a (MTree.new secure) := by
    have hl : Deed.lastMade H (a ++ [.call c]) = Deed.lastMade H a := by
      unfold Deed.lastMade at h ⊢
      rw [List.foldl_append]
      simp only [List.foldl_cons, List.foldl_nil]
      generalize List.foldl _ (0, (none : Option Nat)) a = s at h
      obtain ⟨n, made⟩ := s
      have rooty : (if c.NeedsRoot H = true then (n, some (made.getD n)) else (n, made)).2 = made := by
        rcases h with h | h
        · simp [h]
        · cases made with
          | none => exact absurd rfl h
          | some m => split <;> rfl
      cases c with
      | put v => exact absurd hc id
      | make => exact absurd hc id
      | _ => exact rooty
    have hv : Deed.values (a ++ [.call c]) = Deed.values a := by
      simp only [Deed.values, List.foldl_append, List.foldl_cons, List.foldl_nil]
      cases c with
      | put v => exact absurd hc id
      | make => exact absurd hc id
      | _ => rfl
    rw [Deed.after_eq, Deed.after_eq, hl, hv]
  have split : ∀ (x y : List Deed), Deed.after H (x ++ y) (MTree.new secure) = Deed.after H y (Deed.after H x (MTree.new secure)) := by
    intro x y; simp [Deed.after]
  rw [show a ++ .call c :: b = (a ++ [.call c]) ++ b by simp, split, e, ← split]

/-- The deeds that put these values into a new tree. -/
def puts (vs : List Bytes) : List Deed := vs.map fun v => .call (.put v)

theorem puts_facts (H : HashFn) (vs : List Bytes) : Deed.values (puts vs) = vs ∧ Deed.lastMade H (puts vs) = none := by
  have h1 : ∀ (vs l : List Bytes), (puts vs).foldl (fun l d => match d with
      | .call (.put v) => l ++ [v]
      | .reset => []
      | _ => l) l = l ++ vs := by
    intro vs
    induction vs with
    | nil => intro l; simp [puts]
    | cons v vs ih => intro l; simp only [puts, List.map_cons, List.foldl_cons] at ih ⊢; rw [ih]; simp
  have h2 : ∀ (vs : List Bytes) (n : Nat), ((puts vs).foldl (fun (s : Nat × Option Nat) d => match d with
    | .reset => (0, none)
    | .call (.put _) => (s.1 + 1, s.2)
    | .call .make => (s.1, some s.1)
    | .call c => if c.NeedsRoot H then (s.1, some (s.2.getD s.1)) else s) (n, none)).2 = none := by
    intro vs
    induction vs with
    | nil => intro l; rfl
    | cons v vs ih => intro n; simp only [puts, List.map_cons, List.foldl_cons] at ih ⊢; rw [ih]
  exact ⟨h1 vs [], h2 vs 0⟩

/-- So a tree that has not been made since the last reset is as good as a new one into which its values are put, and one
that was made when all its values were there is as good as a new one into which they are put and which is then made. -/
theorem C141_fresh_partial (H : HashFn) (secure : Bool) (a later : List Deed) :
    (Deed.lastMade H a = none → Deed.outcomes H later (Deed.after H a (MTree.new secure)) =
      Deed.outcomes H later (Deed.after H (puts (Deed.values a)) (MTree.new secure))) ∧
    (Deed.lastMade H a = some (Deed.values a).length → Deed.outcomes H later (Deed.after H a (MTree.new secure)) =
      Deed.outcomes H later (Deed.after H (puts (Deed.values a) ++ [.call .make]) (MTree.new secure))) := by
  obtain ⟨h1, h2⟩ := puts_facts H (Deed.values a)
  refine ⟨fun h => C141_partial H secure _ _ h1.symm (by rw [h, h2]) later, fun h => C141_partial H secure _ _ ?_ ?_ later⟩
  · rw [show Deed.values (puts (Deed.values a) ++ [.call .make]) = Deed.values (puts (Deed.values a)) by
      simp only [Deed.values, List.foldl_append]; rfl, h1]
  · rw [h]
    have := (Deed.shaped H secure (puts (Deed.values a))).1
    rw [h1] at this
    simp only [Deed.lastMade, List.foldl_append, List.foldl_cons, List.foldl_nil]
    exact congrArg some this.symm

/-- A tree with a past: values, a root, a reset, values again, made twice, a proof.  It was last made with all three values
there. -/
example :
    let a : List Deed := [.call (.put [7]), .call .root, .reset, .call (.put [1]), .call .make, .call (.put [2]), .call (.put [3]),
      .call (.get 0), .call .make, .call (.poi [] [2]), .call .root]
    Deed.values a = [[1], [2], [3]] ∧ Deed.lastMade toyHash a = some 3 ∧
      Deed.outcomes toyHash [.call .root, .call .count] (Deed.after toyHash a (MTree.new false)) =
        [.ok (.bytes (hexOf (rfcRoot toyHash [[1], [2], [3]]))), .ok (.nat 3)] := by decide +kernel
/-- The history that breaks C141: made when there was one value. -/
example : Deed.lastMade toyHash [.call (.put [1]), .call .root, .call (.put [2])] = some 1 ∧
    Deed.lastMade toyHash [.call (.put [1]), .call (.put [2])] = none := by decide +kernel

end Pymt.Props
