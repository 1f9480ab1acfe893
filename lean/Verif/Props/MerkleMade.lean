import Verif.Lemmas.MerkleMade
import Verif.Props.MerkleThreads

/-!
# Property C140: threads that use a `MerkleTree` that is made, while others add leaves
-/

namespace Pymt.Props

open Pymt MTree

/-- C140: on a tree that is made, calls from any number of threads, `put` included but not `make_tree`, have in any
interleaving the outcomes and the effect they have one after another in some order; this order has the calls of each thread
in the order in which the thread makes them, and a call that ended before another began comes before it. -/
theorem C140 (H : HashFn) (secure : Bool) (ops : List MOp) (hr : (MTree.after H secure ops).ready = true)
    (calls : Nat → List MCall) (hc : ∀ j, MCall.make ∉ calls j) (sched : List Nat) :
    let t := MTree.after H secure ops
    let w := (MWorld.new t calls).run H sched
    ∃ order : List (Nat × MCall), w.tree = (MCall.afterTurns H order t).shared ∧ MCall.InTime H (MWorld.new t calls) calls sched order ∧
      (∀ j, ofClient j order <+: calls j ∧ (w.threads j).outs <+: ofClient j (MCall.inTurn H order t)) ∧
      (w.Over → ∀ j, ofClient j order = calls j ∧ (w.threads j).outs = ofClient j (MCall.inTurn H order t)) := by
  intro t w
  obtain ⟨order, L, _, hat, ht, h2, htime⟩ := orderly_run (H := H) (t := t) (calls := calls)
    (fun j c hcj L hL => Undecided.call hr (after_upper H secure ops) hL c (fun e => hc j (e ▸ hcj))) sched
  exact ⟨order, by rw [hat]; exact ht, htime, orderly_outcomes h2⟩

/-- Calls made one after another on a made tree, without `make_tree`: whoever asks for the root gets the same root. -/
theorem inTurn_root (H : HashFn) (t : MTree) (hr : t.ready = true) (hu : t.upper ≠ none → t.leaves ≠ []) (j : Nat) :
    ∀ (order : List (Nat × MCall)) (L : List Bytes), t.leaves <+: L → (∀ e ∈ order, e.2 ≠ .make) → ∀ p : Nat,
      (ofClient j order)[p]? = some .root →
      (ofClient j (MCall.inTurn H order (t.holding L)))[p]? = some (t.rootRaw.map MAns.bytes) := by
  intro order
  induction order with
  | nil => intro L hL hm p h; simp [ofClient] at h
  | cons e order ih =>
    intro L hL hm p h
    obtain ⟨i, c⟩ := e
    have hc : c ≠ .make := hm (i, c) (by simp)
    have keep : ∃ L', t.leaves <+: L' ∧ (c.alone H (t.holding L)).2 = t.holding L' := by
      cases c with
      | make => exact absurd rfl hc
      | put v => exact ⟨L ++ [leafOf H t.secure v], hL.trans (List.prefix_append _ _), rfl⟩
      | get i => exact ⟨L, hL, rfl⟩
      | count => exact ⟨L, hL, rfl⟩
      | root => exact ⟨L, hL, by simp only [MCall.alone, root_holding (H := H) hr hu hL]⟩
      | poi now k => exact ⟨L, hL, by rw [poi_alone hr hu hL]⟩
      | verify q =>
        refine ⟨L, hL, ?_⟩
        simp only [MCall.alone, MProg.verifyPoi_eq, root_holding (H := H) hr hu hL]
        cases MProg.checks H q with
        | error e => rfl
        | ok b => cases b <;> cases t.rootRaw <;> rfl
    obtain ⟨L', hL', e'⟩ := keep
    have hi := ih L' hL' (fun e he => hm e (List.mem_cons_of_mem _ he))
    simp only [MCall.inTurn, e']
    by_cases hij : i = j
    · subst hij
      simp only [ofClient, List.filter_cons, decide_true, if_true, List.map_cons] at h ⊢
      cases p with
      | zero =>
        simp only [List.getElem?_cons_zero, Option.some.injEq] at h ⊢
        subst h
        simp only [MCall.alone, root_holding (H := H) hr hu hL]
      | succ p =>
        simp only [List.getElem?_cons_succ] at h ⊢
        exact hi p h
    · have hij' : decide (i = j) = false := by simp [hij]
      simp only [ofClient, List.filter_cons, hij', Bool.false_eq_true, if_false] at h ⊢
      exact hi p h

/-- So everybody who asks for the root gets the root the tree had, whatever is put in meanwhile. -/
theorem C140_root (H : HashFn) (secure : Bool) (ops : List MOp) (hr : (MTree.after H secure ops).ready = true)
    (calls : Nat → List MCall) (hc : ∀ j, MCall.make ∉ calls j) (sched : List Nat) :
    let t := MTree.after H secure ops
    let w := (MWorld.new t calls).run H sched
    ∀ (j p : Nat) (x : Py MAns), (calls j)[p]? = some .root → (w.threads j).outs[p]? = some x →
      x = (MTree.root H t).1.map .bytes := by
  intro t w j p x hp hx
  obtain ⟨order, _, _, h2, _⟩ := C140 H secure ops hr calls hc sched
  obtain ⟨⟨rest, hrest⟩, ⟨more, hmore⟩⟩ := h2 j
  have hlt : p < (w.threads j).outs.length := (List.getElem?_eq_some_iff.mp hx).1
  have hx' : (ofClient j (MCall.inTurn H order t))[p]? = some x := by
    rw [← hmore, List.getElem?_append_left hlt]; exact hx
  have hlen : ∀ (o : List (Nat × MCall)) (t : MTree),
      (ofClient j (MCall.inTurn H o t)).length = (ofClient j o).length := by
    intro o
    induction o with
    | nil => intro t; rfl
    | cons e o ih =>
      intro t
      obtain ⟨i, c⟩ := e
      have := ih (c.alone H t).2
      by_cases hij : i = j <;> simp [ofClient, MCall.inTurn, hij] at this ⊢ <;> exact this
  have hlt' : p < (ofClient j order).length := by
    rw [← hlen order t]; exact (List.getElem?_eq_some_iff.mp hx').1
  have hroot : (ofClient j order)[p]? = some .root := by
    rw [← hrest, List.getElem?_append_left hlt'] at hp; exact hp
  have hm : ∀ e ∈ order, e.2 ≠ .make := by
    intro e he em
    refine hc e.1 ?_
    obtain ⟨⟨r, h⟩, _⟩ := h2 e.1
    rw [← h]
    refine List.mem_append_left _ ?_
    simp only [ofClient, List.mem_map, List.mem_filter]
    exact ⟨e, ⟨he, by simp⟩, em⟩
  have := inTurn_root H t hr (after_upper H secure ops) j order t.leaves (List.prefix_refl _) hm p hroot
  rw [show t.holding t.leaves = t from rfl, hx'] at this
  rw [Option.some.inj this, root_apply, if_pos hr]

/-- A thread asks a made tree of three leaves for a proof of the third and has it checked; another thread puts in a fourth
leaf while the first looks for a sibling. -/
def proveAndPut : Nat → List MCall
  | 0 => [.poi [] [3], .root]
  | 1 => [.put [4], .count]
  | _ => []

theorem proveAndPut_safe : ∀ j, MCall.make ∉ proveAndPut j := by
  intro j h
  match j with
  | 0 => simp [proveAndPut] at h
  | 1 => simp [proveAndPut] at h
  | j + 2 => simp [proveAndPut] at h

/-- Two interleavings.  In the first the value is put in before the number of leaves is read: the proof contains the new leaf
(and is not accepted, see C79).  In the second after this: the proof is that of the tree as it was made.  In both the root is that of the
three leaves. -/
example :
    let t := MTree.after toyHash false ([[1], [2], [3]].map .put ++ [.make])
    let w := (MWorld.new t proveAndPut).run toyHash ([0, 0, 0] ++ List.replicate 6 1 ++ List.replicate 30 0)
    let w' := (MWorld.new t proveAndPut).run toyHash (List.replicate 8 0 ++ List.replicate 6 1 ++ List.replicate 30 0)
    let r := hexOf (rfcRoot toyHash [[1], [2], [3]])
    t.ready = true ∧
    (w.threads 1).outs = [.ok .none, .ok (.nat 4)] ∧
    (w.threads 0).outs = [.ok (.proof ⟨mtPoi, [], [3], r, [(right, hexOf [4]), (left, hexOf (toyHash.hash [1, 2]))]⟩), .ok (.bytes r)] ∧
    (w'.threads 1).outs = [.ok .none, .ok (.nat 4)] ∧
    (w'.threads 0).outs = [.ok (.proof ⟨mtPoi, [], [3], r, [(left, hexOf (toyHash.hash [1, 2]))]⟩), .ok (.bytes r)] := by
  decide +kernel

end Pymt.Props
