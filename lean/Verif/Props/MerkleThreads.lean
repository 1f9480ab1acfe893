import Verif.Lemmas.MerkleMade
import Verif.Props.Merkle

/-!
# Properties C137, C138, C139: threads that share a `MerkleTree`
-/

namespace Pymt.Props

open Pymt MTree

deriving instance DecidableEq for MAns

/-- A tree into which these values have been put; `make_tree` has not been called. -/
def filled (H : HashFn) (secure : Bool) (vs : List Bytes) : MTree := MTree.after H secure (vs.map .put)

theorem filled_eq (H : HashFn) (secure : Bool) (vs : List Bytes) :
    filled H secure vs = { MTree.new secure with leaves := vs.map (leafOf H secure) } := by
  show MTree.run H (vs.map .put) (MTree.new secure) = _
  rw [run_puts]; simp [MTree.new]

/-! ### C137: asking for the root from several threads -/

/-- C137, in full: however the calls of threads that ask a tree for its root interleave, each of them gets the root of the
values put in. -/
def C137 : Prop :=
  ∀ (H : HashFn) (secure : Bool) (vs : List Bytes) (calls : Nat → List MCall) (sched : List Nat), vs ≠ [] →
    (∀ j, ∀ c ∈ calls j, c = .root) →
    let w := (MWorld.new (filled H secure vs) calls).run H sched
    ∀ j, ∀ x ∈ (w.threads j).outs, x = .ok (.bytes (hexOf (rfcRoot H (vs.map (leafOf H secure)))))

/-- Two threads that ask for the root once each. -/
def twoAsk : Nat → List MCall
  | 0 => [.root]
  | 1 => [.root]
  | _ => []

theorem twoAsk_root : ∀ j, ∀ c ∈ twoAsk j, c = .root := by
  intro j
  match j with
  | 0 => simp [twoAsk]
  | 1 => simp [twoAsk]
  | j + 2 => simp [twoAsk]

/-- The first thread has read the number of leaves when the second makes the first level; it pairs the nodes of that level
as if they were the leaves. -/
def overtakenMaking : List Nat := List.replicate 9 0 ++ List.replicate 15 1 ++ List.replicate 20 0 ++ List.replicate 20 1

/-- C137 does not hold: both threads get the root of the first four of six leaves. -/
theorem C137_false : ¬ C137 := by
  intro h
  have := h toyHash false [[1], [2], [3], [4], [5], [6]] twoAsk overtakenMaking (by simp) twoAsk_root 0
    (.ok (.bytes (hexOf (rfcRoot toyHash [[1], [2], [3], [4]])))) (by decide +kernel)
  revert this
  decide +kernel

/-- The wrong root stays: when both calls have ended the tree is ready, has all six leaves, and gives the root of the first
four to everybody who asks; nothing depends on the other two, and the proof it gives for one of them is not accepted. -/
theorem C137_stays :
    ∃ t' : MTree, ((MWorld.new (filled toyHash false [[1], [2], [3], [4], [5], [6]]) twoAsk).run toyHash overtakenMaking).tree = t'.shared ∧
      t'.ready = true ∧ t'.leaves = [[1], [2], [3], [4], [5], [6]] ∧
      (MTree.root toyHash t').1 = .ok (hexOf (rfcRoot toyHash [[1], [2], [3], [4]])) ∧
      ∃ p, (MTree.getPoi toyHash [] [5] t').1 = .ok p ∧ (MTree.verifyPoi toyHash p t').1 = .ok false := by
  refine ⟨⟨false, [[1], [2], [3], [4], [5], [6]], some [[[4, 147]], [[2, 104], [2, 168], [2, 232]]], true⟩, by decide +kernel,
    rfl, rfl, by decide +kernel, ⟨mtPoi, [], [5], hexOf [4, 147], [(right, hexOf [6])]⟩, by decide +kernel, by decide +kernel⟩

/-- Another thread sets `is_ready` to False between the end of `make_tree` and the check in `get_merkle_root`. -/
def madeUnready : List Nat := [1, 1] ++ List.replicate 8 0 ++ [1] ++ List.replicate 3 0

/-- `get_merkle_root` can raise ValueError ("Tree is not ready") on a tree with leaves. -/
theorem C137_raises : ((((MWorld.new (filled toyHash false [[1]]) twoAsk).run toyHash madeUnready).threads 0).outs) =
    [.error .valueError] := by decide +kernel

/-- On a tree that is made (and has all its leaves), threads that do not call `put` or `make_tree` get, in any interleaving,
what they get alone; the tree stays as it is. -/
theorem C137_ready_partial (H : HashFn) (t : MTree) (calls : Nat → List MCall) (hr : t.ready = true)
    (hc : ∀ j, ∀ c ∈ calls j, c.Asks) (sched : List Nat) :
    let w := (MWorld.new t calls).run H sched
    w.tree = t.shared ∧
    ∀ (j p : Nat) (c : MCall) (x : Py MAns), (calls j)[p]? = some c → (w.threads j).outs[p]? = some x → x = (c.alone H t).1 := by
  intro w
  obtain ⟨h1, h2⟩ := asking_run (H := H) hr hc sched
  refine ⟨h1, ?_⟩
  intro j p c x hcj hx
  obtain ⟨made, h3, h4⟩ := h2 j
  have hpre : made <+: calls j := by
    cases hcur : (((MWorld.new t calls).run H sched).threads j).cur with
    | none => rw [hcur] at h4; exact ⟨_, h4.symm⟩
    | some q => rw [hcur] at h4; obtain ⟨c', h4, _⟩ := h4; exact ⟨_, h4.symm⟩
  obtain ⟨rest, hrest⟩ := hpre
  rw [h3, List.getElem?_map] at hx
  cases hm : made[p]? with
  | none => rw [hm] at hx; cases hx
  | some c' =>
    rw [hm] at hx
    have hlt : p < made.length := (List.getElem?_eq_some_iff.mp hm).1
    rw [← hrest, List.getElem?_append_left hlt, hm] at hcj
    cases hcj
    exact (Option.some.inj hx).symm

/-- So after `make_tree()` every thread that asks for the root gets the root of the values put in, and every proof of a
value names this root. -/
theorem C137_made_partial (H : HashFn) (secure : Bool) (vs : List Bytes) (calls : Nat → List MCall) (hv : vs ≠ [])
    (hc : ∀ j, ∀ c ∈ calls j, c.Asks) (sched : List Nat) :
    let w := (MWorld.new (MTree.after H secure (vs.map .put ++ [.make])) calls).run H sched
    ∀ (j p : Nat) (x : Py MAns), (calls j)[p]? = some .root → (w.threads j).outs[p]? = some x →
      x = .ok (.bytes (hexOf (rfcRoot H (vs.map (leafOf H secure))))) := by
  intro w j p x h1 h2
  have hh : held (vs.map MOp.put) = vs := held_puts vs
  have hmade := after_make H secure (vs.map .put) (by rw [hh]; exact hv)
  have := (C137_ready_partial H _ calls (by rw [hmade]; rfl) hc sched).2 j p .root x h1 h2
  rw [this]
  simp only [MCall.alone]
  rw [hmade, built_root, hh]
  · rfl
  · rw [hh]; simpa using hv

/-- If every call is made under one lock, the outcomes are those of the calls made one after another in some order; this
order has the calls of each thread in the order in which the thread makes them. -/
theorem C137_lock_partial (H : HashFn) (t : MTree) (calls : Nat → List MCall) (sched : List Nat)
    (hl : (MWorld.new t calls).OneAtATime H sched) :
    let w := (MWorld.new t calls).run H sched
    ∃ order : List (Nat × MCall),
      (∀ j, ofClient j order <+: calls j ∧ (w.threads j).outs = ofClient j (MCall.inTurn H order t)) ∧
      (w.Over → (∀ j, ofClient j order = calls j) ∧ w.tree = (MCall.afterTurns H order t).shared) := by
  intro w
  obtain ⟨order, ho, hs⟩ := ordered_run (H := H) sched hl
  refine ⟨order, fun j => ⟨?_, ho j⟩, ?_⟩
  · rcases hs with ⟨h, _⟩ | ⟨k, c, p, _, _, h, _⟩
    · exact ⟨_, (h j).2.symm⟩
    · rw [h j, ofClient_append, List.append_assoc]; exact List.prefix_append _ _
  · intro hover
    rcases hs with ⟨h, ht⟩ | ⟨k, c, p, h, _⟩
    · refine ⟨fun j => ?_, ht⟩
      have := (h j).2
      rw [show (((MWorld.new t calls).run H sched).threads j).rest = [] from (hover j).2, List.append_nil] at this
      exact this.symm
    · rw [show (((MWorld.new t calls).run H sched).threads k).cur = none from (hover k).1] at h; cases h

/-- Two threads that ask a made tree, in turns: a thread that wants a root, a proof and a check, and one that wants a
leaf. -/
example :
    let t := MTree.after toyHash false ([[1], [2], [3]].map .put ++ [.make])
    let calls : Nat → List MCall := fun j => if j = 0 then [.root, .poi [] [2]] else if j = 1 then [.get 1, .root] else []
    let w := (MWorld.new t calls).run toyHash ((List.replicate 30 [0, 1]).flatten)
    t.ready = true ∧ (w.threads 1).outs = [.ok (.bytes (hexOf [2])), .ok (.bytes (hexOf (rfcRoot toyHash [[1], [2], [3]])))] ∧
      (w.threads 0).outs.length = 2 := by decide +kernel

/-- Two calls one after the other: the schedule `0 … 0 1 … 1` never has two calls in progress. -/
example : (MWorld.new (filled toyHash false [[1]]) twoAsk).OneAtATime toyHash (List.replicate 14 0 ++ List.replicate 7 1) := by
  have small : ∀ q, q < 22 →
      (((MWorld.new (filled toyHash false [[1]]) twoAsk).run toyHash
        ((List.replicate 14 0 ++ List.replicate 7 1).take q)).threads 0).cur.isNone ||
      (((MWorld.new (filled toyHash false [[1]]) twoAsk).run toyHash
        ((List.replicate 14 0 ++ List.replicate 7 1).take q)).threads 1).cur.isNone := by decide +kernel
  have all : ∀ q,
      (((MWorld.new (filled toyHash false [[1]]) twoAsk).run toyHash
        ((List.replicate 14 0 ++ List.replicate 7 1).take q)).threads 0).cur = none ∨
      (((MWorld.new (filled toyHash false [[1]]) twoAsk).run toyHash
        ((List.replicate 14 0 ++ List.replicate 7 1).take q)).threads 1).cur = none := by
    intro q
    by_cases hq : q < 22
    · simpa using small q hq
    · rw [List.take_of_length_le (by simp; omega)]
      have := small 21 (by omega)
      rw [List.take_of_length_le (by simp)] at this
      simpa using this
  intro q i j hij
  by_cases hi : 2 ≤ i
  · exact .inl (idle_run _ _ (by match i, hi with | i + 2, _ => exact ⟨rfl, rfl⟩)).2
  by_cases hj : 2 ≤ j
  · exact .inr (idle_run _ _ (by match j, hj with | j + 2, _ => exact ⟨rfl, rfl⟩)).2
  match i, j, hij, hi, hj with
  | 0, 1, _, _, _ => exact all q
  | 1, 0, _, _, _ => exact (all q).symm
  | 0, 0, h, _, _ => exact absurd rfl h
  | 1, 1, h, _, _ => exact absurd rfl h
  | i + 2, _, _, h, _ => omega
  | _, j + 2, _, _, h => omega

/-! ### C138: asking for the root while other threads add leaves -/

/-- C138, in full: the root a thread gets while others put values in is the root of the leaves the tree had at some
moment. -/
def C138 : Prop :=
  ∀ (H : HashFn) (secure : Bool) (vs : List Bytes) (calls : Nat → List MCall) (i : Nat) (sched : List Nat), vs ≠ [] →
    calls i = [.root] → (∀ j, j ≠ i → ∀ c ∈ calls j, c.Plain) →
    let t := filled H secure vs
    let w := (MWorld.new t calls).run H sched
    ∀ x ∈ (w.threads i).outs, ∃ leaves, t.leaves <+: leaves ∧ leaves <+: w.tree.leaves ∧
      x = .ok (.bytes (hexOf (rfcRoot H leaves)))

/-- One thread asks for the root, another puts a value in. -/
def askAndPut : Nat → List MCall
  | 0 => [.root]
  | 1 => [.put [4]]
  | _ => []

/-- The value is put in between the reading of the number of leaves and the reading of the last one. -/
def between : List Nat := List.replicate 9 0 ++ List.replicate 3 1 ++ List.replicate 20 0

/-- C138 does not hold: of four leaves the third is left out. -/
theorem C138_false : ¬ C138 := by
  intro h
  obtain ⟨leaves, ⟨a, ha⟩, ⟨b, hb⟩, hx⟩ := h toyHash false [[1], [2], [3]] askAndPut 0 between (by simp) rfl (by
      intro j hj c hc
      match j with
      | 0 => exact absurd rfl hj
      | 1 =>
        simp only [askAndPut, List.mem_singleton] at hc
        subst hc
        trivial
      | j + 2 => simp [askAndPut] at hc)
    (.ok (.bytes (hexOf (rfcRoot toyHash [[1], [2], [4]])))) (by decide +kernel)
  rw [show (filled toyHash false [[1], [2], [3]]).leaves = [[1], [2], [3]] by decide +kernel] at ha
  rw [show ((MWorld.new (filled toyHash false [[1], [2], [3]]) askAndPut).run toyHash between).tree.leaves =
    [[1], [2], [3], [4]] by decide +kernel, ← ha] at hb
  have ha2 : a ++ b = [[4]] := by simpa using hb
  rw [← ha] at hx
  match a, ha2 with
  | [], _ => revert hx; decide +kernel
  | [x], h2 =>
    have : x = [4] := by simpa using (List.cons.inj h2).1
    subst this
    revert hx; decide +kernel
  | x :: y :: r, h2 => simp at h2

/-- The answer is the root of leaves the tree had at some moment, except that a leaf added later may have taken the place of
the last of an odd number of leaves.  (`t` need not be new.) -/
theorem C138_builder_partial (H : HashFn) (t : MTree) (calls : Nat → List MCall) (i : Nat) (hr : t.ready = false)
    (hl : t.leaves ≠ []) (hi : calls i = [.root]) (hc : ∀ j, j ≠ i → ∀ c ∈ calls j, c.Plain) (sched : List Nat) :
    let w := (MWorld.new t calls).run H sched
    ∀ x ∈ (w.threads i).outs, ∃ leaves, Taken t.leaves w.tree.leaves leaves ∧ x = .ok (.bytes (hexOf (rfcRoot H leaves))) := by
  intro w x hx
  obtain ⟨_, hb, _⟩ := building_run (H := H) hr hl hi hc sched
  rcases hb with ⟨_, _, h3, _⟩ | ⟨_, _, _, h3, _⟩ | ⟨_, _, y, h3, h4⟩
  · rw [show (w.threads i).outs = [] from h3] at hx; cases hx
  · rw [show (w.threads i).outs = [] from h3] at hx; cases hx
  · rw [show (w.threads i).outs = [y] from h3] at hx
    simp only [List.mem_singleton] at hx
    subst hx
    exact h4

/-- So it is the root of a moment's leaves if nothing is added meanwhile. -/
theorem C138_quiet_partial (H : HashFn) (t : MTree) (calls : Nat → List MCall) (i : Nat) (hr : t.ready = false)
    (hl : t.leaves ≠ []) (hi : calls i = [.root]) (hc : ∀ j, j ≠ i → ∀ c ∈ calls j, c.Plain) (sched : List Nat)
    (hq : ((MWorld.new t calls).run H sched).tree.leaves = t.leaves) :
    let w := (MWorld.new t calls).run H sched
    ∀ x ∈ (w.threads i).outs, x = .ok (.bytes (hexOf (rfcRoot H t.leaves))) := by
  intro w x hx
  obtain ⟨leaves, hT, e⟩ := C138_builder_partial H t calls i hr hl hi hc sched x hx
  rw [hq] at hT
  rcases hT with ⟨h1, h2⟩ | ⟨n, j, b, _, _, h3, h4, h5, _⟩
  · rw [e, h1.eq_of_length_le h2.length_le]
  · have : j < t.leaves.length := (List.getElem?_eq_some_iff.mp h5).1
    omega

/-- The case that breaks C138 is one of these: the fourth leaf in the place of the third. -/
example : Taken [[1], [2], [3]] [[1], [2], [3], [4]] [[1], [2], [4]] :=
  .inr ⟨3, 3, [4], rfl, by decide, by decide, by decide, rfl, rfl⟩
/-- With two leaves at first and two more put in meanwhile, the answer is the root of two, three or four leaves. -/
example :
    let t := filled toyHash false [[1], [2]]
    let calls : Nat → List MCall := fun j => if j = 0 then [.root] else if j = 1 then [.put [3], .count, .put [4]] else []
    let w := (MWorld.new t calls).run toyHash (List.replicate 7 0 ++ List.replicate 6 1 ++ List.replicate 30 0)
    t.ready = false ∧ w.tree.leaves = [[1], [2], [3]] ∧
      (w.threads 0).outs = [.ok (.bytes (hexOf (rfcRoot toyHash [[1], [2], [3]])))] := by decide +kernel

/-! ### C139: adding leaves from several threads -/

/-- C139: calls of `put`, `get` and `get_count` from any number of threads, in any interleaving, have the outcomes and the
effect they have one after another in some order; this order has the calls of each thread in the order in which the thread
makes them, and a call that ended before another began comes before it.  So no value is lost or put in twice, and two values
of one thread keep their order. -/
theorem C139 (H : HashFn) (t : MTree) (calls : Nat → List MCall) (hc : ∀ j, ∀ c ∈ calls j, c.Plain) (sched : List Nat) :
    let w := (MWorld.new t calls).run H sched
    ∃ order : List (Nat × MCall), w.tree = (MCall.afterTurns H order t).shared ∧ MCall.InTime H (MWorld.new t calls) calls sched order ∧
      (∀ j, ofClient j order <+: calls j ∧ (w.threads j).outs <+: ofClient j (MCall.inTurn H order t)) ∧
      (w.Over → ∀ j, ofClient j order = calls j ∧ (w.threads j).outs = ofClient j (MCall.inTurn H order t)) := by
  intro w
  obtain ⟨order, L, _, hat, ht, h2, htime⟩ := orderly_run (H := H) (t := t) (calls := calls)
    (fun j c hcj L _ => .plain (hc j c hcj)) sched
  exact ⟨order, by rw [hat]; exact ht, htime, orderly_outcomes h2⟩

/-- The leaves, when all calls have ended: those there were, and the values put in, in the order found. -/
theorem C139_leaves (H : HashFn) (t : MTree) (calls : Nat → List MCall) (hc : ∀ j, ∀ c ∈ calls j, c.Plain) (sched : List Nat)
    (hover : ((MWorld.new t calls).run H sched).Over) :
    ∃ order : List (Nat × Bytes), (∀ j, ofClient j order = (calls j).filterMap MCall.value?) ∧
      ((MWorld.new t calls).run H sched).tree.leaves = t.leaves ++ (order.map (·.2)).map (leafOf H t.secure) := by
  obtain ⟨order, h1, h0, h2, h3⟩ := C139 H t calls hc sched
  refine ⟨order.filterMap fun e => (e.2.value?).map fun v => (e.1, v), ?_, ?_⟩
  · intro j
    rw [← (h3 hover j).1]
    clear h0 h1 h2 h3
    induction order with
    | nil => rfl
    | cons e order ih =>
      obtain ⟨i, c⟩ := e
      cases hv : c.value? with
      | none =>
        by_cases hij : i = j <;> simp [ofClient, hv, hij] at ih ⊢ <;> exact ih
      | some v =>
        by_cases hij : i = j <;> simp [ofClient, hv, hij] at ih ⊢ <;> exact ih
  · rw [h1]
    have hp : ∀ e ∈ order, e.2.Plain := by
      intro e he
      obtain ⟨h, _⟩ := h3 hover e.1
      refine hc e.1 e.2 ?_
      rw [← h]
      simp only [ofClient, List.mem_map, List.mem_filter]
      exact ⟨e, ⟨he, by simp⟩, rfl⟩
    show (MCall.afterTurns H order t).leaves = _
    rw [plain_leaves H order t hp]

/-- Two threads that put values in, and count. -/
example :
    let calls : Nat → List MCall := fun j => if j = 0 then [.put [1], .count, .put [2]] else if j = 1 then [.put [3], .get 0] else []
    let w := (MWorld.new (MTree.new true) calls).run toyHash ([1, 0, 1, 0] ++ List.replicate 5 1 ++ List.replicate 8 0)
    w.tree.leaves = [[3], [1], [2]].map toyHash.hash ∧ (w.threads 0).outs = [.ok .none, .ok (.nat 2), .ok .none] ∧
      (w.threads 1).outs = [.ok .none, .ok (.bytes (hexOf (toyHash.hash [3])))] := by decide +kernel

end Pymt.Props
