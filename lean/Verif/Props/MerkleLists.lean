import Verif.Lemmas.MerkleCoarse
import Verif.Props.MerkleMade
import Verif.Props.MerkleThreads

/-!
# Properties C144, C145: threads that share a `MerkleTree` and may reset it
-/

namespace Pymt.Props

open Pymt MTree

/-! ### C144: adding leaves, reading them, and resetting -/

/-- C144: calls of `put`, `get`, `get_count` and `reset_tree` from any number of threads, in any interleaving, have the
outcomes and the effect they have one after another in some order.  This order has the calls of each thread in the order in
which the thread makes them, and a call that ended before another began comes before it. -/
theorem C144 (H : HashFn) (t : MTree) (calls : Nat → List HCall) (hc : ∀ j, ∀ c ∈ calls j, c.Plain) (sched : List Nat) :
    let w := (HWorld.new t calls).run H sched
    ∃ order : List (Nat × HCall),
      (∀ j, ofClient j order <+: calls j ∧ (w.threads j).outs <+: ofClient j (HCall.inTurn H order t)) ∧
      HCall.InTime H (HWorld.new t calls) calls sched order ∧
      (w.Over → (∀ j, ofClient j order = calls j ∧ (w.threads j).outs = ofClient j (HCall.inTurn H order t)) ∧
        w.tree.Shows (HCall.afterTurns H order t)) := by
  intro w
  obtain ⟨eps, h, htime⟩ := epochs_run (H := H) (t := t) hc sched
  obtain ⟨e0, later, he⟩ : ∃ e0 later, eps = e0 :: later := by
    cases eps with
    | nil => exact absurd rfl h.ne
    | cons a l => exact ⟨a, l, rfl⟩
  have hlater : ∀ e ∈ later, HCall.Resets e ∧ ∀ x ∈ e, x.2.Plain := fun e hx =>
    ⟨h.resets e (by rw [he]; exact hx), h.plain e (by rw [he]; exact .tail _ hx)⟩
  have h0 : ∀ x ∈ e0, x.2.Plain := h.plain e0 (by rw [he]; exact .head _)
  have hin : ∀ j, ofClient j (HCall.inTurn H eps.flatten t) = Epochs.got H t j eps := by
    intro j
    rw [he, HCall.inTurn_flatten e0 later t h0 hlater]
    rfl
  refine ⟨eps.flatten, fun j => ?_, fun q => ?_, fun hover => ⟨fun j => ?_, ?_⟩⟩
  · rw [hin]
    cases h.threads j with
    | idle _ hm ho => exact ⟨⟨_, hm⟩, by rw [show (w.threads j).outs = _ from ho]; exact List.prefix_refl _⟩
    | begun c _ hm ho => exact ⟨⟨_, hm⟩, by rw [show (w.threads j).outs = _ from ho]; exact List.prefix_refl _⟩
    | has c o q _ _ hm ho => exact ⟨⟨_, hm⟩, by rw [show (w.threads j).outs = _ from ho]; exact List.prefix_refl _⟩
    | resetting p _ _ hm ho => exact ⟨⟨_, hm⟩, ⟨_, ho⟩⟩
    | past r _ hm ho => exact ⟨⟨_, hm⟩, ⟨_, ho⟩⟩
  · obtain ⟨A, first, B, C, hA, hj⟩ := htime q
    refine ⟨A.flatten ++ first, B ++ C.flatten, by rw [hA]; simp, fun j => ⟨(hj j).1, ?_⟩⟩
    have := (hj j).2
    omega
  · rw [hin]
    obtain ⟨o1, o2⟩ := hover j
    have o1' : (((HWorld.new t calls).run H sched).threads j).cur = none := o1
    have o2' : (((HWorld.new t calls).run H sched).threads j).rest = [] := o2
    cases h.threads j with
    | idle _ hm ho => rw [o2', List.append_nil] at hm; exact ⟨hm, ho⟩
    | begun c h' => rw [o1'] at h'; cases h'
    | has c o q _ h' => rw [o1'] at h'; cases h'
    | resetting p _ h' => rw [o1'] at h'; cases h'
    | past r h' => rw [o1'] at h'; cases h'
  · have o1 : ∀ j, (((HWorld.new t calls).run H sched).threads j).cur = none := fun j => (hover j).1
    obtain ⟨l, hl⟩ : ∃ l, eps.getLast? = some l := ⟨_, List.getLast?_eq_some_getLast h.ne⟩
    have hlast : HCall.afterTurns H eps.flatten t = HCall.afterTurns H l t := by
      rw [he] at hl ⊢
      exact HCall.afterTurns_flatten e0 later t h0 hlater l hl
    have hidx : eps[w.tree.leaves]? = some l := by
      rw [List.getLast?_eq_getElem?] at hl
      have := h.last
      rw [show w.tree.leaves = eps.length - 1 by show ((HWorld.new t calls).run H sched).tree.leaves = _; omega]
      exact hl
    have hleaves : w.tree.lists[w.tree.leaves]? = some (HCall.afterTurns H l t).leaves := by
      rw [show w.tree.lists = _ from h.lists, List.getElem?_map, hidx]; rfl
    have hlp : ∀ x ∈ l, x.2.Plain := h.plain l (List.mem_of_getLast? hl)
    have hpos := List.length_pos_iff.mpr h.ne
    rw [hlast]
    by_cases h1 : eps.length = 1
    · have hl0 : l = e0 ∧ later = [] := by
        rw [he] at h1 hl
        have : later = [] := List.length_eq_zero_iff.mp (by simpa using h1)
        subst this
        exact ⟨by simpa using hl.symm, rfl⟩
      obtain ⟨c1, c2⟩ := h.calm h1
      have hno : ∀ x ∈ l, x.2 ≠ .reset := h.unreset l (by rw [he, hl0.1]; rfl)
      obtain ⟨k1, k2, k3⟩ := HCall.unreset_same (H := H) hlp hno t
      have hz : w.tree.leaves = 0 := by
        have := h.last
        show ((HWorld.new t calls).run H sched).tree.leaves = 0
        omega
      refine ⟨?_, hleaves, ?_, ?_⟩
      · rw [k1]; exact h.secure
      · rw [k2, hz]; exact c1
      · rw [k3]; exact c2
    · have h1' : 1 < eps.length := by omega
      obtain ⟨r, b, hb⟩ : HCall.Resets l := by
        refine h.resets l ?_
        rw [he] at hl h1' ⊢
        cases later with
        | nil => simp at h1'
        | cons x xs =>
          rw [List.getLast?_cons_cons] at hl
          exact List.mem_of_getLast? hl
      subst hb
      obtain ⟨k2, k3⟩ := HCall.unmade_same (H := H) (fun x hx => hlp x (.tail _ hx)) (HCall.alone H t .reset).2 rfl rfl
      refine ⟨?_, hleaves, ?_, ?_⟩
      · rw [HCall.plain_secure hlp]; exact h.secure
      · show _ = (HCall.afterTurns H b (HCall.alone H t .reset).2).upper.map _
        rw [k2]
        rcases h.levels h1' with h2 | ⟨j, h2⟩
        · exact h2
        · rw [o1 j] at h2; cases h2
      · show _ = (HCall.afterTurns H b (HCall.alone H t .reset).2).ready
        rw [k3]
        rcases h.ready h1' with h2 | ⟨j, h2⟩
        · exact h2
        · rw [o1 j] at h2; rcases h2 with h2 | h2 <;> cases h2


/-- Three threads: the first adds a value and asks for the number of leaves, the second resets the tree and adds a value, the
third counts.  The first value goes into the list that is no longer `self.leaves`, after the reset has ended: the order of the
calls has it before the reset. -/
example :
    let calls : Nat → List HCall := fun j =>
      if j = 0 then [.call (.put [2]), .call .count] else if j = 1 then [.reset, .call (.put [3])]
      else if j = 2 then [.call .count] else []
    let sched := [0, 0] ++ List.replicate 5 1 ++ [2, 2] ++ [0, 0] ++ List.replicate 4 1 ++ [2, 2] ++ List.replicate 4 0
    let w := (HWorld.new (filled toyHash false [[1]]) calls).run toyHash sched
    let order : List (Nat × HCall) := [(0, .call (.put [2])), (1, .reset), (1, .call (.put [3])), (2, .call .count), (0, .call .count)]
    (∀ j, ∀ c ∈ calls j, c.Plain) ∧
    (w.threads 0).outs = [.ok .none, .ok (.nat 1)] ∧ (w.threads 1).outs = [.ok .none, .ok .none] ∧
    (w.threads 2).outs = [.ok (.nat 1)] ∧ w.tree.lists = [[[1], [2]], [[3]]] ∧
    ∀ j ∈ [0, 1, 2], (w.threads j).outs = ofClient j (HCall.inTurn toyHash order (filled toyHash false [[1]])) := by
  intro calls sched w order
  refine ⟨?_, by decide +kernel, by decide +kernel, by decide +kernel, by decide +kernel, by decide +kernel⟩
  intro j
  match j with
  | 0 => intro c h; simp [calls] at h; rcases h with h | h <;> subst h <;> trivial
  | 1 => intro c h; simp [calls] at h; rcases h with h | h <;> subst h <;> trivial
  | 2 => intro c h; simp [calls] at h; subst h; trivial
  | j + 3 => intro c h; simp [calls] at h

/-- As long as nobody calls `reset_tree`, what threads get in the model with lists as objects they also get in the one of
`Model/MerkleThreads.lean` (so C137 to C140 hold there, too). -/
theorem C144_unreset (H : HashFn) (t : MTree) (calls : Nat → List MCall) (sched : List Nat) :
    ∃ sched' : List Nat, ∀ j,
      (((HWorld.new t fun j => (calls j).map .call).run H sched).threads j).outs = (((MWorld.new t calls).run H sched').threads j).outs := by
  obtain ⟨sched', _, h, _⟩ := coarse_run (H := H) (t := t) calls sched
  exact ⟨sched', fun j => (h j).1⟩

theorem ofClient_map {α β : Type} (f : α → β) (j : Nat) (l : List (Nat × α)) :
    ofClient j (l.map fun e => (e.1, f e.2)) = (ofClient j l).map f := by
  induction l with
  | nil => rfl
  | cons e l ih =>
    by_cases h : e.1 = j <;> simp [ofClient, h] at ih ⊢ <;> exact ih

/-- For instance C140: on a tree that is made, calls other than `make_tree` and `reset_tree` have the outcomes and the effect
they have one after another in some order.  This order has the calls of each thread in the order in which the thread makes
them, and a call that ended before another began comes before it. -/
theorem C144_made (H : HashFn) (secure : Bool) (ops : List MOp) (hr : (MTree.after H secure ops).ready = true)
    (calls : Nat → List MCall) (hc : ∀ j, MCall.make ∉ calls j) (sched : List Nat) :
    let t := MTree.after H secure ops
    let w := (HWorld.new t fun j => (calls j).map .call).run H sched
    ∃ order : List (Nat × MCall), w.tree.Shows (MCall.afterTurns H order t) ∧
      HCall.InTime H (HWorld.new t fun j => (calls j).map .call) (fun j => (calls j).map .call) sched
        (order.map fun e => (e.1, .call e.2)) ∧
      (∀ j, ofClient j order <+: calls j ∧ (w.threads j).outs <+: ofClient j (MCall.inTurn H order t)) ∧
      (w.Over → ∀ j, ofClient j order = calls j ∧ (w.threads j).outs = ofClient j (MCall.inTurn H order t)) := by
  intro t w
  obtain ⟨sched', h1, h2, htime⟩ := coarse_run (H := H) (t := t) calls sched
  obtain ⟨order, k1, ktime, k2, k3⟩ := C140 H secure ops hr calls hc sched'
  rw [k1] at h1
  refine ⟨order, h1.shows, fun q => ?_, fun j => ⟨(k2 j).1, ?_⟩, fun hover j => ?_⟩
  · obtain ⟨q', hq⟩ := htime q
    obtain ⟨first, then', he, hj⟩ := ktime q'
    refine ⟨first.map fun e => (e.1, .call e.2), then'.map fun e => (e.1, .call e.2), by rw [he, List.map_append], fun j => ?_⟩
    rw [(hq j).1, (hq j).2, ofClient_map]
    simpa using hj j
  · rw [show (w.threads j).outs = _ from (h2 j).1]; exact (k2 j).2
  · rw [show (w.threads j).outs = _ from (h2 j).1]
    refine k3 (fun i => ?_) j
    obtain ⟨o1, o2⟩ := hover i
    obtain ⟨_, m2, m3⟩ := h2 i
    rw [show (((HWorld.new t fun j => (calls j).map .call).run H sched).threads i).cur = none from o1] at m3
    rw [show (((HWorld.new t fun j => (calls j).map .call).run H sched).threads i).rest = [] from o2] at m2
    refine ⟨?_, List.map_eq_nil_iff.mp m2.symm⟩
    generalize (((MWorld.new t calls).run H sched').threads i).cur = x at m3
    cases x with
    | none => rfl
    | some p => exact m3.elim

/-- A made tree, a thread that asks for root and proof, a thread that adds: the second leaf is in `self.leaves` before the
proof is made, so that the proof fails; the root is the one of the first leaf. -/
example :
    let t := MTree.after toyHash false [.put [1], .make]
    let calls : Nat → List MCall := fun j => if j = 0 then [.root, .poi [] [2]] else if j = 1 then [.put [2]] else []
    let w := (HWorld.new t fun j => (calls j).map .call).run toyHash ([0, 0, 0, 1, 1, 1, 1] ++ List.replicate 40 0)
    t.ready = true ∧ (∀ j, MCall.make ∉ calls j) ∧ (w.threads 0).outs.head? = some (.ok (.bytes (hexOf [1]))) ∧
      (w.threads 0).outs.length = 2 ∧ (w.threads 1).outs = [.ok .none] := by
  intro t calls w
  refine ⟨by decide +kernel, ?_, by decide +kernel, by decide +kernel, by decide +kernel⟩
  intro j
  match j with
  | 0 => simp [calls]
  | 1 => simp [calls]
  | j + 2 => simp [calls]

/-! ### C145: `reset_tree` while another thread asks for the root -/

/-- One thread resets the tree and puts in new values, another asks for the root meanwhile; a third asks for it when both have
ended. -/
def renewing (vs : List Bytes) : Nat → List HCall
  | 0 => .reset :: vs.map fun v => .call (.put v)
  | 1 => [.call .root]
  | 2 => [.call .root]
  | _ => []

/-- C145, in full: a root asked for when `reset_tree` and the calls of `put` after it have ended is the root of values put in
after the reset (of the first of them, if the tree was made meanwhile). -/
def C145 : Prop :=
  ∀ (H : HashFn) (secure : Bool) (us vs : List Bytes) (sched : List Nat) (n : Nat), vs ≠ [] → 2 ∉ sched →
    let w := (HWorld.new (filled H secure us) (renewing vs)).run H sched
    (w.threads 0).cur = none → (w.threads 0).rest = [] → (w.threads 1).cur = none → (w.threads 1).rest = [] →
    ∀ b, .ok (.bytes b) ∈ ((w.run H (List.replicate n 2)).threads 2).outs →
      ∃ k, 0 < k ∧ b = hexOf (rfcRoot H ((vs.take k).map (leafOf H secure)))

/-- The thread that asks has read `self.leaves` when the tree is reset, and makes the tree of that list afterwards. -/
def overtakenReset : List Nat := List.replicate 6 1 ++ List.replicate 13 0 ++ List.replicate 30 1

/-- C145 does not hold: the tree holds the new values, and gives the root of the old ones to everybody who asks. -/
theorem C145_false : ¬ C145 := by
  intro h
  obtain ⟨k, hk, e⟩ := h toyHash false [[1], [2]] [[3], [4]] overtakenReset 20 (by simp) (by decide) (by decide +kernel)
    (by decide +kernel) (by decide +kernel) (by decide +kernel) (hexOf (rfcRoot toyHash [[1], [2]])) (by decide +kernel)
  match k with
  | 1 => revert e; decide +kernel
  | k + 2 =>
    have : ([[3], [4]] : List Bytes).take (k + 2) = [[3], [4]] := by simp
    rw [this] at e
    revert e
    decide +kernel

/-- The tree then has the new leaves, is ready, and its lowest level is the list of the old ones; a proof that one of the new
values is there can be made, names the old root, and is not accepted. -/
theorem C145_stays :
    let p : Proof (Bytes × Bytes) := ⟨mtPoi, [], [3], hexOf (rfcRoot toyHash [[1], [2]]), [(right, hexOf [2])]⟩
    let calls : Nat → List HCall := fun j => if j = 2 then [.call .count, .call (.poi [] [3]), .call (.verify p)] else renewing [[3], [4]] j
    let w := (HWorld.new (filled toyHash false [[1], [2]]) calls).run toyHash (overtakenReset ++ List.replicate 30 2)
    w.tree = ⟨false, [[[1], [2]], [[3], [4]]], 1, some [.kept [rfcRoot toyHash [[1], [2]]], .list 0], true⟩ ∧
    (w.threads 2).outs = [.ok (.nat 2), .ok (.proof p), .ok (.bool false)] := by
  refine ⟨by decide +kernel, by decide +kernel⟩

/-- `get_merkle_root` can raise TypeError (`self.levels` is `None` when it is used, after it was not when it was checked),
which it never does when calls are made one after another. -/
theorem C145_raises :
    let calls : Nat → List HCall := fun j => if j = 0 then [.call .root] else if j = 1 then [.reset] else []
    (((HWorld.new (MTree.after toyHash false [.put [1], .make]) calls).run toyHash ([0, 0, 0, 0] ++ List.replicate 5 1 ++ [0, 0])).threads 0).outs =
      [.error .typeError] ∧
    ∀ (H : HashFn) (t : MTree), (MTree.root H t).1 ≠ .error .typeError := by
  refine ⟨by decide +kernel, ?_⟩
  intro H t
  rw [root_apply]
  have : ∀ t : MTree, t.rootRaw ≠ .error .typeError := by
    intro t h
    unfold MTree.rootRaw at h
    split at h
    · next ls _ _ =>
      cases h0 : pyIndex ls 0 with
      | error e =>
        rw [h0] at h
        unfold pyIndex at h0
        split at h0 <;> cases h0
        cases h
      | ok top =>
        rw [h0] at h
        simp only [Except.bind_ok'] at h
        cases h1 : pyIndex top 0 with
        | error e =>
          rw [h1] at h
          unfold pyIndex at h1
          split at h1 <;> cases h1
          cases h
        | ok r => rw [h1] at h; cases h
    · cases h
  cases t.ready <;> exact this _

/-- If every call is made under one lock, `reset_tree` included, the outcomes are those of the calls made one after another
in some order; this order has the calls of each thread in the order in which the thread makes them. -/
theorem C145_lock_partial (H : HashFn) (t : MTree) (calls : Nat → List HCall) (sched : List Nat)
    (hl : (HWorld.new t calls).OneAtATime H sched) :
    let w := (HWorld.new t calls).run H sched
    ∃ order : List (Nat × HCall),
      (∀ j, ofClient j order <+: calls j ∧ (w.threads j).outs = ofClient j (HCall.inTurn H order t)) ∧
      (w.Over → (∀ j, ofClient j order = calls j) ∧ w.tree.Shows (HCall.afterTurns H order t)) := by
  intro w
  obtain ⟨order, ho, hs⟩ := hordered_run (H := H) sched hl
  refine ⟨order, fun j => ⟨?_, ho j⟩, ?_⟩
  · rcases hs with ⟨h, _⟩ | ⟨k, c, p, _, _, h, _⟩
    · exact ⟨_, (h j).2.symm⟩
    · rw [h j, ofClient_append, List.append_assoc]; exact List.prefix_append _ _
  · intro hover
    rcases hs with ⟨h, ht⟩ | ⟨k, c, p, h, _⟩
    · refine ⟨fun j => ?_, ht⟩
      have := (h j).2
      rw [show (((HWorld.new t calls).run H sched).threads j).rest = [] from (hover j).2, List.append_nil] at this
      exact this.symm
    · rw [show (((HWorld.new t calls).run H sched).threads k).cur = none from (hover k).1] at h; cases h

/-- Whatever calls threads have made, in any interleaving: `reset_tree`, when it is not disturbed, leaves a new tree. -/
theorem C145_reset_partial (H : HashFn) (t : MTree) (calls : Nat → List HCall) (sched : List Nat) :
    let s := ((HWorld.new t calls).run H sched).tree
    ∃ n s', HProg.alone H n (HCall.prog H s.secure .reset) s = (.done (.ok .none), s') ∧ s'.Shows (MTree.new s.secure) := by
  intro s
  refine ⟨3, { s with lists := s.lists ++ [[]], leaves := s.lists.length, levels := none, ready := false }, rfl, rfl, ?_, rfl, rfl⟩
  show (s.lists ++ [[]])[s.lists.length]? = some []
  simp

/-- Whatever calls threads have made, in any interleaving: `make_tree`, when it is not disturbed, makes the tree of the leaves
there are. -/
theorem C145_make_partial (H : HashFn) (t : MTree) (calls : Nat → List HCall) (sched : List Nat) :
    let s := ((HWorld.new t calls).run H sched).tree
    ∃ L, s.lists[s.leaves]? = some L ∧
      (L ≠ [] → ∃ n s', HProg.alone H n (HCall.prog H s.secure (.call .make)) s = (.done (.ok .none), s') ∧
        s'.Shows (MTree.make H ⟨s.secure, L, none, false⟩).2 ∧
        (MTree.root H (MTree.make H ⟨s.secure, L, none, false⟩).2).1 = .ok (hexOf (rfcRoot H L))) := by
  intro s
  have hlt : s.leaves < s.lists.length := leaves_lt sched
  refine ⟨s.lists[s.leaves], List.getElem?_eq_getElem hlt, fun hne => ?_⟩
  obtain ⟨s', h1, h2⟩ := hmake_goes (H := H) (List.getElem?_eq_getElem hlt) hne
  obtain ⟨n, hn⟩ := h1.alone
  have e : (MTree.make H ⟨s.secure, s.lists[s.leaves], none, false⟩).2 = built H s.secure s.lists[s.leaves] := by
    rw [make_eq H ⟨s.secure, s.lists[s.leaves], none, false⟩ hne]
  rw [e]
  exact ⟨n, s', hn, h2, by rw [built_root H _ _ hne]⟩

/-- The tree of `C145_false` after `make_tree`: the thread that asks next gets the root of the values it holds. -/
example :
    let calls : Nat → List HCall := fun j => if j = 2 then [.call .root, .call .make, .call .root] else renewing [[3], [4]] j
    let w := (HWorld.new (filled toyHash false [[1], [2]]) calls).run toyHash (overtakenReset ++ List.replicate 40 2)
    (w.threads 2).outs = [.ok (.bytes (hexOf (rfcRoot toyHash [[1], [2]]))), .ok .none,
      .ok (.bytes (hexOf (rfcRoot toyHash [[3], [4]])))] := by decide +kernel

/-- A thread that resets a tree and one that asks for the root, one after the other. -/
def resetAndAsk : Nat → List HCall
  | 0 => [.reset, .call (.put [5])]
  | 1 => [.call .root]
  | _ => []

/-- The schedule `0 … 0 1 … 1` never has two calls in progress. -/
example : (HWorld.new (filled toyHash false [[1]]) resetAndAsk).OneAtATime toyHash (List.replicate 9 0 ++ List.replicate 20 1) ∧
    (((HWorld.new (filled toyHash false [[1]]) resetAndAsk).run toyHash (List.replicate 9 0 ++ List.replicate 20 1)).threads 1).outs =
      [.ok (.bytes (hexOf [5]))] := by
  refine ⟨?_, by decide +kernel⟩
  have small : ∀ q, q < 30 →
      (((HWorld.new (filled toyHash false [[1]]) resetAndAsk).run toyHash
        ((List.replicate 9 0 ++ List.replicate 20 1).take q)).threads 0).cur.isNone ||
      (((HWorld.new (filled toyHash false [[1]]) resetAndAsk).run toyHash
        ((List.replicate 9 0 ++ List.replicate 20 1).take q)).threads 1).cur.isNone := by decide +kernel
  have all : ∀ q,
      (((HWorld.new (filled toyHash false [[1]]) resetAndAsk).run toyHash
        ((List.replicate 9 0 ++ List.replicate 20 1).take q)).threads 0).cur = none ∨
      (((HWorld.new (filled toyHash false [[1]]) resetAndAsk).run toyHash
        ((List.replicate 9 0 ++ List.replicate 20 1).take q)).threads 1).cur = none := by
    intro q
    by_cases hq : q < 30
    · simpa using small q hq
    · rw [List.take_of_length_le (by simp; omega)]
      have := small 29 (by omega)
      rw [List.take_of_length_le (by simp)] at this
      simpa using this
  intro q i j hij
  by_cases hi : 2 ≤ i
  · exact .inl (hidle_run _ _ (by match i, hi with | i + 2, _ => exact ⟨rfl, rfl⟩)).2
  by_cases hj : 2 ≤ j
  · exact .inr (hidle_run _ _ (by match j, hj with | j + 2, _ => exact ⟨rfl, rfl⟩)).2
  match i, j, hij, hi, hj with
  | 0, 1, _, _, _ => exact all q
  | 1, 0, _, _, _ => exact (all q).symm
  | 0, 0, h, _, _ => exact absurd rfl h
  | 1, 1, h, _, _ => exact absurd rfl h
  | i + 2, _, _, h, _ => omega
  | _, j + 2, _, _, h => omega

end Pymt.Props
