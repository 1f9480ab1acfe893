import Verif.Model.ProofThreads

/-!
# Property C150: threads that loop over the same `Proof`
-/

namespace Pymt.Props

/-- **C150** Threads that loop over one `Proof` object each get its fields: in any interleaving, a thread that has ended its
loop has got the five items. -/
def C150 : Prop :=
  ∀ (p : Proof Entry) (f : Nat) (schedule : List Nat) (i : Nat) (r : Py (List ProofItem)), 6 ≤ f →
    ((LWorld.start p fun _ => LProg.list f).run schedule).out i = some r → r = .ok p.items

/-- A proof. -/
def loopedProof : Proof Entry := ⟨mtPoi, [1], [2], [3], []⟩

/-- Rounds of a loop, of six accesses each. -/
def turns (i n : Nat) : List Nat := List.replicate (6 * n) i

/-- Thread 0 makes two rounds, thread 1 starts its loop and makes two rounds, thread 0 ends its loop, and so does thread
1. -/
def tornLoops : List Nat := [0, 0] ++ turns 0 2 ++ [1, 1] ++ turns 1 2 ++ turns 0 4 ++ turns 1 1

/-- Threads that take turns between rounds only: thread 1 misses three items. -/
theorem C150_misses :
    ((LWorld.start loopedProof fun _ => LProg.list 10).run tornLoops).out 1 = some (.ok (loopedProof.items.take 2)) := by
  decide +kernel

/-- The property is false. -/
theorem C150_false : ¬ C150 := by
  intro h
  exact absurd (h _ _ _ _ _ (by decide) C150_misses) (by decide)

/-- Both threads see that one item is left, and both go on: `__next__` raises IndexError in both. -/
theorem C150_raises :
    let w := (LWorld.start loopedProof fun _ => LProg.list 10).run
      ([0, 0, 1, 1] ++ turns 0 4 ++ [0, 0, 1, 1, 0, 0, 1, 1, 1, 1, 0, 0])
    w.out 0 = some (.error .indexError) ∧ w.out 1 = some (.error .indexError) := by decide +kernel

/-- A loop may begin with the last item: another loop starts between `_offset += 1` and the use of `_offset - 1`. -/
theorem C150_order :
    let w := (LWorld.start loopedProof fun _ => LProg.list 10).run ([0, 0, 0, 0, 0, 0, 1, 1, 0, 0] ++ turns 0 5 ++ [0, 0])
    w.out 0 = some (.ok (loopedProof.items.getLast?.toList ++ loopedProof.items)) := by decide +kernel

/-! ### What holds -/

/-- What a thread may still do when both attributes are there: it ends with items of the list, or with IndexError. -/
def Decent (items : List ProofItem) : LProg (List ProofItem) → Prop
  | .done r => (∃ l, r = .ok l ∧ ∀ x ∈ l, x ∈ items) ∨ r = .error .indexError
  | .setData p => Decent items p
  | .setOffset _ p => Decent items p
  | .data k => Decent items (k (some items))
  | .offset k => ∀ n, Decent items (k (some n))

theorem pyIndexInt_cases {α : Type} (l : List α) (i : Int) :
    (∃ x ∈ l, MTree.pyIndexInt l i = .ok x) ∨ MTree.pyIndexInt l i = .error .indexError := by
  have h : ∀ n, (∃ x ∈ l, pyIndex l n = .ok x) ∨ pyIndex l n = .error .indexError := by
    intro n
    unfold pyIndex
    cases h : l[n]? with
    | none => exact .inr rfl
    | some x => exact .inl ⟨x, List.mem_of_getElem? h, rfl⟩
  unfold MTree.pyIndexInt
  split
  · exact h _
  · split
    · exact h _
    · exact .inr rfl

theorem Decent.next {items : List ProofItem} {k : Option ProofItem → LProg (List ProofItem)} (h0 : Decent items (k none))
    (h1 : ∀ x ∈ items, Decent items (k (some x))) : Decent items (LProg.next k) := by
  intro n
  show Decent items (if n ≥ items.length then k none else _)
  split
  · exact h0
  · intro n m
    show Decent items (match MTree.pyIndexInt items ((m : Int) - 1) with | .error e => _ | .ok x => _)
    rcases pyIndexInt_cases items ((m : Int) - 1) with ⟨x, hx, e⟩ | e
    · rw [e]; exact h1 x hx
    · rw [e]; exact .inr rfl

theorem Decent.rounds {items : List ProofItem} : ∀ (f : Nat) (got : List ProofItem), (∀ x ∈ got, x ∈ items) →
    Decent items (LProg.rounds f got)
  | 0, got, h => .inl ⟨got, rfl, h⟩
  | f + 1, got, h => Decent.next (.inl ⟨got, rfl, h⟩) fun x hx => Decent.rounds f _ (by
      intro y hy
      rcases List.mem_append.1 hy with hy | hy
      · exact h y hy
      · simp at hy; exact hy ▸ hx)

/-- The state of the threads: each has not begun, or has set `_data`, or has set both attributes. -/
structure LoopsOk (w : LWorld (List ProofItem)) : Prop where
  data : w.data = none ∨ w.data = some w.items
  threads : ∀ i, (∃ q, w.thread i = .setData (.setOffset 0 q) ∧ Decent w.items q) ∨
    (w.data = some w.items ∧ ∃ q, w.thread i = .setOffset 0 q ∧ Decent w.items q) ∨
    (w.data = some w.items ∧ (∃ n, w.offset = some n) ∧ Decent w.items (w.thread i))

theorem LoopsOk.step {w : LWorld (List ProofItem)} (h : LoopsOk w) (i : Nat) : LoopsOk (w.step i) ∧ (w.step i).items = w.items := by
  obtain ⟨items, data, offset, thread⟩ := w
  obtain ⟨hd, ht⟩ := h
  have keep : ∀ (d : Option (List ProofItem)) (o : Option Nat) (p : LProg (List ProofItem)),
      (d = none ∨ d = some items) → (data = some items → d = some items) → ((∃ n, offset = some n) → ∃ n, o = some n) →
      ((∃ q, p = .setData (.setOffset 0 q) ∧ Decent items q) ∨
        (d = some items ∧ ∃ q, p = .setOffset 0 q ∧ Decent items q) ∨
        (d = some items ∧ (∃ n, o = some n) ∧ Decent items p)) →
      LoopsOk (LWorld.put ⟨items, d, o, thread⟩ i p) := by
    intro d o p h1 h2 h3 h4
    refine ⟨h1, fun j => ?_⟩
    by_cases hj : j = i
    · subst hj; simpa [LWorld.put] using h4
    · simp only [LWorld.put, hj, if_false]
      rcases ht j with h | ⟨h, h'⟩ | ⟨h, h', h''⟩
      · exact .inl h
      · exact .inr (.inl ⟨h2 h, h'⟩)
      · exact .inr (.inr ⟨h2 h, h3 h', h''⟩)
  have hi := ht i
  simp only at hi hd
  simp only [LWorld.step]
  rcases hi with ⟨q, e, hq⟩ | ⟨h, q, e, hq⟩ | ⟨h, ⟨n, hn⟩, hq⟩
  · rw [e]
    exact ⟨keep _ _ _ (.inr rfl) (fun _ => rfl) id (.inr (.inl ⟨rfl, q, rfl, hq⟩)), rfl⟩
  · rw [e]
    exact ⟨keep _ _ _ hd id (fun _ => ⟨0, rfl⟩) (.inr (.inr ⟨h, ⟨0, rfl⟩, hq⟩)), rfl⟩
  · cases e : thread i with
    | done r => exact ⟨⟨hd, ht⟩, rfl⟩
    | setData p =>
      rw [e] at hq
      exact ⟨keep _ _ _ (.inr rfl) (fun _ => rfl) id (.inr (.inr ⟨rfl, ⟨n, hn⟩, hq⟩)), rfl⟩
    | setOffset m p =>
      rw [e] at hq
      exact ⟨keep _ _ _ hd id (fun _ => ⟨m, rfl⟩) (.inr (.inr ⟨h, ⟨m, rfl⟩, hq⟩)), rfl⟩
    | data k =>
      rw [e] at hq
      subst h
      exact ⟨keep _ _ _ hd id id (.inr (.inr ⟨rfl, ⟨n, hn⟩, hq⟩)), rfl⟩
    | offset k =>
      rw [e] at hq
      subst hn
      exact ⟨keep _ _ _ hd id id (.inr (.inr ⟨h, ⟨n, rfl⟩, hq n⟩)), rfl⟩

theorem LoopsOk.run : ∀ (s : List Nat) {w : LWorld (List ProofItem)}, LoopsOk w →
    LoopsOk (w.run s) ∧ (w.run s).items = w.items
  | [], _, h => ⟨h, rfl⟩
  | i :: s, _, h => by
    obtain ⟨h1, h2⟩ := h.step i
    obtain ⟨h3, h4⟩ := LoopsOk.run s h1
    exact ⟨h3, h4.trans h2⟩

/-- C150 in part: in any interleaving, with any number of threads, a loop gets nothing but items of the proof, and the only
exception is IndexError. -/
theorem C150_partial (p : Proof Entry) (rounds : Nat → Nat) (schedule : List Nat) (i : Nat) (r : Py (List ProofItem))
    (h : ((LWorld.start p fun j => LProg.list (rounds j)).run schedule).out i = some r) :
    (∃ l, r = .ok l ∧ ∀ x ∈ l, x ∈ p.items) ∨ r = .error .indexError := by
  have h0 : LoopsOk (LWorld.start p fun j => LProg.list (rounds j)) :=
    ⟨.inl rfl, fun j => .inl ⟨_, rfl, Decent.rounds _ _ (by simp)⟩⟩
  obtain ⟨⟨_, h1⟩, h2⟩ := LoopsOk.run schedule h0
  unfold LWorld.out at h
  rcases h1 i with ⟨q, e, _⟩ | ⟨_, q, e, _⟩ | ⟨_, _, hd⟩
  · rw [e] at h; cases h
  · rw [e] at h; cases h
  · split at h
    · rename_i e
      cases h
      rw [e, h2] at hd
      exact hd
    · cases h

-- The hypothesis is met: a loop that ends, with other loops in between.
example : ((LWorld.start loopedProof fun _ => LProg.list 6).run tornLoops).out 0 = some (.ok loopedProof.items) := by
  decide +kernel

/-! ### Loops under a lock -/

/-- A thread that is not interrupted. -/
def undisturbed {α : Type} (items : List ProofItem) :
    Nat → LProg α × Option (List ProofItem) × Option Nat → LProg α × Option (List ProofItem) × Option Nat
  | 0, s => s
  | n + 1, (p, d, o) =>
    undisturbed items n (match p with
      | .done r => (.done r, d, o)
      | .setData p => (p, some items, o)
      | .setOffset m p => (p, d, some m)
      | .data k => (k d, d, o)
      | .offset k => (k o, d, o))

theorem run_undisturbed {α : Type} (i : Nat) : ∀ (n : Nat) (w : LWorld α),
    w.run (List.replicate n i) =
      (let s := undisturbed w.items n (w.thread i, w.data, w.offset)
       { items := w.items, data := s.2.1, offset := s.2.2, thread := fun j => if j = i then s.1 else w.thread j })
  | 0, ⟨items, data, offset, thread⟩ => by
    simp only [List.replicate, LWorld.run, undisturbed]
    congr 1
    funext j
    split
    · rename_i h; rw [h]
    · rfl
  | n + 1, ⟨items, data, offset, thread⟩ => by
    rw [List.replicate_succ, LWorld.run, run_undisturbed i n]
    simp only [LWorld.step, undisturbed]
    cases e : thread i <;> simp only [LWorld.put, e, if_true] <;> congr 1 <;> funext j <;> split <;> rfl

theorem lrun_append {α : Type} : ∀ (s s' : List Nat) (w : LWorld α), w.run (s ++ s') = (w.run s).run s'
  | [], _, _ => rfl
  | _ :: s, s', _ => lrun_append s s' _

/-- C150 for loops under one lock: the loops are made one after another, in some order, each from `iter()` to its end. -/
theorem C150_lock_partial (p : Proof Entry) (f : Nat) (hf : 6 ≤ f) (order : List Nat) (i : Nat) (hi : i ∈ order)
    (w : LWorld (List ProofItem)) (hw : w.items = p.items) (ht : ∀ j ∈ order, w.thread j = LProg.list f ∨
      w.thread j = .done (.ok p.items)) :
    (w.run (order.flatMap fun j => List.replicate 34 j)).out i = some (.ok p.items) := by
  obtain ⟨f, rfl⟩ : ∃ g, f = g + 6 := ⟨f - 6, by omega⟩
  have key : ∀ (order : List Nat) (w : LWorld (List ProofItem)), w.items = p.items →
      (∀ j ∈ order, w.thread j = LProg.list (f + 6) ∨ w.thread j = .done (.ok p.items)) →
      (w.thread i = .done (.ok p.items) ∨ i ∈ order) →
      (w.run (order.flatMap fun j => List.replicate 34 j)).thread i = .done (.ok p.items) := by
    intro order
    induction order with
    | nil => intro w _ _ h; exact h.elim id (by simp)
    | cons j order ih =>
      intro w hw ht h
      have hj : ((w.run (List.replicate 34 j)).thread j = .done (.ok p.items)) ∧
          (w.run (List.replicate 34 j)).items = p.items ∧
          ∀ j', j' ≠ j → (w.run (List.replicate 34 j)).thread j' = w.thread j' := by
        rw [run_undisturbed]
        refine ⟨?_, hw, fun j' h => by simp [h]⟩
        simp only [if_true]
        rcases ht j (by simp) with e | e <;> rw [e, hw] <;> rfl
      rw [List.flatMap_cons, lrun_append]
      refine ih _ hj.2.1 (fun j' h' => ?_) ?_
      · by_cases hjj : j' = j
        · exact .inr (hjj ▸ hj.1)
        · rw [hj.2.2 j' hjj]; exact ht j' (by simp [h'])
      · by_cases hij : i = j
        · exact .inl (hij ▸ hj.1)
        · rcases h with h | h
          · exact .inl (by rw [hj.2.2 i hij]; exact h)
          · exact .inr (by simpa [hij] using h)
  simp only [LWorld.out, key order w hw ht (.inr hi)]

-- Three threads; a loop that another has left unfinished does not matter.
example : let w := (LWorld.start loopedProof fun _ => LProg.list 6).run [7, 7, 7, 7, 7]
    w.items = loopedProof.items ∧ (∀ j ∈ [2, 0, 1], w.thread j = LProg.list 6 ∨ w.thread j = .done (.ok loopedProof.items)) ∧
    w.offset = some 0 := by
  refine ⟨by decide +kernel, ?_, by decide +kernel⟩
  intro j hj
  simp at hj
  rcases hj with rfl | rfl | rfl <;> exact .inl rfl

end Pymt.Props
