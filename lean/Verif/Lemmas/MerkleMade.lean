import Verif.Lemmas.MerkleWorld

/-!
# Threads that use a `MerkleTree` that is made while others add leaves
-/

namespace Pymt

open MTree MProg

/-- The tree with these leaves instead of its own (and the levels it has). -/
def MTree.holding (t : MTree) (L : List Bytes) : MTree := { t with leaves := L }

section Made

variable {H : HashFn} {t : MTree}

/-- Whatever others add to the leaves, `L` at the moment, this program changes nothing and ends with `r`. -/
inductive Decided (H : HashFn) (t : MTree) (r : Py MAns) : List Bytes → MProg MAns → Prop
  | over {L : List Bytes} : Decided H t r L (.done r)
  | step {L : List Bytes} {p : MProg MAns} (hp : ∀ x, p ≠ .done x)
      (hs : ∀ L', L <+: L' → (p.step H (t.holding L').shared).2 = (t.holding L').shared)
      (h : ∀ L', L <+: L' → Decided H t r L' (p.step H (t.holding L').shared).1) : Decided H t r L p

/-- Whatever others add to the leaves, `L` at the moment, there will be a moment when this program does, for all that can
be seen, all that the call does when it is made alone. -/
inductive Undecided (H : HashFn) (t : MTree) (c : MCall) : List Bytes → MProg MAns → Prop
  | over {L : List Bytes} {r : Py MAns} (h : ∀ L', L <+: L' → c.alone H (t.holding L') = (r, t.holding L')) :
      Undecided H t c L (.done r)
  | step {L : List Bytes} {p : MProg MAns} (now : List Bytes → Prop) (hp : ∀ x, p ≠ .done x)
      (h1 : ∀ L', L <+: L' → ¬ now L' → (p.step H (t.holding L').shared).2 = (t.holding L').shared)
      (h2 : ∀ L', L <+: L' → ¬ now L' → Undecided H t c L' (p.step H (t.holding L').shared).1)
      (h3 : ∀ L', L <+: L' → now L' → ∃ L'', L' <+: L'' ∧ (c.alone H (t.holding L')).2 = t.holding L'' ∧
        (p.step H (t.holding L').shared).2 = (t.holding L'').shared ∧
        Decided H t (c.alone H (t.holding L')).1 L'' (p.step H (t.holding L').shared).1) : Undecided H t c L p

theorem Decided.mono {r : Py MAns} {L L' : List Bytes} {p : MProg MAns} (h : Decided H t r L p) (hL : L <+: L') :
    Decided H t r L' p := by
  cases h with
  | over => exact .over
  | step hp hs h => exact .step hp (fun M hM => hs M (hL.trans hM)) (fun M hM => h M (hL.trans hM))

theorem Undecided.mono {c : MCall} {L L' : List Bytes} {p : MProg MAns} (h : Undecided H t c L p) (hL : L <+: L') :
    Undecided H t c L' p := by
  cases h with
  | over h => exact .over fun M hM => h M (hL.trans hM)
  | step now hp h1 h2 h3 =>
    exact .step now hp (fun M hM => h1 M (hL.trans hM)) (fun M hM => h2 M (hL.trans hM)) (fun M hM => h3 M (hL.trans hM))

/-- A step at which nothing is decided yet. -/
theorem Undecided.later {c : MCall} {L : List Bytes} {p : MProg MAns} (hp : ∀ x, p ≠ .done x)
    (h : ∀ L', L <+: L' → (p.step H (t.holding L').shared).2 = (t.holding L').shared ∧
      Undecided H t c L' (p.step H (t.holding L').shared).1) : Undecided H t c L p :=
  .step (fun _ => False) hp (fun L' hL _ => (h L' hL).1) (fun L' hL _ => (h L' hL).2) (fun _ _ hf => hf.elim)

/-- The step at which a call that changes nothing is decided. -/
theorem Undecided.now {c : MCall} {L : List Bytes} {p : MProg MAns} (hp : ∀ x, p ≠ .done x)
    (h : ∀ L', L <+: L' → (p.step H (t.holding L').shared).2 = (t.holding L').shared ∧
      (c.alone H (t.holding L')).2 = t.holding L' ∧
      Decided H t (c.alone H (t.holding L')).1 L' (p.step H (t.holding L').shared).1) : Undecided H t c L p :=
  .step (fun _ => True) hp (fun _ _ hf => (hf trivial).elim) (fun _ _ hf => (hf trivial).elim)
    (fun L' hL _ => ⟨L', List.prefix_refl _, (h L' hL).2.1, (h L' hL).1, (h L' hL).2.2⟩)

theorem Decided.read {r : Py MAns} {L : List Bytes} {p : MProg MAns} (hp : ∀ x, p ≠ .done x)
    (h : ∀ L', L <+: L' → (p.step H (t.holding L').shared).2 = (t.holding L').shared ∧
      Decided H t r L' (p.step H (t.holding L').shared).1) : Decided H t r L p :=
  .step hp (fun L' hL => (h L' hL).1) (fun L' hL => (h L' hL).2)

/-! ### The root -/

/-- On a made tree the root does not depend on leaves added later. -/
theorem rootRaw_holding (hu : t.upper ≠ none → t.leaves ≠ []) {L : List Bytes} (hL : t.leaves <+: L) :
    (t.holding L).rootRaw = t.rootRaw := by
  obtain ⟨more, rfl⟩ := hL
  unfold MTree.rootRaw MTree.levels MTree.holding
  cases hup : t.upper with
  | none => rfl
  | some u =>
    cases u with
    | cons a u => cases t.ready <;> rfl
    | nil =>
      cases hl : t.leaves with
      | nil => exact absurd hl (hu (by rw [hup]; simp))
      | cons b l => cases t.ready <;> rfl

theorem holding_levels (L : List Bytes) : (t.holding L).shared.levels = t.shared.levels := rfl

theorem Decided.rootRaw (hr : t.ready = true) (hu : t.upper ≠ none → t.leaves ≠ []) {L : List Bytes} (hL : t.leaves <+: L)
    (g : Bytes → Py MAns) :
    Decided H t (t.rootRaw >>= g) L (MProg.rootRaw fun b => .done (g b)) := by
  unfold MProg.rootRaw
  refine .read (by simp) fun L1 h1 => ⟨rfl, ?_⟩
  have hr1 : (t.holding L1).shared.ready = true := hr
  simp only [MProg.step, hr1, if_true]
  refine .read (by simp) fun L2 h2 => ⟨rfl, ?_⟩
  simp only [MProg.step, holding_levels]
  unfold MTree.rootRaw MTree.levels
  have hlv : t.shared.levels = t.upper.map fun u => u.map LevelRef.kept ++ [.leaves] := rfl
  rw [hlv]
  cases hup : t.upper with
  | none => simp only [Option.map_none, hr]; exact .over
  | some u =>
    simp only [Option.map_some, hr, withLevel]
    refine .read (by simp) fun L3 h3 => ⟨rfl, ?_⟩
    simp only [MProg.step, holding_levels, hlv, hup, Option.map_some, onLevel]
    cases u with
    | cons a u =>
      simp only [List.map_cons, List.cons_append, List.getElem?_cons_zero, pyIndex, Except.bind_ok']
      cases a[0]? with
      | none => simp only [Except.bind_error']; exact .over
      | some b => simp only [Except.bind_ok', Except.pure_ok']; exact .over
    | nil =>
      simp only [List.map_nil, List.nil_append, List.getElem?_cons_zero, pyIndex, Except.bind_ok']
      refine .read (by simp) fun L4 h4 => ⟨rfl, ?_⟩
      have hl4 : (t.holding L4).shared.leaves = L4 := rfl
      simp only [MProg.step, hl4]
      have hp := hL.trans (h1.trans (h2.trans (h3.trans h4)))
      cases hl : t.leaves with
      | nil => exact absurd hl (hu (by rw [hup]; simp))
      | cons b l =>
        rw [hl] at hp
        obtain ⟨more, rfl⟩ := hp
        simp only [List.cons_append, List.getElem?_cons_zero, Except.bind_ok', Except.pure_ok']
        exact .over

theorem Decided.root (hr : t.ready = true) (hu : t.upper ≠ none → t.leaves ≠ []) {L : List Bytes} (hL : t.leaves <+: L)
    (g : Bytes → Py MAns) :
    Decided H t (t.rootRaw >>= g) L (MProg.root fun b => .done (g b)) := by
  unfold MProg.root
  refine .read (by simp) fun L1 h1 => ⟨rfl, ?_⟩
  have hr1 : (t.holding L1).shared.ready = true := hr
  simp only [MProg.step, hr1, if_true]
  exact Decided.rootRaw hr hu (hL.trans h1) g

theorem root_holding (hr : t.ready = true) (hu : t.upper ≠ none → t.leaves ≠ []) {L : List Bytes} (hL : t.leaves <+: L) :
    MTree.root H (t.holding L) = (t.rootRaw, t.holding L) := by
  rw [root_apply]
  have : (t.holding L).ready = true := hr
  rw [this, if_pos rfl, rootRaw_holding hu hL]

/-! ### Proofs -/

theorem idxOf?_grow {a : Bytes} {L L' : List Bytes} {i : Nat} (h : L.idxOf? a = some i) (hL : L <+: L') :
    L'.idxOf? a = some i := by
  obtain ⟨more, rfl⟩ := hL
  induction L generalizing i with
  | nil => simp at h
  | cons b L ih =>
    rw [List.cons_append, List.idxOf?_cons]
    rw [List.idxOf?_cons] at h
    by_cases hb : b == a
    · simpa [hb] using h
    · simp only [hb] at h ⊢
      cases hi : L.idxOf? a with
      | none => rw [hi] at h; simp at h
      | some k => rw [ih hi]; rw [hi] at h; exact h

theorem idxOf?_lt {a : Bytes} {L : List Bytes} {i : Nat} (h : L.idxOf? a = some i) : i < L.length := by
  induction L generalizing i with
  | nil => simp at h
  | cons b L ih =>
    rw [List.idxOf?_cons] at h
    by_cases hb : b == a
    · simp [hb] at h; subst h; simp
    · simp only [hb] at h
      cases hi : L.idxOf? a with
      | none => rw [hi] at h; simp at h
      | some k =>
        rw [hi] at h
        have : k + 1 = i := by simpa using h
        have := ih hi
        simp only [List.length_cons]; omega

/-- The part of the loop above the leaves: `u` are the levels made by `make_tree`. -/
theorem Decided.proofLoop {u : List (List Bytes)} (hup : t.upper = some u) {r : Py MAns}
    (f : List (Bytes × Bytes) → MProg MAns) :
    ∀ (x index : Nat) (acc : List (Bytes × Bytes)) (L : List Bytes), x < u.length →
    (match MTree.proofLoop ((u.take (x + 1)).drop 1).reverse index with
      | .ok ps => ∀ L', L <+: L' → Decided H t r L' (f (acc ++ ps))
      | .error e => r = .error e) →
    Decided H t r L (MProg.proofLoop f x index acc) := by
  intro x
  induction x with
  | zero =>
    intro index acc L hx h
    have e : (u.take (0 + 1)).drop 1 = [] := by simp
    rw [e] at h
    simp only [List.reverse_nil, MTree.proofLoop, List.append_nil] at h
    exact h L (List.prefix_refl _)
  | succ x ih =>
    intro index acc L hx h
    obtain ⟨level, hlevel⟩ : ∃ level, u[x + 1]? = some level := ⟨_, List.getElem?_eq_getElem hx⟩
    have e : ((u.take (x + 1 + 1)).drop 1).reverse = level :: ((u.take (x + 1)).drop 1).reverse := by
      rw [List.take_add_one (i := x + 1), hlevel]
      rw [List.drop_append_of_le_length (by simp; omega)]
      simp
    rw [e] at h
    have hlv : t.shared.levels = some (u.map LevelRef.kept ++ [.leaves]) := by simp [MTree.shared, hup]
    have hk : (u.map LevelRef.kept ++ [LevelRef.leaves])[x + 1]? = some (.kept level) := by
      rw [List.getElem?_append_left (by simpa using hx), List.getElem?_map, hlevel]; rfl
    simp only [MProg.proofLoop, withLevel]
    refine .read (by simp) fun L1 h1 => ⟨rfl, ?_⟩
    simp only [MProg.step, holding_levels, hlv, onLevel, hk]
    simp only [MTree.proofLoop] at h
    by_cases hc : index = level.length - 1 ∧ level.length % 2 = 1
    · rw [if_pos hc] at h ⊢
      refine ih (index / 2) acc L1 (by omega) ?_
      generalize MTree.proofLoop ((u.take (x + 1)).drop 1).reverse (index / 2) = q at h
      cases q with
      | error e => exact h
      | ok ps => exact fun L' hL' => h L' (h1.trans hL')
    · rw [if_neg hc] at h ⊢
      refine .read (by simp) fun L2 h2 => ⟨rfl, ?_⟩
      simp only [MProg.step, holding_levels, hlv, onLevel, hk]
      cases hsib : level[if index % 2 = 1 then index - 1 else index + 1]? with
      | none =>
        simp only [pyIndex, hsib, Except.bind_error'] at h
        rw [h]
        exact .over
      | some sibling =>
        simp only [pyIndex, hsib, Except.bind_ok'] at h
        refine ih (index / 2) _ L2 (by omega) ?_
        generalize MTree.proofLoop ((u.take (x + 1)).drop 1).reverse (index / 2) = q at h
        cases q with
        | error e => exact h
        | ok ps =>
          simp only [Except.bind_ok', Except.pure_ok'] at h
          intro L' hL'
          rw [List.append_assoc]
          exact h L' (h1.trans (h2.trans hL'))

/-- What the call of `get_proof_of_inclusion` does on the tree with leaves `L`. -/
theorem poi_alone (hr : t.ready = true) (hu : t.upper ≠ none → t.leaves ≠ []) {L : List Bytes} (hL : t.leaves <+: L)
    (now key : Bytes) :
    (MCall.poi now key).alone H (t.holding L) = ((t.holding L).proofRaw H key >>= fun ps => t.rootRaw >>= fun r =>
      .ok (.proof { type := mtPoi, timestamp := now, targetKey := key, trieRoot := r, proof := ps }), t.holding L) := by
  simp only [MCall.alone, getPoi_eq, root_holding (H := H) hr hu hL]
  cases (t.holding L).proofRaw H key with
  | error e => rfl
  | ok ps =>
    simp only [Except.bind_ok']
    cases t.rootRaw <;> rfl

theorem Undecided.poi (hr : t.ready = true) (hu : t.upper ≠ none → t.leaves ≠ []) {L : List Bytes} (hL : t.leaves <+: L)
    (now key : Bytes) : Undecided H t (.poi now key) L ((MCall.poi now key).prog H t.secure) := by
  simp only [MCall.prog, MProg.proofRaw]
  generalize hf : (fun proof : List (Bytes × Bytes) => MProg.root fun r =>
      MProg.done (.ok (MAns.proof { type := mtPoi, timestamp := now, targetKey := key, trieRoot := r, proof := proof }))) = f
  have hlv : t.shared.levels = t.upper.map fun u => u.map LevelRef.kept ++ [.leaves] := rfl
  have hleaves : ∀ L : List Bytes, (t.holding L).shared.leaves = L := fun _ => rfl
  have hready : ∀ L : List Bytes, (t.holding L).shared.ready = true := fun _ => hr
  have fin : ∀ (ps : List (Bytes × Bytes)) (M : List Bytes), t.leaves <+: M → Decided H t (t.rootRaw >>= fun r =>
      .ok (.proof { type := mtPoi, timestamp := now, targetKey := key, trieRoot := r, proof := ps })) M (f ps) := by
    intro ps M hM
    rw [← hf]
    exact Decided.root hr hu hM _
  refine .step (fun L1 => L1.idxOf? (leafOf H t.secure key) = none) (by simp) (fun _ _ _ => rfl) ?_ ?_
  · -- the leaf is there
    intro L1 h1 hn
    cases hi : L1.idxOf? (leafOf H t.secure key) with
    | none => exact absurd hi hn
    | some index =>
    simp only [MProg.step, hleaves, hi]
    have raw : ∀ M, L1 <+: M → (t.holding M).proofRaw H key = match t.upper with
        | some u => MTree.proofLoop ((u ++ [M]).reverse.dropLast) index
        | none => .error .valueError := by
      intro M hM
      have e : (t.holding M).leaves.idxOf? (leafOf H (t.holding M).secure key) = some index := idxOf?_grow hi hM
      have e' : (t.holding M).ready = true := hr
      have e'' : (t.holding M).levels = t.upper.map (· ++ [M]) := rfl
      unfold MTree.proofRaw
      rw [e, e', e'']
      cases t.upper <;> rfl
    cases hup : t.upper with
    | none =>
      refine .now (by simp) fun L2 h2 => ⟨rfl, ?_⟩
      rw [poi_alone hr hu (hL.trans (h1.trans h2)), raw L2 h2, hup]
      refine ⟨rfl, ?_⟩
      simp only [MProg.step, holding_levels, hlv, hup, Option.map_none, Except.bind_error']
      exact .over
    | some u =>
    refine .later (by simp) fun L2 h2 => ⟨rfl, ?_⟩
    simp only [MProg.step, holding_levels, hlv, hup, Option.map_some]
    refine .later (by simp) fun L3 h3 => ⟨rfl, ?_⟩
    simp only [MProg.step, hready, if_true]
    refine .later (by simp) fun L4 h4 => ⟨rfl, ?_⟩
    simp only [MProg.step]
    have hlen : (u.map LevelRef.kept ++ [LevelRef.leaves]).length - 1 = u.length := by simp
    have h14 := h2.trans (h3.trans h4)
    cases hul : u with
    | nil =>
      refine .now (by simp) fun L5 h5 => ⟨rfl, ?_⟩
      rw [poi_alone hr hu (hL.trans (h1.trans (h14.trans h5))), raw L5 (h14.trans h5), hup, hul]
      refine ⟨rfl, ?_⟩
      simp only [MProg.step, holding_levels, hlv, hup, hul, Option.map_some]
      simp only [List.map_nil, List.nil_append, List.length_singleton, List.reverse_singleton, List.dropLast_singleton,
        MTree.proofLoop, MProg.proofLoop, Except.bind_ok', Nat.sub_self]
      exact fin [] _ (hL.trans (h1.trans (h14.trans h5)))
    | cons a u' =>
    have hul' : u.length = u'.length + 1 := by rw [hul]; rfl
    refine .later (by simp) fun L5 h5 => ⟨rfl, ?_⟩
    simp only [MProg.step, holding_levels, hlv, hup, Option.map_some, hlen, hul']
    simp only [MProg.proofLoop, withLevel]
    have hk : (u.map LevelRef.kept ++ [LevelRef.leaves])[u'.length + 1]? = some .leaves := by
      rw [List.getElem?_append_right (by simp; omega)]; simp [hul']
    refine .later (by simp) fun L6 h6 => ⟨rfl, ?_⟩
    simp only [MProg.step, holding_levels, hlv, hup, Option.map_some, onLevel, hk]
    refine .now (by simp) fun L7 h7 => ⟨rfl, ?_⟩
    have h17 : L1 <+: L7 := h14.trans (h5.trans (h6.trans h7))
    have hL7 : t.leaves <+: L7 := hL.trans (h1.trans h17)
    rw [poi_alone hr hu hL7, raw L7 h17, hup]
    refine ⟨rfl, ?_⟩
    have hlt : index < L7.length := idxOf?_lt (idxOf?_grow hi h17)
    have erev : (u ++ [L7]).reverse.dropLast = L7 :: ((u.take (u'.length + 1)).drop 1).reverse := by
      rw [List.take_of_length_le (by omega), hul]
      simp only [List.cons_append, List.reverse_cons, List.reverse_append, List.reverse_nil, List.nil_append, List.drop_succ_cons,
        List.drop_zero]
      exact List.dropLast_concat (l₁ := L7 :: u'.reverse)
    simp only [erev, MTree.proofLoop, MProg.step, hleaves]
    by_cases hc : index = L7.length - 1 ∧ L7.length % 2 = 1
    · rw [if_pos hc, if_pos hc]
      refine Decided.proofLoop hup f _ _ _ _ (by omega) ?_
      cases MTree.proofLoop ((u.take (u'.length + 1)).drop 1).reverse (index / 2) with
      | error e => simp only [Except.bind_error']
      | ok ps =>
        simp only [Except.bind_ok', List.nil_append]
        exact fun L' hL' => fin ps L' (hL7.trans hL')
    · rw [if_neg hc, if_neg hc]
      refine .read (by simp) fun L8 h8 => ⟨rfl, ?_⟩
      simp only [MProg.step, holding_levels, hlv, hup, Option.map_some, onLevel, hk]
      refine .read (by simp) fun L9 h9 => ⟨rfl, ?_⟩
      simp only [MProg.step, hleaves]
      have hsib : (if index % 2 = 1 then index - 1 else index + 1) < L7.length := by
        split <;> omega
      obtain ⟨sibling, hs⟩ : ∃ b, L7[if index % 2 = 1 then index - 1 else index + 1]? = some b :=
        ⟨_, List.getElem?_eq_getElem hsib⟩
      have hs9 : L9[if index % 2 = 1 then index - 1 else index + 1]? = some sibling := by
        obtain ⟨more, rfl⟩ := h8.trans h9
        rw [List.getElem?_append_left hsib]; exact hs
      simp only [hs9, pyIndex, hs, Except.bind_ok']
      refine Decided.proofLoop hup f _ _ _ _ (by omega) ?_
      cases MTree.proofLoop ((u.take (u'.length + 1)).drop 1).reverse (index / 2) with
      | error e => simp only [Except.bind_error']
      | ok ps =>
        simp only [Except.bind_ok', Except.pure_ok', List.nil_append, List.singleton_append]
        exact fun L' hL' => fin _ L' (hL7.trans (h8.trans (h9.trans hL')))
  · -- the leaf is not there
    intro L1 h1 hn
    refine ⟨L1, List.prefix_refl _, ?_⟩
    rw [poi_alone hr hu (hL.trans h1)]
    refine ⟨rfl, rfl, ?_⟩
    have e : (t.holding L1).leaves.idxOf? (leafOf H (t.holding L1).secure key) = none := hn
    unfold MTree.proofRaw
    rw [e]
    simp only [MProg.step, hleaves, hn, Except.bind_error']
    exact .over

/-! ### All calls but `make_tree` -/

theorem Undecided.plain {L : List Bytes} {c : MCall} (hc : c.Plain) : Undecided H t c L (c.prog H t.secure) := by
  cases c with
  | put v =>
    refine .step (fun _ => True) (by simp [MCall.prog]) (fun _ _ hf => (hf trivial).elim) (fun _ _ hf => (hf trivial).elim) ?_
    intro L1 h1 _
    exact ⟨L1 ++ [leafOf H t.secure v], List.prefix_append _ _, rfl, rfl, .over⟩
  | get i =>
    refine .now (by simp [MCall.prog]) fun L1 h1 => ⟨rfl, rfl, ?_⟩
    have : (MTree.get (t.holding L1) i).map MAns.bytes = (pyIndexInt L1 i).map fun b => .bytes (hexOf b) := by
      unfold MTree.get
      show (pyIndexInt L1 i >>= _).map _ = _
      cases pyIndexInt L1 i <;> rfl
    simp only [MCall.alone, this]
    exact .over
  | count => exact .now (by simp [MCall.prog]) fun L1 h1 => ⟨rfl, rfl, .over⟩
  | _ => exact hc.elim

theorem Undecided.call (hr : t.ready = true) (hu : t.upper ≠ none → t.leaves ≠ []) {L : List Bytes} (hL : t.leaves <+: L)
    (c : MCall) (hc : c ≠ .make) : Undecided H t c L (c.prog H t.secure) := by
  have rooty : ∀ (c : MCall) (g : Bytes → Py MAns),
      (∀ L', t.leaves <+: L' → c.alone H (t.holding L') = (t.rootRaw >>= g, t.holding L')) →
      Undecided H t c L (MProg.root fun b => .done (g b)) := by
    intro c g hg
    unfold MProg.root
    refine .now (by simp) fun L1 h1 => ⟨rfl, ?_⟩
    rw [hg L1 (hL.trans h1)]
    refine ⟨rfl, ?_⟩
    have hr1 : (t.holding L1).shared.ready = true := hr
    simp only [MProg.step, hr1, if_true]
    exact Decided.rootRaw hr hu (hL.trans h1) g
  cases c with
  | make => exact absurd rfl hc
  | put v => exact .plain trivial
  | get i => exact .plain trivial
  | count => exact .plain trivial
  | root =>
    refine rooty .root _ fun L' hL' => ?_
    simp only [MCall.alone, root_holding (H := H) hr hu hL']
    cases t.rootRaw <;> rfl
  | poi now key => exact Undecided.poi hr hu hL now key
  | verify p =>
    simp only [MCall.prog, verify]
    cases hck : checks H p with
    | error e =>
      refine .over fun L' hL' => ?_
      simp only [MCall.alone, verifyPoi_eq, hck]
      rfl
    | ok b =>
      cases b with
      | false =>
        refine .over fun L' hL' => ?_
        simp only [MCall.alone, verifyPoi_eq, hck]
        rfl
      | true =>
        refine rooty (.verify p) _ fun L' hL' => ?_
        simp only [MCall.alone, verifyPoi_eq, hck, root_holding (H := H) hr hu hL']
        cases t.rootRaw <;> rfl

/-! ### Threads -/

/-- A thread among others, when the calls `made` of it have been decided, with outcomes `outs`. -/
def Orderly (H : HashFn) (t : MTree) (L : List Bytes) (calls made : List MCall) (outs : List (Py MAns)) (th : MThread) : Prop :=
  (th.cur = none ∧ calls = made ++ th.rest ∧ outs = th.outs) ∨
  (∃ r p, th.cur = some p ∧ Decided H t r L p ∧ calls = made ++ th.rest ∧ outs = th.outs ++ [r]) ∨
  (∃ c p, th.cur = some p ∧ Undecided H t c L p ∧ calls = made ++ c :: th.rest ∧ outs = th.outs)

theorem Orderly.mono {L L' : List Bytes} {calls made : List MCall} {outs : List (Py MAns)} {th : MThread}
    (h : Orderly H t L calls made outs th) (hL : L <+: L') : Orderly H t L' calls made outs th := by
  rcases h with h | ⟨r, p, h1, h2, h3⟩ | ⟨c, p, h1, h2, h3⟩
  · exact .inl h
  · exact .inr (.inl ⟨r, p, h1, h2.mono hL, h3⟩)
  · exact .inr (.inr ⟨c, p, h1, h2.mono hL, h3⟩)

theorem inTurn_length (H : HashFn) (j : Nat) (order : List (Nat × MCall)) (t : MTree) :
    (ofClient j (MCall.inTurn H order t)).length = (ofClient j order).length := by
  induction order generalizing t with
  | nil => rfl
  | cons e order ih =>
    obtain ⟨i, c⟩ := e
    have := ih (c.alone H t).2
    by_cases h : i = j <;> simp [ofClient, MCall.inTurn, h] at this ⊢ <;> exact this

theorem Orderly.counts {L : List Bytes} {calls : List MCall} {order : List (Nat × MCall)} {j : Nat} {th : MThread}
    (h : Orderly H t L calls (ofClient j order) (ofClient j (MCall.inTurn H order t)) th) :
    th.outs.length ≤ (ofClient j order).length ∧ (ofClient j order).length + th.rest.length ≤ calls.length := by
  have hlen := inTurn_length H j order t
  rcases h with ⟨_, h2, h3⟩ | ⟨r, p, _, _, h2, h3⟩ | ⟨c, p, _, _, h2, h3⟩
  · rw [h3] at hlen; rw [h2, List.length_append]; omega
  · rw [h3, List.length_append] at hlen; rw [h2, List.length_append]; omega
  · rw [h3] at hlen; rw [h2, List.length_append, List.length_cons]; omega

theorem orderly_run {calls : Nat → List MCall}
    (hc : ∀ j, ∀ c ∈ calls j, ∀ L, t.leaves <+: L → Undecided H t c L (c.prog H t.secure)) (sched : List Nat) :
    let w := (MWorld.new t calls).run H sched
    ∃ order L, t.leaves <+: L ∧ MCall.afterTurns H order t = t.holding L ∧ w.tree = (t.holding L).shared ∧
      (∀ j, Orderly H t L (calls j) (ofClient j order) (ofClient j (MCall.inTurn H order t)) (w.threads j)) ∧
      MCall.InTime H (MWorld.new t calls) calls sched order := by
  induction sched using snocRec with
  | nil =>
    refine ⟨[], t.leaves, List.prefix_refl _, rfl, rfl, fun j => .inl ⟨rfl, rfl, rfl⟩, fun q => ⟨[], [], rfl, fun j => ?_⟩⟩
    rw [List.take_nil]
    exact ⟨Nat.le_refl _, by simp [ofClient, MWorld.run, MWorld.new]⟩
  | append_singleton sched j ih =>
    obtain ⟨order, L, hL, hat, ht, hth, htime⟩ := ih
    suffices hstep : ∃ order' L', order <+: order' ∧ t.leaves <+: L' ∧ MCall.afterTurns H order' t = t.holding L' ∧
        (((MWorld.new t calls).run H sched).step H j).tree = (t.holding L').shared ∧
        ∀ i, Orderly H t L' (calls i) (ofClient i order') (ofClient i (MCall.inTurn H order' t))
          ((((MWorld.new t calls).run H sched).step H j).threads i) by
      obtain ⟨order', L', ⟨more, hmore⟩, h1, h2, h3, h4⟩ := hstep
      rw [MWorld.run_snoc]
      refine ⟨order', L', h1, h2, h3, h4, fun q => ?_⟩
      by_cases hq : q ≤ sched.length
      · obtain ⟨first, then', he, hj⟩ := htime q
        refine ⟨first, then' ++ more, by rw [← hmore, he, List.append_assoc], fun i => ?_⟩
        rw [List.take_append_of_le_length hq]
        exact hj i
      · refine ⟨order', [], by simp, fun i => ?_⟩
        rw [List.take_of_length_le (by simp; omega), MWorld.run_snoc]
        exact (h4 i).counts
    clear htime
    generalize (MWorld.new t calls).run H sched = w at ht hth ⊢
    have lift : ∀ th : MThread,
        Orderly H t L (calls j) (ofClient j order) (ofClient j (MCall.inTurn H order t)) th →
        ∀ i, Orderly H t L (calls i) (ofClient i order) (ofClient i (MCall.inTurn H order t))
          (if i = j then th else w.threads i) := by
      intro th h i
      split
      · next e => subst e; exact h
      · exact hth i
    -- the call `c` of thread `j` is decided now
    have decide : ∀ (c : MCall) (L' : List Bytes) (th : MThread), L <+: L' →
        (c.alone H (t.holding L)).2 = t.holding L' →
        Orderly H t L' (calls j) (ofClient j order ++ [c])
          (ofClient j (MCall.inTurn H order t) ++ [(c.alone H (t.holding L)).1]) th →
        MCall.afterTurns H (order ++ [(j, c)]) t = t.holding L' ∧
        ∀ i, Orderly H t L' (calls i) (ofClient i (order ++ [(j, c)])) (ofClient i (MCall.inTurn H (order ++ [(j, c)]) t))
          (if i = j then th else w.threads i) := by
      intro c L' th hLL hal ho
      refine ⟨by rw [afterTurns_append, hat, hal], fun i => ?_⟩
      rw [inTurn_append, ofClient_append, ofClient_append, ofClient_one, ofClient_one, hat]
      by_cases h : i = j
      · subst h
        simp only [if_true]
        exact ho
      · have h' : ¬ j = i := fun e => h e.symm
        rw [if_neg h, if_neg h', if_neg h', List.append_nil, List.append_nil]
        exact (hth i).mono hLL
    have hs : w.tree.secure = t.secure := by rw [ht]; rfl
    have hj := hth j
    rcases MWorld.step_cases H j w with ⟨_, _, e⟩ | ⟨c, rest, e1, e2, e⟩ | ⟨r, e1, e⟩ | ⟨p, e1, e2, e⟩
    · rw [e]; exact ⟨order, L, List.prefix_refl _, hL, hat, ht, hth⟩
    · rw [e]
      refine ⟨order, L, List.prefix_refl _, hL, hat, ht, lift _ ?_⟩
      rcases hj with ⟨h1, h2, h3⟩ | ⟨r, p, h1, _⟩ | ⟨d, p, h1, _⟩
      · exact .inr (.inr ⟨c, _, by rw [hs], hc j c (by rw [h2, e2]; simp) L hL, by rw [h2, e2], h3⟩)
      · rw [h1] at e1; cases e1
      · rw [h1] at e1; cases e1
    · rw [e]
      rcases hj with ⟨h1, h2, h3⟩ | ⟨r', p, h1, hd, h2, h3⟩ | ⟨d, p, h1, hd, h2, h3⟩
      · rw [h1] at e1; cases e1
      · rw [h1] at e1
        cases e1
        refine ⟨order, L, List.prefix_refl _, hL, hat, ht, lift _ ?_⟩
        cases hd with
        | over => exact .inl ⟨rfl, h2, h3⟩
        | step hp => exact absurd rfl (hp r)
      · rw [h1] at e1
        cases e1
        cases hd with
        | step now hp => exact absurd rfl (hp r)
        | over h =>
          have ha := h L (List.prefix_refl _)
          obtain ⟨g1, g2⟩ := decide d L { (w.threads j) with cur := none, outs := (w.threads j).outs ++ [r] }
            (List.prefix_refl _) (by rw [ha]) (.inl ⟨rfl, by simpa using h2, by rw [ha, h3]⟩)
          exact ⟨order ++ [(j, d)], L, List.prefix_append _ _, hL, g1, ht, g2⟩
    · rw [e]
      rcases hj with ⟨h1, h2, h3⟩ | ⟨r', p', h1, hd, h2, h3⟩ | ⟨d, p', h1, hd, h2, h3⟩
      · rw [h1] at e1; cases e1
      · rw [h1] at e1
        cases e1
        cases hd with
        | over => exact absurd rfl (e2 r')
        | step hp hs h =>
          refine ⟨order, L, List.prefix_refl _, hL, hat, ?_, lift _ ?_⟩
          · show (p.step H w.tree).2 = _
            rw [ht]; exact hs L (List.prefix_refl _)
          · refine .inr (.inl ⟨r', _, rfl, ?_, h2, h3⟩)
            rw [ht]; exact h L (List.prefix_refl _)
      · rw [h1] at e1
        cases e1
        cases hd with
        | over h => exact absurd rfl (e2 _)
        | step now hp g1 g2 g3 =>
          by_cases hn : now L
          · obtain ⟨L', hLL, hal, hst, hdec⟩ := g3 L (List.prefix_refl _) hn
            obtain ⟨k1, k2⟩ := decide d L' { (w.threads j) with cur := some (p.step H w.tree).1 } hLL hal
              (.inr (.inl ⟨_, _, rfl, by rw [ht]; exact hdec, by simpa using h2, by rw [h3]⟩))
            refine ⟨order ++ [(j, d)], L', List.prefix_append _ _, hL.trans hLL, k1, ?_, k2⟩
            show (p.step H w.tree).2 = _
            rw [ht]; exact hst
          · refine ⟨order, L, List.prefix_refl _, hL, hat, ?_, lift _ ?_⟩
            · show (p.step H w.tree).2 = _
              rw [ht]; exact g1 L (List.prefix_refl _) hn
            · refine .inr (.inr ⟨d, _, rfl, ?_, h2, h3⟩)
              rw [ht]; exact g2 L (List.prefix_refl _) hn

theorem orderly_outcomes {L : List Bytes} {calls : Nat → List MCall} {order : List (Nat × MCall)} {w : MWorld}
    (h : ∀ j, Orderly H t L (calls j) (ofClient j order) (ofClient j (MCall.inTurn H order t)) (w.threads j)) :
    (∀ j, ofClient j order <+: calls j ∧ (w.threads j).outs <+: ofClient j (MCall.inTurn H order t)) ∧
    (w.Over → ∀ j, ofClient j order = calls j ∧ (w.threads j).outs = ofClient j (MCall.inTurn H order t)) := by
  refine ⟨fun j => ?_, fun hover j => ?_⟩
  · rcases h j with ⟨_, h3, h4⟩ | ⟨r, p, _, _, h3, h4⟩ | ⟨c, p, _, _, h3, h4⟩
    · exact ⟨⟨_, h3.symm⟩, by rw [h4]; exact List.prefix_refl _⟩
    · exact ⟨⟨_, h3.symm⟩, ⟨_, h4.symm⟩⟩
    · exact ⟨⟨_, h3.symm⟩, by rw [h4]; exact List.prefix_refl _⟩
  · obtain ⟨o1, o2⟩ := hover j
    rcases h j with ⟨_, h3, h4⟩ | ⟨r, p, h, _⟩ | ⟨c, p, h, _⟩
    · refine ⟨?_, h4.symm⟩
      rw [o2, List.append_nil] at h3
      exact h3.symm
    · rw [o1] at h; cases h
    · rw [o1] at h; cases h

end Made

/-- A tree that has levels has leaves. -/
theorem after_upper (H : HashFn) (secure : Bool) (ops : List MOp) :
    (MTree.after H secure ops).upper ≠ none → (MTree.after H secure ops).leaves ≠ [] := by
  have make_case : ∀ t : MTree, (t.upper ≠ none → t.leaves ≠ []) →
      ((MTree.make H t).2.upper ≠ none → (MTree.make H t).2.leaves ≠ []) := by
    intro t ih
    by_cases hl : t.leaves.length > 0
    · intro _
      have : (MTree.make H t).2.leaves = t.leaves := by simp [MTree.make, hl]
      rw [this]; exact List.length_pos_iff.mp hl
    · have : (MTree.make H t).2 = { t with ready := true } := by simp [MTree.make, hl]
      rw [this]; exact ih
  induction ops using snocRec with
  | nil => intro h; exact absurd rfl h
  | append_singleton ops op ih =>
    have e : MTree.after H secure (ops ++ [op]) = MTree.exec H op (MTree.after H secure ops) := by
      simp [MTree.after, MTree.run]
    rw [e]
    generalize MTree.after H secure ops = t at ih
    cases op with
    | put v => intro _; simp [MTree.exec, MTree.put]
    | make => exact make_case t ih
    | reset => intro h; exact absurd rfl h
    | root =>
      show ((MTree.root H t).2.upper ≠ none → (MTree.root H t).2.leaves ≠ [])
      rw [root_apply]
      cases t.ready with
      | true => exact ih
      | false => exact make_case t ih

end Pymt
