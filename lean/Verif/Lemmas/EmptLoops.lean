import Verif.Spec.EmptLoops
import Verif.Props.EmptObjects

/-!
# `==` of dicts, `dict(items())`, and the iterator of a dict
-/

namespace Pymt

theorem Value.pyEq_iff (v w : Value) : v.pyEq w = true ↔ v.Alike w := by
  cases v <;> cases w <;> simp [Value.pyEq, Value.Alike]
  all_goals constructor <;> intro h <;> simp_all

/-- A list without repetitions inside another is not longer. -/
theorem nodup_subset_length {α : Type} [DecidableEq α] {a : List α} : ∀ {b : List α}, a.Nodup →
    (∀ x ∈ a, x ∈ b) → a.length ≤ b.length := by
  induction a with
  | nil => intro b _ _; simp
  | cons x a ih =>
    intro b hn hs
    simp only [List.nodup_cons] at hn
    have hx := hs x List.mem_cons_self
    have := ih (b := b.erase x) hn.2 fun y hy =>
      (List.mem_erase_of_ne (by rintro rfl; exact hn.1 hy)).2 (hs y (List.mem_cons_of_mem _ hy))
    rw [List.length_erase_of_mem hx] at this
    have := List.length_pos_of_mem hx
    simp only [List.length_cons]
    omega

/-- With equally many keys, one inclusion is enough. -/
theorem subset_of_length {α : Type} [DecidableEq α] {a b : List α} (hn : a.Nodup)
    (hs : ∀ x ∈ a, x ∈ b) (hl : b.length ≤ a.length) : ∀ y ∈ b, y ∈ a := by
  intro y hy
  refine Decidable.byContradiction fun hna => ?_
  have := nodup_subset_length (b := b.erase y) hn fun x hx =>
    (List.mem_erase_of_ne (by rintro rfl; exact hna hx)).2 (hs x hx)
  rw [List.length_erase_of_mem hy] at this
  have := List.length_pos_of_mem hy
  omega

theorem dictEq_iff {a b : Dict Value} (ha : (a.map (·.1)).Nodup) (hb : (b.map (·.1)).Nodup) :
    dictEq a b = true ↔ AlikeContents (dget a) (dget b) := by
  simp only [dictEq, Bool.and_eq_true, beq_iff_eq, List.all_eq_true]
  constructor
  · rintro ⟨hl, hall⟩ k
    have hfwd : ∀ x ∈ a.map (·.1), x ∈ b.map (·.1) := by
      intro x hx
      obtain ⟨e, he, rfl⟩ := List.mem_map.1 hx
      have := hall e he
      rw [mem_keys_iff]
      intro hn
      rw [hn] at this
      cases this
    cases hk : dget a k with
    | some v =>
      have := hall _ (mem_of_dget hk)
      cases hw : dget b k with
      | none => simp [hw] at this
      | some w =>
        simp only [hw] at this
        exact .inr ⟨v, w, rfl, rfl, (v.pyEq_iff w).1 this⟩
    | none =>
      refine .inl ⟨rfl, Decidable.byContradiction fun hn => ?_⟩
      have := subset_of_length ha hfwd (by simp [hl]) k (mem_keys_iff.2 hn)
      exact mem_keys_iff.1 this hk
  · intro h
    have hkeys : ∀ x, x ∈ a.map (·.1) ↔ x ∈ b.map (·.1) := by
      intro x
      rw [mem_keys_iff, mem_keys_iff]
      rcases h x with ⟨h1, h2⟩ | ⟨v, w, h1, h2, _⟩ <;> simp [h1, h2]
    refine ⟨?_, fun e he => ?_⟩
    · have h1 := nodup_subset_length ha fun x hx => (hkeys x).1 hx
      have h2 := nodup_subset_length hb fun x hx => (hkeys x).2 hx
      simp only [List.length_map] at h1 h2
      omega
    · have hg := dget_mem ha (k := e.1) (v := e.2) he
      rcases h e.1 with ⟨h1, _⟩ | ⟨v, w, h1, h2, h3⟩
      · rw [hg] at h1; cases h1
      · rw [hg] at h1
        cases h1
        rw [h2]
        exact (Value.pyEq_iff _ _).2 h3

theorem dictOf_append (d l : Dict Value) (h : ((d ++ l).map (·.1)).Nodup) :
    l.foldl (fun d e => dset d e.1 e.2) d = d ++ l := by
  induction l generalizing d with
  | nil => simp
  | cons e l ih =>
    rw [List.foldl_cons, dset_new, ih]
    · simp
    · simpa using h
    · intro hm
      simp only [List.map_append, List.map_cons] at h
      have := (List.nodup_append.1 h).2.2 e.1 hm e.1 List.mem_cons_self
      exact this rfl

/-- `dict(pairs)` of pairs with different keys. -/
theorem dictOf_nodup {l : Dict Value} (h : (l.map (·.1)).Nodup) : dictOf l = l := by
  have := dictOf_append [] l (by simpa using h)
  rwa [List.nil_append] at this

/-- The items of a reachable object are the entries of its data storage. -/
theorem EValid.items {E : Env} {secure : Bool} {ops : List EOp} {ks : List Bytes}
    (h : EValid E secure ops ks) :
    (EMPT.after E secure ops).items E = .ok (EMPT.after E secure ops).data := by
  have hm := h.mirror
  refine items_data fun e he => ?_
  have hk : econtents ops e.1 = some e.2 := by rw [← hm.data]; exact dget_mem hm.nodup he
  refine EValid.get_some (k := e.1) ⟨h.fits, ?_, h.sizes, h.log, ?_⟩ hk
  · intro x hx
    simp only [List.mem_singleton] at hx
    subst hx
    exact h.fits _ (econtents_some_mem hk)
  · intro hs
    refine (h.keys hs).mono fun a ha => ?_
    simp only [List.singleton_append, List.mem_cons] at ha
    rcases ha with rfl | ha
    · exact List.mem_append_right _ (List.mem_map.2 ⟨_, econtents_some_mem hk, rfl⟩)
    · exact List.mem_append_right _ ha

/-- What `items()` gives back was checked by `get`. -/
theorem EMPT.items_ok {E : Env} {s : EMPT} {l : List (Bytes × Value)} (h : s.items E = .ok l) :
    ∀ k ∈ s.iter, ∃ v, s.get E k = .ok v ∧ (k, v) ∈ l := by
  have : ∀ ks : List Bytes, ∀ l, ks.mapM (fun key => do let v ← s.get E key; return (key, v)) = (.ok l : Py _) →
      ∀ k ∈ ks, ∃ v, s.get E k = .ok v ∧ (k, v) ∈ l := by
    intro ks
    induction ks with
    | nil => intro l _ k hk; simp at hk
    | cons x ks ih =>
      intro l hl k hk
      rw [List.mapM_cons] at hl
      cases hx : s.get E x with
      | error e => rw [hx] at hl; cases hl
      | ok v =>
        rw [hx] at hl
        simp only [Except.bind_ok', Except.pure_ok'] at hl ih
        cases hr : (ks.mapM fun key => do let v ← s.get E key; .ok (key, v) : Py _) with
        | error e => rw [hr] at hl; cases hl
        | ok r =>
          rw [hr] at hl
          simp only [Except.bind_ok', Except.pure_ok', Except.ok.injEq] at hl
          subst hl
          rcases List.mem_cons.1 hk with rfl | hk
          · exact ⟨v, hx, List.mem_cons_self⟩
          · obtain ⟨w, h1, h2⟩ := ih r hr k hk
            exact ⟨w, h1, List.mem_cons_of_mem _ h2⟩
  exact this s.iter l h

theorem ddel_length_lt {β : Type} {d : Dict β} {k : Bytes} (h : k ∈ d.map (·.1)) :
    (ddel d k).length < d.length := by
  rw [ddel_eq_filter]
  refine Nat.lt_of_le_of_ne (List.length_filter_le _ _) fun he => ?_
  rw [List.length_filter_eq_length_iff] at he
  obtain ⟨e, hm, rfl⟩ := List.mem_map.1 h
  simpa using he e hm

theorem EMPT.exec_after {E : Env} {secure : Bool} {ops : List EOp} {op : EOp} :
    (EMPT.exec E op (EMPT.after E secure ops)).2 = EMPT.after E secure (ops ++ [op]) := by
  rw [EMPT.after_append]; rfl

theorem EValid.drop {E : Env} {secure : Bool} {ops : List EOp} {ks : List Bytes}
    (h : EValid E secure ops ks) : EValid E secure ops [] :=
  ⟨h.fits, by simp, h.sizes, h.log, fun hs => (h.keys hs).mono fun _ ha =>
    List.mem_append_right _ (by simpa using ha)⟩

/-- A call that only replaces a value succeeds and leaves the keys where they are. -/
theorem EValid.replaces {E : Env} {secure : Bool} {ops : List EOp} {op : EOp}
    (h : EValid E secure (ops ++ [op]) []) (hr : op.Replaces (EMPT.after E secure ops).iter) :
    EMPT.exec E op (EMPT.after E secure ops) = (.ok (), EMPT.after E secure (ops ++ [op])) ∧
    (EMPT.after E secure (ops ++ [op])).iter = (EMPT.after E secure ops).iter := by
  match op, hr with
  | .update k v, ⟨hk, hs⟩ =>
    have h1 := (Props.C27_update_total h).1 hs
    have h2 : (EMPT.update E k v (EMPT.after E secure ops)).2 = EMPT.after E secure (ops ++ [.update k v]) :=
      EMPT.exec_after (op := .update k v)
    refine ⟨Prod.ext h1 h2, ?_⟩
    rw [← h2]
    rw [EMPT.update_storable hs] at h1 ⊢
    cases hu : MPT.update E k (refOf E k v) (EMPT.after E secure ops).trie with
    | mk r t =>
      cases r with
      | error e => simp [hu] at h1
      | ok u => exact dset_keys hk

/-- A call that adds or removes a key succeeds and changes the size. -/
theorem EValid.resizes {E : Env} {secure : Bool} {ops : List EOp} {op : EOp}
    (h : EValid E secure (ops ++ [op]) []) (hr : op.Resizes (EMPT.after E secure ops).iter) :
    EMPT.exec E op (EMPT.after E secure ops) = (.ok (), EMPT.after E secure (ops ++ [op])) ∧
    (EMPT.after E secure (ops ++ [op])).len ≠ (EMPT.after E secure ops).len := by
  have h2 := EMPT.exec_after (E := E) (secure := secure) (ops := ops) (op := op)
  match op, hr with
  | .update k v, ⟨hk, hs⟩ =>
    have h1 := (Props.C27_update_total h).1 hs
    refine ⟨Prod.ext h1 h2, ?_⟩
    rw [← h2]
    show (EMPT.update E k v (EMPT.after E secure ops)).2.len ≠ _
    rw [EMPT.update_storable hs] at h1 ⊢
    cases hu : MPT.update E k (refOf E k v) (EMPT.after E secure ops).trie with
    | mk r t =>
      cases r with
      | error e => simp [hu] at h1
      | ok u =>
        simp only [EMPT.len]
        rw [dset_new hk]
        simp
  | .delete k, hk =>
    have hk' : econtents ops k ≠ none := by
      rw [← h.cut.mirror.data]
      exact mem_keys_iff.1 hk
    obtain ⟨s', hd, _⟩ := (Props.C29_delete h).1 hk'
    refine ⟨Prod.ext (by show (EMPT.delete E k _).1 = _; rw [hd]) h2, ?_⟩
    rw [← h2]
    show (EMPT.delete E k (EMPT.after E secure ops)).2.len ≠ _
    rw [EMPT.delete_eq] at hd ⊢
    cases hc : (EMPT.after E secure ops).trie.contains E k with
    | error e => rw [hc] at hd; cases hd
    | ok b =>
      cases b with
      | false => rw [hc] at hd; cases hd
      | true =>
        cases hg : dget (EMPT.after E secure ops).data k with
        | none => exact absurd hg (mem_keys_iff.1 hk)
        | some v => exact Nat.ne_of_lt (ddel_length_lt hk)

theorem EMPT.len_iter (s : EMPT) : s.len = s.iter.length := by simp [EMPT.len, EMPT.iter]

/-- One step of the iterator. -/
theorem EMPT.loopFrom_step {body : Bytes → M EMPT Unit} {s : EMPT} {a rest : List Bytes} {k : Bytes}
    (hk : s.iter = a ++ k :: rest) :
    EMPT.loopFrom body s.len (rest.length + 1) s =
      (do body k; EMPT.loopFrom body s.len rest.length : M EMPT Unit) s := by
  have hi : s.iter[s.len - (rest.length + 1)]? = some k := by
    rw [EMPT.len_iter, hk]
    simp
  rw [EMPT.loopFrom]
  simp only [M.bind_apply, M.get_apply]
  rw [if_neg (by simp), hi]
  rfl

/-- As long as only values are replaced, the loop goes on. -/
theorem EMPT.loopFrom_replaces {E : Env} {secure : Bool} {f : Bytes → EOp} {keys rest : List Bytes} :
    ∀ (mid a : List Bytes) {ops : List EOp}, EValid E secure (ops ++ mid.map f) [] →
    (EMPT.after E secure ops).iter = keys → keys = a ++ (mid ++ rest) →
    (∀ k ∈ mid, (f k).Replaces keys) →
    EMPT.loopFrom (fun k => EMPT.exec E (f k)) keys.length (mid.length + rest.length)
        (EMPT.after E secure ops) =
      EMPT.loopFrom (fun k => EMPT.exec E (f k)) keys.length rest.length
        (EMPT.after E secure (ops ++ mid.map f)) ∧
    (EMPT.after E secure (ops ++ mid.map f)).iter = keys := by
  intro mid
  induction mid with
  | nil => intro a ops _ hi _ _; simp [hi]
  | cons k mid ih =>
    intro a ops h hi hk hr
    have hsplit : ops ++ (k :: mid).map f = (ops ++ [f k]) ++ mid.map f := by simp
    rw [hsplit] at h ⊢
    obtain ⟨h1, h2⟩ := h.cut.drop.replaces (by rw [hi]; exact hr k List.mem_cons_self)
    have := ih (a ++ [k]) h (h2.trans hi) (by simp [hk]) fun x hx => hr x (List.mem_cons_of_mem _ hx)
    refine ⟨?_, this.2⟩
    have hl : (EMPT.after E secure ops).len = keys.length := by rw [EMPT.len_iter, hi]
    have step := EMPT.loopFrom_step (body := fun k => EMPT.exec E (f k)) (s := EMPT.after E secure ops)
      (a := a) (k := k) (rest := mid ++ rest) (by rw [hi, hk]; rfl)
    rw [hl] at step
    rw [show (k :: mid).length + rest.length = (mid ++ rest).length + 1 by simp; omega, step]
    simp only [M.bind_apply, h1]
    rw [List.length_append]
    exact this.1

/-- The same for loops over the items that replace the value they read. -/
theorem EMPT.loopFrom_items {E : Env} {secure : Bool} {f : Bytes → Value → Value} {keys : List Bytes} :
    ∀ (mid : List (Bytes × Value)) (a : List Bytes) {ops : List EOp},
    EValid E secure (ops ++ mid.map fun e => .update e.1 (f e.1 e.2)) [] →
    (EMPT.after E secure ops).iter = keys → keys = a ++ mid.map (·.1) → (mid.map (·.1)).Nodup →
    (∀ e ∈ mid, econtents ops e.1 = some e.2 ∧ (f e.1 e.2).storable = true) →
    EMPT.loopFrom (fun key => do
        let s ← M.get
        let v ← M.lift (s.get E key)
        EMPT.update E key (f key v)) keys.length mid.length (EMPT.after E secure ops) =
      (.ok (), EMPT.after E secure (ops ++ mid.map fun e => .update e.1 (f e.1 e.2))) ∧
    (EMPT.after E secure (ops ++ mid.map fun e => .update e.1 (f e.1 e.2))).iter = keys := by
  intro mid
  induction mid with
  | nil =>
    intro a ops _ hi _ _ _
    have hl : (EMPT.after E secure ops).len = keys.length := by rw [EMPT.len_iter, hi]
    simp only [List.map_nil, List.append_nil, List.length_nil, EMPT.loopFrom, M.bind_apply, M.get_apply, hl]
    rw [if_neg (by simp)]
    exact ⟨rfl, hi⟩
  | cons e mid ih =>
    intro a ops h hi hk hn hr
    obtain ⟨k, v⟩ := e
    have hsplit : ops ++ ((k, v) :: mid).map (fun e => EOp.update e.1 (f e.1 e.2)) =
        (ops ++ [.update k (f k v)]) ++ mid.map fun e => .update e.1 (f e.1 e.2) := by simp
    rw [hsplit] at h ⊢
    obtain ⟨hv, hs⟩ := hr _ List.mem_cons_self
    simp only [List.map_cons, List.nodup_cons] at hn
    obtain ⟨h1, h2⟩ := h.cut.drop.replaces ⟨by rw [hi, hk]; simp, hs⟩
    have := ih (a ++ [k]) h (h2.trans hi) (by simp [hk]) hn.2 fun x hx => by
      obtain ⟨g1, g2⟩ := hr x (List.mem_cons_of_mem _ hx)
      refine ⟨?_, g2⟩
      rw [econtents_append]
      have : x.1 ≠ k := by
        rintro rfl
        exact hn.1 (List.mem_map_of_mem hx)
      simp [EOp.apply, this, g1]
    refine ⟨?_, this.2⟩
    have hl : (EMPT.after E secure ops).len = keys.length := by rw [EMPT.len_iter, hi]
    have step := EMPT.loopFrom_step (body := fun key => do
        let s ← M.get
        let v ← M.lift (s.get E key)
        EMPT.update E key (f key v)) (s := EMPT.after E secure ops)
      (a := a) (k := k) (rest := mid.map (·.1)) (by rw [hi, hk]; rfl)
    rw [hl, List.length_map] at step
    have hg : (EMPT.after E secure ops).get E k = .ok v := by
      have hc := h.cut.cut
      refine EValid.get_some (k := k) ⟨hc.fits, ?_, hc.sizes, hc.log, fun hs => (hc.keys hs).mono ?_⟩ hv
      · intro x hx
        simp only [List.mem_singleton] at hx
        subst hx
        exact hc.fitsq _ (by simp [EOp.key])
      · intro x hx
        rcases List.mem_append.1 hx with hx | hx
        · simp only [List.mem_singleton] at hx
          subst hx
          simp [EOp.key]
        · exact List.mem_append_right _ hx
    rw [show ((k, v) :: mid).length = mid.length + 1 from rfl, step]
    have h1' : EMPT.update E k (f k v) (EMPT.after E secure ops) = _ := h1
    simp only [M.bind_apply, M.get_apply, M.lift_apply, hg, h1']
    exact this.1

end Pymt
