import Verif.Spec.Order
import Verif.Props.EmptObjects
import Verif.Lemmas.EmptLoops

/-!
# The order of the keys of an `EMPT` (C135)
-/

namespace Pymt.Props

theorem addedAt_next {ops : List EOp} {k : Bytes} {i : Nat} (h : AddedAt ops k i) {op : EOp}
    (hk : econtents (ops ++ [op]) k ≠ none) : AddedAt (ops ++ [op]) k i := by
  obtain ⟨h1, h2, h3⟩ := h
  refine ⟨by simp; omega, by rwa [List.take_append_of_le_length (by omega)], fun j hj hl => ?_⟩
  rw [List.length_append, List.length_singleton] at hl
  rcases Nat.lt_or_eq_of_le hl with hlt | rfl
  · rw [List.take_append_of_le_length (by omega)]
    exact h3 j hj (by omega)
  · rwa [List.take_of_length_le (by simp)]

theorem addedAt_now {ops : List EOp} {k : Bytes} {op : EOp} (hk : econtents ops k = none)
    (hk' : econtents (ops ++ [op]) k ≠ none) : AddedAt (ops ++ [op]) k ops.length := by
  refine ⟨by simp, by rwa [List.take_left], fun j hj hl => ?_⟩
  rw [List.length_append, List.length_singleton] at hl
  obtain rfl : j = ops.length + 1 := by omega
  rwa [List.take_of_length_le (by simp)]

/-- Every present key was added by one call, and one call only. -/
theorem exists_added {ops : List EOp} {k : Bytes} (h : econtents ops k ≠ none) : ∃ i, AddedAt ops k i := by
  rw [← List.reverse_reverse ops] at h ⊢
  generalize ops.reverse = l at h ⊢
  induction l with
  | nil => exact absurd rfl h
  | cons op l ih =>
    rw [List.reverse_cons] at h ⊢
    by_cases h0 : econtents l.reverse k = none
    · exact ⟨_, addedAt_now h0 h⟩
    · obtain ⟨i, hi⟩ := ih h0
      exact ⟨i, addedAt_next hi h⟩

theorem added_unique {ops : List EOp} {k : Bytes} {i j : Nat} (h : AddedAt ops k i) (h' : AddedAt ops k j) : i = j := by
  rcases Nat.lt_trichotomy i j with hlt | he | hlt
  · exact absurd h'.2.1 (h.2.2 j hlt (Nat.le_of_lt h'.1))
  · exact he
  · exact absurd h.2.1 (h'.2.2 i hlt (Nat.le_of_lt h.1))

/-- The keys after one more call. -/
theorem iter_step {E : Env} {secure : Bool} {ops : List EOp} {op : EOp} (h : EValid E secure (ops ++ [op]) []) :
    (EMPT.after E secure (ops ++ [op])).iter =
      match (generalizing := false) op with
      | .update k v =>
        if v.storable ∧ k ∉ (EMPT.after E secure ops).iter then (EMPT.after E secure ops).iter ++ [k]
        else (EMPT.after E secure ops).iter
      | .delete k => (EMPT.after E secure ops).iter.filter (· ≠ k) := by
  have h2 := EMPT.exec_after (E := E) (secure := secure) (ops := ops) (op := op)
  match op with
  | .update k v =>
    simp only
    rw [← h2]
    show (EMPT.update E k v (EMPT.after E secure ops)).2.iter = _
    by_cases hs : v.storable
    · have h1 := (Props.C27_update_total h).1 hs
      rw [EMPT.update_storable hs] at h1 ⊢
      cases hu : MPT.update E k (refOf E k v) (EMPT.after E secure ops).trie with
      | mk r t =>
        cases r with
        | error e => simp [hu] at h1
        | ok u =>
          by_cases hk : k ∈ (EMPT.after E secure ops).iter
          · rw [if_neg (by simp [hk])]
            exact dset_keys hk
          · rw [if_pos ⟨hs, hk⟩]
            simp only [EMPT.iter]
            rw [dset_new hk]
            simp
    · obtain ⟨e, he⟩ := EMPT.update_other (E := E) (k := k) (v := v) (by simpa using hs) (EMPT.after E secure ops)
      rw [he, if_neg (by simp [hs])]
  | .delete k =>
    simp only
    have hm := h.cut.mirror
    cases hk : econtents ops k with
    | none =>
      rw [← h2]
      show (EMPT.delete E k (EMPT.after E secure ops)).2.iter = _
      obtain ⟨e, he⟩ := hm.delete_none hk
      rw [he]
      symm
      rw [List.filter_eq_self]
      intro a ha
      have : a ≠ k := by
        rintro rfl
        exact mem_keys_iff.1 (show a ∈ (EMPT.after E secure ops).data.map (·.1) from ha) ((hm.data a).trans hk)
      simpa using this
    | some v =>
      obtain ⟨hd, hdata⟩ := h.delete_ok hk
      unfold EMPT.iter
      rw [hdata, ddel_eq_filter, List.filter_map]
      rfl

/-- **C135** An `EMPT` gives its keys in the order in which they were added: a key whose value is replaced keeps its
place, a key that was deleted and added again comes last.  The keys are the ones present, each once. -/
theorem C135_order {E : Env} {secure : Bool} {ops : List EOp} (h : EValid E secure ops []) :
    (EMPT.after E secure ops).iter.Nodup ∧
    (∀ k, k ∈ (EMPT.after E secure ops).iter ↔ econtents ops k ≠ none) ∧
    (EMPT.after E secure ops).iter.Pairwise
      (fun j k => ∃ i i', AddedAt ops j i ∧ AddedAt ops k i' ∧ i < i') := by
  have hm := h.mirror
  have hmem : ∀ k, k ∈ (EMPT.after E secure ops).iter ↔ econtents ops k ≠ none := by
    intro k
    rw [← hm.data]
    exact mem_keys_iff
  refine ⟨hm.nodup, hmem, ?_⟩
  clear hm hmem
  rw [← List.reverse_reverse ops] at h ⊢
  generalize ops.reverse = l at h ⊢
  induction l with
  | nil => exact List.Pairwise.nil
  | cons op l ih =>
    rw [List.reverse_cons] at h ⊢
    have hpre : EValid E secure l.reverse [] := h.cut.drop
    have ih := ih hpre
    generalize l.reverse = ops at *
    have hm := hpre.mirror
    have hmem : ∀ k, k ∈ (EMPT.after E secure ops).iter ↔ econtents ops k ≠ none := by
      intro k
      rw [← hm.data]
      exact mem_keys_iff
    have hadd : ∀ k ∈ (EMPT.after E secure ops).iter, ∃ i, AddedAt ops k i := by
      intro k hk
      exact exists_added ((hmem k).1 hk)
    rw [iter_step h]
    have keep : ∀ j k, econtents (ops ++ [op]) j ≠ none → econtents (ops ++ [op]) k ≠ none →
        (∃ i i', AddedAt ops j i ∧ AddedAt ops k i' ∧ i < i') →
        ∃ i i', AddedAt (ops ++ [op]) j i ∧ AddedAt (ops ++ [op]) k i' ∧ i < i' := by
      rintro j k hj hk ⟨i, i', h1, h2, h3⟩
      exact ⟨i, i', addedAt_next h1 hj, addedAt_next h2 hk, h3⟩
    match op with
    | .update k v =>
      have stays : ∀ j, econtents ops j ≠ none → econtents (ops ++ [.update k v]) j ≠ none := by
        intro j hj
        rw [econtents_append]
        simp only [EOp.apply]
        split
        · simp
        · exact hj
      have old : (EMPT.after E secure ops).iter.Pairwise
          (fun j k' => ∃ i i', AddedAt (ops ++ [.update k v]) j i ∧ AddedAt (ops ++ [.update k v]) k' i' ∧ i < i') :=
        ih.imp_of_mem fun {j k'} hj hk' hp =>
          keep j k' (stays j ((hmem j).1 hj)) (stays k' ((hmem k').1 hk')) hp
      simp only
      split
      · rename_i hs
        rw [List.pairwise_append]
        refine ⟨old, List.pairwise_singleton _ _, fun j hj k' hk' => ?_⟩
        obtain rfl : k' = k := by simpa using hk'
        obtain ⟨i, hi⟩ := hadd j hj
        refine ⟨i, ops.length, addedAt_next hi (stays j ((hmem j).1 hj)), addedAt_now ?_ ?_, hi.1⟩
        · exact Classical.byContradiction fun hc => hs.2 ((hmem k').2 hc)
        · rw [econtents_append]
          simp [EOp.apply, hs.1]
      · exact old
    | .delete k =>
      refine (ih.filter _).imp_of_mem fun {j k'} hj hk' hp => ?_
      have stays : ∀ j ∈ (EMPT.after E secure ops).iter.filter (· ≠ k), econtents (ops ++ [.delete k]) j ≠ none := by
        intro j hj
        rw [List.mem_filter] at hj
        rw [econtents_append]
        simp only [EOp.apply]
        rw [if_neg (by simpa using hj.2)]
        exact (hmem j).1 hj.1
      exact keep j k' (stays j hj) (stays k' hk') hp

/-- C135, `items()` has the keys in the same order, with their values. -/
theorem C135_items {E : Env} {secure : Bool} {ops : List EOp} (h : EValid E secure ops []) :
    ∃ l, (EMPT.after E secure ops).items E = .ok l ∧ l.map (·.1) = (EMPT.after E secure ops).iter ∧
      ∀ p ∈ l, econtents ops p.1 = some p.2 := by
  refine ⟨_, h.items, rfl, fun p hp => ?_⟩
  rw [← h.mirror.data]
  exact dget_mem h.mirror.nodup hp

/-- C135, `popitem()` takes the key that was added first (that of a `dict` takes the one added last). -/
theorem C135_popitem {E : Env} {secure : Bool} {ops : List EOp} {k : Bytes} {v : Value} {s : EMPT}
    (h : EValid E secure ops []) (hr : EMPT.popitem E (EMPT.after E secure ops) = (.ok (k, v), s)) :
    econtents ops k = some v ∧
      ∀ k', econtents ops k' ≠ none → k' ≠ k → ∃ i i', AddedAt ops k i ∧ AddedAt ops k' i' ∧ i < i' := by
  obtain ⟨_, hmem, hord⟩ := C135_order h
  unfold EMPT.popitem at hr
  simp only [M.bind_apply, M.get_apply] at hr
  cases hi : (EMPT.after E secure ops).iter with
  | nil => rw [hi] at hr; simp [M.raise] at hr
  | cons j rest =>
    rw [hi] at hr hord hmem
    simp only [M.bind_apply, M.lift_apply] at hr
    have hj : econtents ops j ≠ none := (hmem j).1 List.mem_cons_self
    cases hv : econtents ops j with
    | none => exact absurd hv hj
    | some w =>
      have hq : EValid E secure ops [j] := by
        refine ⟨h.fits, ?_, h.sizes, h.log, ?_⟩
        · intro x hx
          obtain ⟨op, ho, hk⟩ : ∃ op ∈ ops, EOp.key op = j := ⟨_, econtents_some_mem hv, rfl⟩
          rw [List.mem_singleton.1 hx, ← hk]
          exact h.fits op ho
        · intro hs
          refine (h.keys hs).mono fun x hx => ?_
          rcases List.mem_append.1 hx with hx | hx
          · obtain ⟨op, ho, hk⟩ : ∃ op ∈ ops, EOp.key op = j := ⟨_, econtents_some_mem hv, rfl⟩
            rw [List.mem_singleton.1 hx, ← hk]
            exact List.mem_append_right _ (List.mem_map_of_mem ho)
          · exact List.mem_append_right _ hx
      rw [hq.get_some hv] at hr
      simp only at hr
      cases hd : EMPT.delete E j (EMPT.after E secure ops) with
      | mk r s' =>
        rw [hd] at hr
        cases r with
        | error e => simp at hr
        | ok u =>
          simp only [M.pure_apply, Prod.mk.injEq, Except.ok.injEq] at hr
          obtain ⟨⟨rfl, rfl⟩, _⟩ := hr
          refine ⟨hv, fun k' hk' hne => ?_⟩
          have hm' : k' ∈ rest := by
            rcases List.mem_cons.1 ((hmem k').2 hk') with he | he
            · exact absurd he hne
            · exact he
          exact (List.pairwise_cons.1 hord).1 k' hm'

/-- A history in which keys are replaced, deleted and added again. -/
def orderOps : List EOp :=
  [.update [0x12] (.bytes [1]), .update [0x34] (.bytes [2]), .update [0x12] (.bytes [3]), .update [0x56] (.bytearray [4]),
    .update [0x56] (.bytes [4]), .delete [0x34], .update [0x34] (.bytes [5]), .delete [0x78]]

example : EValid toyEnv false orderOps [] ∧ EValid toyEnv true orderOps [] ∧
    (EMPT.after toyEnv false orderOps).iter = [[0x12], [0x56], [0x34]] ∧
    AddedAt orderOps [0x34] 6 ∧ AddedAt orderOps [0x12] 0 ∧
    (EMPT.popitem toyEnv (EMPT.after toyEnv false orderOps)).1 = .ok ([0x12], .bytes [3]) := by
  refine ⟨evalid_of (by decide +kernel), evalid_of (by decide +kernel), by decide +kernel, ?_, ?_, by decide +kernel⟩
  · refine ⟨by decide, by decide +kernel, ?_⟩
    intro j h1 h2
    have : j = 7 ∨ j = 8 := by simp [orderOps] at h2; omega
    rcases this with rfl | rfl <;> decide +kernel
  · refine ⟨by decide, by decide +kernel, ?_⟩
    intro j h1 h2
    have : j = 1 ∨ j = 2 ∨ j = 3 ∨ j = 4 ∨ j = 5 ∨ j = 6 ∨ j = 7 ∨ j = 8 := by simp [orderOps] at h2; omega
    rcases this with rfl | rfl | rfl | rfl | rfl | rfl | rfl | rfl <;> decide +kernel

end Pymt.Props
