import Verif.Spec.Changing
import Verif.Props.Empt

/-!
# Property C84: objects that change after they were stored
-/

namespace Pymt
namespace Props

theorem dset_map {α β : Type} (f : α → β) (d : Dict α) (k : Bytes) (v : α) :
    dset (d.map fun e => (e.1, f e.2)) k (f v) = (dset d k v).map fun e => (e.1, f e.2) := by
  induction d with
  | nil => rfl
  | cons e d ih =>
    obtain ⟨k0, v0⟩ := e
    simp only [List.map_cons, dset]
    split
    · rfl
    · rw [ih]; rfl

theorem ddel_map {α β : Type} (f : α → β) (d : Dict α) (k : Bytes) :
    ddel (d.map fun e => (e.1, f e.2)) k = (ddel d k).map fun e => (e.1, f e.2) := by
  induction d with
  | nil => rfl
  | cons e d ih =>
    obtain ⟨k0, v0⟩ := e
    simp only [List.map_cons, ddel]
    split
    · exact ih
    · rw [ih]; rfl

theorem dget_map {α β : Type} (f : α → β) (d : Dict α) (k : Bytes) :
    dget (d.map fun e => (e.1, f e.2)) k = (dget d k).map f := by
  induction d with
  | nil => rfl
  | cons e d ih =>
    obtain ⟨k0, v0⟩ := e
    simp only [List.map_cons, dget]
    split
    · rfl
    · exact ih

/-- An EMPT with other values under the same keys. -/
def with' (f : Value → Value) (s : EMPT) : EMPT := { s with data := s.data.map fun e => (e.1, f e.2) }

theorem update_with {E : Env} (f : Value → Value) (s : EMPT) (k : Bytes) (v : Value) (hf : f v = v) :
    (EMPT.update E k v (with' f s)).2 = with' f (EMPT.update E k v s).2 := by
  cases hv : v.storable with
  | false =>
    obtain ⟨e, he⟩ := EMPT.update_other (E := E) (k := k) hv (with' f s)
    obtain ⟨e', he'⟩ := EMPT.update_other (E := E) (k := k) hv s
    rw [he, he']
  | true =>
    rw [EMPT.update_storable hv, EMPT.update_storable hv]
    have : (with' f s).trie = s.trie := rfl
    rw [this]
    cases MPT.update E k (refOf E k v) s.trie with
    | mk r t =>
      cases r with
      | error e => rfl
      | ok u =>
        have hd := dset_map f s.data k v
        rw [hf] at hd
        simp only [with', hd]

theorem delete_with {E : Env} (f : Value → Value) (s : EMPT) (k : Bytes) :
    (EMPT.delete E k (with' f s)).2 = with' f (EMPT.delete E k s).2 := by
  rw [EMPT.delete_eq, EMPT.delete_eq]
  have h1 : (with' f s).trie = s.trie := rfl
  have h2 : dget (with' f s).data k = (dget s.data k).map f := dget_map f s.data k
  rw [h1, h2]
  cases s.trie.contains E k with
  | error e => rfl
  | ok b =>
    cases b with
    | false => rfl
    | true =>
      cases hd : dget s.data k with
      | none => rfl
      | some v =>
        simp only [Option.map_some, with']
        rw [ddel_map]

theorem lastEnc_snoc (ops : List XOp) (op : XOp) (id : Nat) :
    lastEnc (ops ++ [op]) id = (op.says id).or (lastEnc ops id) := by
  unfold lastEnc
  rw [List.filterMap_append]
  cases h : op.says id with
  | none => simp [h]
  | some x => simp [h]

theorem calls_snoc (ops : List XOp) (op : XOp) : calls (ops ++ [op]) = calls ops ++ calls [op] := by
  induction ops with
  | nil => rfl
  | cons o ops ih => cases o <;> simp [calls, ih]

theorem now_change (ops : List XOp) (id : Nat) (enc : Bytes) {op : XOp}
    (h : ∀ i, op.says i = if id = i then some enc else none) (v : Value) :
    v.now (ops ++ [op]) = (v.now ops).turn id enc := by
  cases v with
  | bytes b => rfl
  | bytearray b => rfl
  | obj i e d x =>
    simp only [Value.now, Value.turn, lastEnc_snoc, h]
    by_cases hi : id = i
    · rw [if_pos hi, if_pos hi.symm]; rfl
    · rw [if_neg hi, if_neg fun e => hi e.symm]; rfl

theorem now_other (ops : List XOp) {op : XOp} (h : ∀ i, op.says i = none) (v : Value) :
    v.now (ops ++ [op]) = v.now ops := by
  cases v with
  | bytes b => rfl
  | bytearray b => rfl
  | obj i e d x => simp only [Value.now, lastEnc_snoc, h]; rfl

/-- What the code does with changing objects: the trie is the one of the calls alone, and the data storage holds the
objects as they are now. -/
theorem afterM_eq (E : Env) (secure : Bool) (ops : List XOp) :
    EMPT.afterM E secure ops = with' (Value.now ops) (EMPT.after E secure (calls ops)) := by
  rw [← List.reverse_reverse ops]
  induction ops.reverse with
  | nil => rfl
  | cons op ops ih =>
    rw [List.reverse_cons, calls_snoc, EMPT.afterM, List.foldl_append, List.foldl_cons, List.foldl_nil]
    rw [EMPT.afterM] at ih
    rw [ih]
    generalize ops.reverse = ops
    have hchg : ∀ id enc (op : XOp), (∀ i, op.says i = if id = i then some enc else none) → ∀ s : EMPT,
        EMPT.change id enc (with' (Value.now ops) s) = with' (Value.now (ops ++ [op])) s := by
      intro id enc op h s
      simp only [EMPT.change, with', List.map_map]
      congr 1
      refine List.map_congr_left fun e _ => ?_
      simp only [Function.comp_apply, now_change ops id enc h]
    have hoth : ∀ op : XOp, (∀ i, op.says i = none) → Value.now (ops ++ [op]) = Value.now ops :=
      fun op h => funext fun v => now_other ops h v
    cases op with
    | change id enc =>
      simp only [EMPT.step, calls, List.append_nil]
      exact hchg id enc _ (fun i => rfl) _
    | call op =>
      have hafter : EMPT.after E secure (calls ops ++ [op]) = (EMPT.exec E op (EMPT.after E secure (calls ops))).2 := by
        simp [EMPT.after, EMPT.run]
      simp only [calls]
      rw [hafter]
      cases op with
      | delete k =>
        rw [hoth (.call (.delete k)) (fun i => rfl)]
        exact delete_with _ _ k
      | update k v =>
        cases v with
        | bytes b =>
          rw [hoth (.call (.update k (.bytes b))) (fun i => rfl)]
          exact update_with _ _ k _ rfl
        | bytearray b =>
          rw [hoth (.call (.update k (.bytearray b))) (fun i => rfl)]
          exact update_with _ _ k _ rfl
        | obj id e d enc =>
          simp only [EMPT.step]
          rw [hchg id enc (.call (.update k (.obj id e d enc))) (fun i => rfl)]
          refine update_with _ _ k _ ?_
          simp only [Value.now, lastEnc_snoc, XOp.says, if_pos]
          rfl

theorem now_storable (ops : List XOp) (v : Value) : (v.now ops).storable = v.storable := by cases v <;> rfl

/-! ### The property -/

/-- The claim: an EMPT holds objects as a dict does; `get` returns the object stored, whatever happened to it since. -/
def C84 : Prop := ∀ (E : Env) (secure : Bool) (ops : List XOp) (k : Bytes) (v : Value),
  EValid E secure (calls ops) [k] → econtents (calls ops) k = some v →
  (EMPT.afterM E secure ops).get E k = .ok (v.now ops)

/-- An object is stored under two keys, together with another one, then it changes. -/
def changeOps : List XOp :=
  [.call (.update [0x12] (.obj 1 true true [1])), .call (.update [0x34] (.obj 1 true true [1])),
   .call (.update [0x12, 0x34] (.obj 2 true true [5])), .call (.update [0x56] (.bytes [7])), .change 1 [2]]

theorem C84_false : ¬ C84 := by
  intro h
  have := h toyEnv false changeOps [0x12] (.obj 1 true true [1]) (evalid_of (by decide +kernel)) (by decide +kernel)
  revert this
  decide +kernel

/-- C84 in part: `get` returns the object if and only if its encoding is the one it had when it was last stored under
this key; otherwise InvalidReferenceError is raised.  Keys never stored or deleted raise KeyError.
Missing: changed objects (`C84_false`). -/
theorem C84_get_partial {E : Env} {secure : Bool} {ops : List XOp} {k : Bytes}
    (h : EValid E secure (calls ops) [k]) :
    (∀ v, econtents (calls ops) k = some v →
      CollFree E [k ++ v.payload, k ++ (v.now ops).payload] →
      (EMPT.afterM E secure ops).get E k =
        if (v.now ops).payload = v.payload then .ok (v.now ops) else .error .invalidReference) ∧
    (econtents (calls ops) k = none → (EMPT.afterM E secure ops).get E k = .error .keyError) := by
  have hm := h.mirror
  have hd : dget (EMPT.afterM E secure ops).data k = (econtents (calls ops) k).map (Value.now ops) := by
    rw [afterM_eq, ← hm.data]; exact dget_map _ _ k
  have ht : (EMPT.afterM E secure ops).trie = (EMPT.after E secure (calls ops)).trie := by rw [afterM_eq]; rfl
  refine ⟨fun v hk hcoll => ?_, fun hk => ?_⟩
  · have hc := contents_refOps E (calls ops) k
    rw [hk] at hc
    have hg := C02_get (h.valid hm) hc
    unfold EMPT.get
    rw [dgetItem, hd, hk, ht, hm.trie, hg]
    have hs : (v.now ops).storable = true := (now_storable ops v).trans (hm.storable k v hk)
    simp only [Option.map_some, Except.bind_ok', decode_refOf h hk, ofValue_storable hs]
    by_cases hp : (v.now ops).payload = v.payload
    · rw [if_pos hp, hp]; simp [DataRef.eq]
    · rw [if_neg hp]
      have : DataRef.eq E ⟨k, v.payload⟩ ⟨k, (v.now ops).payload⟩ = false := by
        rw [← Bool.not_eq_true, DataRef.eq_iff]
        intro e
        exact hp (List.append_cancel_left (hcoll _ (by simp) _ (by simp) e)).symm
      rw [this]; rfl
  · unfold EMPT.get
    rw [dgetItem, hd, hk]
    rfl

-- a changed object under two keys, another object, and an absent key
example : EValid toyEnv false (calls changeOps) [[0x12]] ∧
    econtents (calls changeOps) [0x12] = some (.obj 1 true true [1]) ∧
    (Value.obj 1 true true [1]).now changeOps = .obj 1 true true [2] ∧
    CollFree toyEnv [[0x12] ++ [1], [0x12] ++ [2]] ∧
    (EMPT.afterM toyEnv false changeOps).get toyEnv [0x12] = .error .invalidReference ∧
    (EMPT.afterM toyEnv false changeOps).get toyEnv [0x34] = .error .invalidReference ∧
    (EMPT.afterM toyEnv false changeOps).get toyEnv [0x12, 0x34] = .ok (.obj 2 true true [5]) ∧
    (EMPT.afterM toyEnv false changeOps).get toyEnv [0x99] = .error .keyError :=
  ⟨evalid_of (by decide +kernel), by decide +kernel, by decide +kernel, collFree_of (by decide +kernel),
    by decide +kernel, by decide +kernel, by decide +kernel, by decide +kernel⟩
-- changing it back makes it readable again
example : (EMPT.afterM toyEnv false (changeOps ++ [.change 1 [1]])).get toyEnv [0x12] =
    .ok (.obj 1 true true [1]) := by decide +kernel

/-- Changes to objects leave the trie alone: root, `contains`, references, proofs and iteration are those of the calls
without the changes. -/
theorem C84_trie (E : Env) (secure : Bool) (ops : List XOp) :
    (EMPT.afterM E secure ops).trie = (EMPT.after E secure (calls ops)).trie ∧
    (EMPT.afterM E secure ops).iter = (EMPT.after E secure (calls ops)).iter ∧
    (EMPT.afterM E secure ops).len = (EMPT.after E secure (calls ops)).len := by
  rw [afterM_eq]
  refine ⟨rfl, ?_, ?_⟩
  · simp [EMPT.iter, with']
  · simp [EMPT.len, with']

example : calls changeOps ≠ [] ∧ (EMPT.afterM toyEnv false changeOps).iter = [[0x12], [0x34], [0x12, 0x34], [0x56]] :=
  ⟨by decide, by decide +kernel⟩

/-- Storing the changed object again makes `get` of this key work again; its other keys still raise. -/
theorem C84_repair {E : Env} {secure : Bool} {ops : List XOp} {k : Bytes} {v : Value} (hs : v.storable = true)
    (h : EValid E secure (calls ops ++ [.update k v]) [k]) :
    (EMPT.afterM E secure (ops ++ [.call (.update k v)])).get E k = .ok v := by
  have hc : calls (ops ++ [.call (.update k v)]) = calls ops ++ [.update k v] := calls_snoc _ _
  have hk : econtents (calls (ops ++ [.call (.update k v)])) k = some v := by
    rw [hc, econtents, List.foldl_append, List.foldl_cons, List.foldl_nil]
    simp [EOp.apply, hs]
  have hn : v.now (ops ++ [.call (.update k v)]) = v := by
    cases v with
    | bytes b => rfl
    | bytearray b => rfl
    | obj i e d x => simp [Value.now, lastEnc_snoc, XOp.says]
  rw [← hc] at h
  have := (C84_get_partial h).1 v hk (by rw [hn]; intro a ha b hb _; simp_all)
  rw [this, hn, if_pos rfl]

example : EValid toyEnv false (calls changeOps ++ [.update [0x12] (.obj 1 true true [2])]) [[0x12]] ∧
    (EMPT.afterM toyEnv false (changeOps ++ [.call (.update [0x12] (.obj 1 true true [2]))])).get toyEnv [0x34] =
      .error .invalidReference := ⟨evalid_of (by decide +kernel), by decide +kernel⟩

/-- Where `get` raises InvalidReferenceError, so do `pop`, with and without default, `setdefault`, and, if the key is
the first of the iteration, `popitem` and `clear`; none of them changes anything. -/
theorem C84_stuck {E : Env} {s : EMPT} {k : Bytes} (h : s.get E k = .error .invalidReference) :
    EMPT.pop E k s = (.error .invalidReference, s) ∧
    (∀ v, EMPT.popDefault E k v s = (.error .invalidReference, s)) ∧
    (∀ v, EMPT.setdefault E k v s = (.error .invalidReference, s)) ∧
    (∀ rest, s.iter = k :: rest → EMPT.popitem E s = (.error .invalidReference, s) ∧
      EMPT.clear E s = (.error .invalidReference, s)) := by
  refine ⟨?_, fun v => ?_, fun v => ?_, fun rest hi => ?_⟩
  · unfold EMPT.pop
    simp only [M.bind_apply, M.get_apply, M.lift_apply, h]
  · unfold EMPT.popDefault
    simp only [M.bind_apply, M.get_apply, h]
    rfl
  · unfold EMPT.setdefault
    simp only [M.bind_apply, M.get_apply, h]
    rfl
  · have hp : EMPT.popitem E s = (.error .invalidReference, s) := by
      unfold EMPT.popitem
      simp only [M.bind_apply, M.get_apply, hi, M.lift_apply, h]
    refine ⟨hp, ?_⟩
    unfold EMPT.clear EMPT.clearLoop
    simp only [hp]

example : (EMPT.afterM toyEnv false changeOps).get toyEnv [0x12] = .error .invalidReference ∧
    (EMPT.afterM toyEnv false changeOps).iter = [0x12] :: [[0x34], [0x12, 0x34], [0x56]] :=
  ⟨by decide +kernel, by decide +kernel⟩

end Props
end Pymt
