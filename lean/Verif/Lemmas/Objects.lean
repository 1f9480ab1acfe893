import Verif.Spec.Objects
import Verif.Props.Changing
import Verif.Lemmas.EmptWatching

/-!
# Lemmas about objects with any `encode_rlp()`
-/

namespace Pymt

open Props

variable {σ : Type} {E : Env} {secure : Bool}

theorem EValid.narrow {ops : List EOp} {ks ks' : List Bytes} (h : EValid E secure ops ks) (hs : ∀ k ∈ ks', k ∈ ks) :
    EValid E secure ops ks' where
  fits := h.fits
  fitsq := fun k hk => h.fitsq k (hs k hk)
  sizes := h.sizes
  log := h.log
  keys := fun e => (h.keys e).mono fun x hx => by
    rcases List.mem_append.1 hx with hx | hx
    · exact List.mem_append_left _ (hs x hx)
    · exact List.mem_append_right _ hx

namespace Site

theorem onTrie_apply {α : Type} (m : M MPT α) (s : Site σ) :
    onTrie m s = ((m s.trie).1, { s with trie := (m s.trie).2 }) := rfl

theorem store_apply (k : Bytes) (v : Thing) (r : DataRef) (s : Site σ) :
    store E k v r s =
      match MPT.update E k (r.encode E) s.trie with
      | (.ok (), t) => (.ok (), { s with trie := t, data := dset s.data k v })
      | (.error e, t) => (.error e, { s with trie := t }) := by
  unfold store
  simp only [M.bind_apply, onTrie_apply]
  cases MPT.update E k (r.encode E) s.trie with
  | mk r t => cases r <;> rfl

theorem delete_apply (k : Bytes) (s : Site σ) : delete E k s =
    match s.trie.contains E k with
    | .error e => (.error e, s)
    | .ok false => (.error .keyNotFound, s)
    | .ok true =>
      match dget s.data k with
      | none => (.error .keyError, s)
      | some _ => ((MPT.delete E k s.trie).1, { s with trie := (MPT.delete E k s.trie).2, data := ddel s.data k }) := by
  unfold delete
  simp only [M.bind_apply, M.get_apply, M.lift_apply]
  cases s.trie.contains E k with
  | error e => rfl
  | ok b =>
    cases b with
    | false => rfl
    | true =>
      simp only [Bool.not_true, Bool.false_eq_true, if_false, M.bind_apply, M.lift_apply, dgetItem]
      cases dget s.data k <;> rfl

/-- The site of an `EMPT` object. -/
def around (s : EMPT) (u : σ) : Site σ :=
  { trie := s.trie, data := s.data.map fun e => (e.1, e.2.thing), user := u }

theorem plain_eq (calls : List EOp) (u : σ) : plain E secure calls u = around (EMPT.after E secure calls) u := rfl

theorem store_around {k : Bytes} {v : Value} (hs : v.storable = true) (s : EMPT) (u : σ) :
    store E k v.thing ⟨k, v.payload⟩ (around s u) =
      ((EMPT.update E k v s).1, around (EMPT.update E k v s).2 u) := by
  rw [store_apply, EMPT.update_storable hs]
  have : (around s u).trie = s.trie := rfl
  rw [this]
  change (match MPT.update E k (refOf E k v) s.trie with
    | (.ok (), t) => _
    | (.error e, t) => _) = _
  cases MPT.update E k (refOf E k v) s.trie with
  | mk r t =>
    cases r with
    | error e => rfl
    | ok x => simp only [around, dset_map Value.thing]

theorem delete_around (k : Bytes) (s : EMPT) (u : σ) :
    delete E k (around s u) = ((EMPT.delete E k s).1, around (EMPT.delete E k s).2 u) := by
  rw [delete_apply, EMPT.delete_eq]
  have h1 : (around s u).trie = s.trie := rfl
  have h2 : dget (around s u).data k = (dget s.data k).map Value.thing := dget_map _ _ _
  rw [h1, h2]
  cases s.trie.contains E k with
  | error e => rfl
  | ok b =>
    cases b with
    | false => rfl
    | true =>
      cases dget s.data k with
      | none => rfl
      | some v => simp only [Option.map_some, around, ddel_map Value.thing]

theorem inner_around (op : EOp) (s : EMPT) (u : σ) :
    inner E (around s u) op = around (EMPT.exec E op s).2 u := by
  cases op with
  | delete k => simp only [inner, EMPT.exec, delete_around]
  | update k v =>
    simp only [inner, EMPT.exec]
    cases hs : v.storable with
    | true => rw [if_pos rfl, store_around hs]
    | false =>
      obtain ⟨e, he⟩ := EMPT.update_other (E := E) (k := k) hs s
      rw [he]; rfl

theorem inners_around (ops : List EOp) (s : EMPT) (u : σ) :
    ops.foldl (inner E) (around s u) = around (EMPT.run E ops s) u := by
  induction ops generalizing s with
  | nil => rfl
  | cons op ops ih => rw [List.foldl_cons, inner_around, ih]; rfl

theorem run_after (calls more : List EOp) :
    EMPT.run E more (EMPT.after E secure calls) = EMPT.after E secure (calls ++ more) := by
  simp [EMPT.after, EMPT.run, List.foldl_append]

/-- What came out of `encode_rlp()`, for the caller. -/
def _root_.Pymt.Reply.result : Reply → Py Bytes
  | .returns b => .ok b
  | .noBytes => .error .typeError
  | .raises e => .error e

theorem encodeRlp_plain (B : UserCode σ) (id : Nat) (calls : List EOp) (u : σ) :
    let act := B id (plain E secure calls u)
    encodeRlp E B id (plain E secure calls u) =
      (act.reply.result, plain E secure (calls ++ act.calls) act.user) := by
  intro act
  unfold encodeRlp
  simp only [act]
  generalize B id (plain E secure calls u) = act
  rw [plain_eq, inners_around, run_after]
  cases act.reply <;> rfl

theorem store_plain {k : Bytes} {v : Value} (hs : v.storable = true) (calls : List EOp) (u : σ) :
    store E k v.thing ⟨k, v.payload⟩ (plain E secure calls u) =
      ((EMPT.update E k v (EMPT.after E secure calls)).1, plain E secure (calls ++ [.update k v]) u) := by
  rw [plain_eq, store_around hs, plain_eq, ← run_after]; rfl

theorem delete_plain (k : Bytes) (calls : List EOp) (u : σ) :
    delete E k (plain E secure calls u) =
      ((EMPT.delete E k (EMPT.after E secure calls)).1, plain E secure (calls ++ [.delete k]) u) := by
  rw [plain_eq, delete_around, plain_eq, ← run_after]; rfl

theorem plain_skip {k : Bytes} {v : Value} (hs : v.storable = false) (calls : List EOp) (u : σ) :
    plain E secure (calls ++ [.update k v]) u = plain E secure calls u := by
  obtain ⟨e, he⟩ := EMPT.update_other (E := E) (k := k) hs (EMPT.after E secure calls)
  rw [plain_eq, ← run_after, plain_eq]
  simp only [EMPT.run, List.foldl_cons, List.foldl_nil, EMPT.exec, he]

/-- `update` with an object. -/
theorem update_obj_plain (B : UserCode σ) (k : Bytes) (id : Nat) (calls : List EOp) (u : σ) :
    let act := B id (plain E secure calls u)
    update E B k (.obj id true true) (plain E secure calls u) =
      match act.reply with
      | .returns b =>
        ((EMPT.update E k (.obj id true true b) (EMPT.after E secure (calls ++ act.calls))).1,
          plain E secure (calls ++ act.calls ++ [.update k (.obj id true true b)]) act.user)
      | .noBytes => (.error .typeError, plain E secure (calls ++ act.calls) act.user)
      | .raises e => (.error e, plain E secure (calls ++ act.calls) act.user) := by
  intro act
  unfold update
  simp only [M.bind_apply]
  rw [encodeRlp_plain]
  simp only [act]
  generalize B id (plain E secure calls u) = act
  cases act.reply with
  | noBytes => rfl
  | raises e => rfl
  | returns b => exact store_plain (v := .obj id true true b) rfl _ _

/-- `get` of a key with an object. -/
theorem get_obj_plain {B : UserCode σ} {k : Bytes} {id : Nat} {e d : Bool} {enc : Bytes} {calls : List EOp} {u : σ}
    (h : EValid E secure calls [k]) (hk : econtents calls k = some (.obj id e d enc)) :
    let act := B id (plain E secure calls u)
    get E B k (plain E secure calls u) =
      (match act.reply.result with
        | .ok b => if E.keccak (k ++ enc) = E.keccak (k ++ b) then .ok (.obj id e d) else .error .invalidReference
        | .error x => .error x,
       plain E secure (calls ++ act.calls) act.user) := by
  intro act
  have hm := h.mirror
  have hd : dget (plain E secure calls u).data k = some (.obj id e d) := by
    refine (dget_map Value.thing _ _).trans ?_
    rw [hm.data, hk]; rfl
  have hc := contents_refOps E calls k
  rw [hk] at hc
  have hg := C02_get (h.valid hm) hc
  have ht : (plain E secure calls u).trie.get E k = .ok (refOf E k (.obj id e d enc)) := by
    rw [← hg, ← hm.trie]; rfl
  have hst := hm.storable k _ hk
  have he : e = true := by revert hst; cases e <;> simp [Value.storable]
  subst he
  unfold get
  simp only [M.bind_apply, M.get_apply, M.lift_apply, dgetItem, hd, ht, decode_refOf h hk]
  rw [encodeRlp_plain]
  simp only [act]
  generalize B id (plain E secure calls u) = act
  cases act.reply.result with
  | error x => rfl
  | ok b =>
    simp only []
    by_cases hq : E.keccak (k ++ enc) = E.keccak (k ++ b)
    · have : DataRef.eq E ⟨k, enc⟩ ⟨k, b⟩ = true := (DataRef.eq_iff ..).2 hq
      simp only [Value.payload, this, if_pos hq]; rfl
    · have : DataRef.eq E ⟨k, enc⟩ ⟨k, b⟩ = false := by rw [← Bool.not_eq_true, DataRef.eq_iff]; exact hq
      simp only [Value.payload, this, if_neg hq]; rfl

/-- `get` of a key with bytes, or without a value. -/
theorem get_bytes_plain {B : UserCode σ} {k : Bytes} {b : Bytes} {calls : List EOp} {u : σ}
    (h : EValid E secure calls [k]) (hk : econtents calls k = some (.bytes b)) :
    get E B k (plain E secure calls u) = (.ok (.bytes b), plain E secure calls u) := by
  have hm := h.mirror
  have hd : dget (plain E secure calls u).data k = some (.bytes b) := by
    refine (dget_map Value.thing _ _).trans ?_
    rw [hm.data, hk]; rfl
  have hc := contents_refOps E calls k
  rw [hk] at hc
  have hg := C02_get (h.valid hm) hc
  have ht : (plain E secure calls u).trie.get E k = .ok (refOf E k (.bytes b)) := by
    rw [← hg, ← hm.trie]; rfl
  unfold get
  simp only [M.bind_apply, M.get_apply, M.lift_apply, dgetItem, hd, ht, decode_refOf h hk, M.pure_apply]
  have : DataRef.eq E ⟨k, b⟩ ⟨k, b⟩ = true := (DataRef.eq_iff ..).2 rfl
  simp only [Value.payload, this]; rfl

theorem get_none_plain {B : UserCode σ} {k : Bytes} {calls : List EOp} {u : σ} {ks : List Bytes}
    (h : EValid E secure calls ks) (hk : econtents calls k = none) :
    get E B k (plain E secure calls u) = (.error .keyError, plain E secure calls u) := by
  have hd : dget (plain E secure calls u).data k = none := by
    refine (dget_map Value.thing _ _).trans ?_
    rw [h.mirror.data, hk]; rfl
  unfold get
  simp only [M.bind_apply, M.get_apply, M.lift_apply, dgetItem, hd]

/-- One step. -/
theorem step_plain {B : UserCode σ} {op : SiteOp σ} {h : List EOp × σ} (hv : EValid E secure h.1 op.reads) :
    step E B (plain E secure h.1 h.2) op =
      plain E secure (op.adds E B secure h).1 (op.adds E B secure h).2 := by
  obtain ⟨calls, u⟩ := h
  match op with
  | .other f => rfl
  | .delete k => simp only [step, SiteOp.adds, delete_plain]
  | .update k (.bytes b) =>
    simp only [step, SiteOp.adds, update]
    exact congrArg Prod.snd (store_plain (v := .bytes b) rfl calls u)
  | .update k (.bytearray b) => rfl
  | .update k (.obj id false d) => rfl
  | .update k (.obj id true false) => rfl
  | .update k (.obj id true true) =>
    simp only [step, SiteOp.adds, update_obj_plain]
    cases (B id (plain E secure calls u)).reply with
    | returns b => rfl
    | noBytes => simp
    | raises e => simp
  | .get k =>
    simp only [step, SiteOp.adds]
    cases hk : econtents calls k with
    | none => rw [get_none_plain hv hk]
    | some v =>
      cases v with
      | bytes b => rw [get_bytes_plain hv hk]
      | bytearray b =>
        have := hv.mirror.storable k _ hk
        simp [Value.storable] at this
      | obj id e d enc => rw [get_obj_plain hv hk]

theorem adds_extends (B : UserCode σ) (op : SiteOp σ) (h : List EOp × σ) :
    ∃ more, (op.adds E B secure h).1 = h.1 ++ more := by
  obtain ⟨calls, u⟩ := h
  unfold SiteOp.adds
  split
  · exact ⟨_, List.append_assoc ..⟩
  · exact ⟨[], by simp⟩
  · exact ⟨_, rfl⟩
  · exact ⟨[], by simp⟩
  · exact ⟨_, rfl⟩
  · split
    · exact ⟨_, rfl⟩
    · exact ⟨[], by simp⟩
  · exact ⟨[], by simp⟩

/-- The whole program. -/
theorem after_plain {B : UserCode σ} {u : σ} (ops : List (SiteOp σ)) {ks : List Bytes}
    (hks : ∀ op ∈ ops, ∀ k ∈ op.reads, k ∈ ks)
    (hv : EValid E secure (ordinary E B secure u ops).1 ks) :
    after E B secure u ops = plain E secure (ordinary E B secure u ops).1 (ordinary E B secure u ops).2 := by
  rw [← List.reverse_reverse ops] at *
  generalize ops.reverse = ops at *
  induction ops with
  | nil => rfl
  | cons op ops ih =>
    simp only [List.reverse_cons, after, ordinary, List.foldl_append, List.foldl_cons, List.foldl_nil] at *
    obtain ⟨more, hmore⟩ := adds_extends (E := E) (secure := secure) B op
      (ops.reverse.foldl (SiteOp.adds E B secure) ([], u))
    have hv' := hv
    rw [hmore] at hv'
    have hp := hv'.prefix
    rw [ih (fun o ho => hks o (by simp_all)) hp]
    exact step_plain (hp.narrow fun k hk => hks op (by simp) k hk)

end Site
end Pymt
