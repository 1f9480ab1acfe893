import Verif.Spec.Empt
import Verif.Spec.Toy
import Verif.Lemmas.DataRef
import Verif.Lemmas.Dict
import Verif.Props.Map

/-!
# Refinement: an `EMPT` is a trie of references and a dict
-/

namespace Pymt

/-- The reference the trie keeps for a value. -/
def refOf (E : Env) (k : Bytes) (v : Value) : Bytes := DataRef.encode E ⟨k, v.payload⟩

/-- The call on the trie that belongs to a call on the `EMPT`. -/
def refOp (E : Env) : EOp → List Op
  | .update k v => if v.storable then [.update k (refOf E k v)] else []
  | .delete k => [.delete k]

/-- The history of the trie that belongs to a history of the `EMPT`. -/
def refOps (E : Env) (ops : List EOp) : List Op := ops.flatMap (refOp E)

theorem refOps_append (E : Env) (a b : List EOp) : refOps E (a ++ b) = refOps E a ++ refOps E b := by
  simp [refOps]

theorem econtents_append (ops : List EOp) (op : EOp) :
    econtents (ops ++ [op]) = EOp.apply (econtents ops) op := by
  simp [econtents]

theorem refOps_nonempty (E : Env) (ops : List EOp) : ∀ op ∈ refOps E ops, op.NonEmpty := by
  intro op h
  obtain ⟨e, _, he⟩ := List.mem_flatMap.1 h
  cases e with
  | update k v =>
    simp only [refOp] at he
    split at he
    · simp only [List.mem_singleton] at he
      subst he
      exact DataRef.encode_ne_nil E _
    · simp at he
  | delete k =>
    simp only [refOp, List.mem_singleton] at he
    subst he
    trivial

theorem refOps_key {E : Env} {ops : List EOp} {op : Op} (h : op ∈ refOps E ops) :
    op.key ∈ ops.map EOp.key := by
  obtain ⟨e, h1, he⟩ := List.mem_flatMap.1 h
  refine List.mem_map.2 ⟨e, h1, ?_⟩
  cases e with
  | update k v =>
    simp only [refOp] at he
    split at he
    · simp only [List.mem_singleton] at he
      subst he; rfl
    · simp at he
  | delete k =>
    simp only [refOp, List.mem_singleton] at he
    subst he; rfl

/-- The trie holds the references of exactly the present keys. -/
theorem contents_refOps (E : Env) (ops : List EOp) (k : Bytes) :
    contents (refOps E ops) k = (econtents ops k).map (refOf E k) := by
  rw [← List.reverse_reverse ops]
  induction ops.reverse with
  | nil => rfl
  | cons op ops ih =>
    rw [List.reverse_cons, refOps_append, econtents_append, contents_append]
    cases op with
    | update k' v =>
      by_cases hs : v.storable
      · simp only [refOps, List.flatMap_cons, refOp, hs, if_true, List.flatMap_nil, List.append_nil,
          contentsFrom, List.foldl_cons, List.foldl_nil, Op.apply, EOp.apply, true_and]
        by_cases hk : k = k'
        · subst hk; simp
        · simp only [if_neg hk]; exact ih
      · simp only [refOps, List.flatMap_cons, refOp, hs, if_false, List.flatMap_nil, List.append_nil,
          contentsFrom, List.foldl_nil, EOp.apply, false_and, Bool.false_eq_true]
        exact ih
    | delete k' =>
      simp only [refOps, List.flatMap_cons, refOp, List.flatMap_nil, List.append_nil,
        contentsFrom, List.foldl_cons, List.foldl_nil, Op.apply, EOp.apply]
      by_cases hk : k = k'
      · subst hk; simp
      · simp only [if_neg hk]; exact ih

namespace EMPT

theorem onTrie_apply {α : Type} (m : M MPT α) (s : EMPT) :
    onTrie m s = ((m s.trie).1, { s with trie := (m s.trie).2 }) := rfl

/-- `update` of a value that can be kept. -/
theorem update_storable {E : Env} {k : Bytes} {v : Value} (h : v.storable = true) (s : EMPT) :
    update E k v s =
      match MPT.update E k (refOf E k v) s.trie with
      | (.ok (), t) => (.ok (), { trie := t, data := dset s.data k v })
      | (.error e, t) => (.error e, { s with trie := t }) := by
  have key : ∀ r : DataRef, (do
      onTrie (MPT.update E k (r.encode E))
      M.modify (fun s => { s with data := dset s.data k v }) : M EMPT Unit) s =
      match MPT.update E k (r.encode E) s.trie with
      | (.ok (), t) => (.ok (), { trie := t, data := dset s.data k v })
      | (.error e, t) => (.error e, { s with trie := t }) := by
    intro r
    simp only [M.bind_apply, onTrie_apply]
    cases MPT.update E k (r.encode E) s.trie with
    | mk r t => cases r <;> rfl
  unfold update
  match v, h with
  | .bytes b, _ => exact key ⟨k, b⟩
  | .obj i true true enc, _ => exact key ⟨k, enc⟩

/-- `update` of any other value raises and changes nothing. -/
theorem update_other {E : Env} {k : Bytes} {v : Value} (h : v.storable = false) (s : EMPT) :
    ∃ e, update E k v s = (.error e, s) := by
  match v, h with
  | .bytearray b, _ => exact ⟨_, rfl⟩
  | .obj i false _ enc, _ => exact ⟨_, rfl⟩
  | .obj i true false enc, _ => exact ⟨_, rfl⟩

theorem delete_eq (E : Env) (k : Bytes) (s : EMPT) : delete E k s =
    match s.trie.contains E k with
    | .error e => (.error e, s)
    | .ok false => (.error .keyNotFound, s)
    | .ok true =>
      match dget s.data k with
      | none => (.error .keyError, s)
      | some _ => ((MPT.delete E k s.trie).1, { trie := (MPT.delete E k s.trie).2, data := ddel s.data k }) := by
  unfold delete
  simp only [M.bind_apply, M.get_apply, M.lift_apply]
  cases s.trie.contains E k with
  | error e => rfl
  | ok b =>
    cases b with
    | false => rfl
    | true =>
      simp only [Bool.not_true, Bool.false_eq_true, if_false, M.bind_apply, M.lift_apply, dgetItem]
      cases dget s.data k <;> rfl

/-- Every call does to the trie what some calls on the trie do. -/
theorem exec_trie (E : Env) (op : EOp) (s : EMPT) :
    ∃ ops, (exec E op s).2.trie = MPT.run E ops s.trie := by
  cases op with
  | update k v =>
    simp only [exec]
    by_cases h : v.storable
    · refine ⟨[.update k (refOf E k v)], ?_⟩
      rw [update_storable h]
      simp only [MPT.run, List.foldl_cons, List.foldl_nil, MPT.exec]
      cases MPT.update E k (refOf E k v) s.trie with
      | mk r t => cases r <;> rfl
    · obtain ⟨e, he⟩ := update_other (E := E) (k := k) (by simpa using h) s
      exact ⟨[], by rw [he]; rfl⟩
  | delete k =>
    simp only [exec]
    rw [delete_eq]
    split
    · exact ⟨[], rfl⟩
    · exact ⟨[], rfl⟩
    · split
      · exact ⟨[], rfl⟩
      · exact ⟨[.delete k], rfl⟩

theorem run_trie (E : Env) (ops : List EOp) (s : EMPT) :
    ∃ ops', (run E ops s).trie = MPT.run E ops' s.trie := by
  induction ops generalizing s with
  | nil => exact ⟨[], rfl⟩
  | cons op ops ih =>
    obtain ⟨a, ha⟩ := exec_trie E op s
    obtain ⟨b, hb⟩ := ih (exec E op s).2
    refine ⟨a ++ b, ?_⟩
    rw [show run E (op :: ops) s = run E ops (exec E op s).2 from rfl, hb, ha]
    simp [MPT.run]

theorem after_append (E : Env) (secure : Bool) (ops ops' : List EOp) :
    after E secure (ops ++ ops') = run E ops' (after E secure ops) := by
  simp [after, run]

end EMPT

theorem EValid.cut {E : Env} {secure : Bool} {ops ops' : List EOp} {ks : List Bytes}
    (h : EValid E secure (ops ++ ops') ks) : EValid E secure ops (ks ++ ops'.map EOp.key) where
  fits := fun op ho => h.fits op (List.mem_append_left _ ho)
  fitsq := fun k hk => by
    rcases List.mem_append.1 hk with hk | hk
    · exact h.fitsq k hk
    · obtain ⟨op, ho, rfl⟩ := List.mem_map.1 hk
      exact h.fits op (List.mem_append_right _ ho)
  sizes := fun k v hm => h.sizes k v (List.mem_append_left _ hm)
  log := by
    have := h.log
    rw [EMPT.after_append] at this
    obtain ⟨o, ho⟩ := EMPT.run_trie E ops' (EMPT.after E secure ops)
    rw [ho] at this
    exact log_of_replay (run_writes E o _) this
  keys := fun hs => (h.keys hs).mono (by
    intro a ha
    simp only [List.mem_append, List.map_append] at ha ⊢
    rcases ha with (ha | ha) | ha
    · exact .inl ha
    · exact .inr (.inr ha)
    · exact .inr (.inl ha))

/-- The invariant of an `EMPT`. -/
structure Mirror (E : Env) (secure : Bool) (ops : List EOp) : Prop where
  trie : (EMPT.after E secure ops).trie = MPT.after E secure (refOps E ops)
  data : ∀ k, dget (EMPT.after E secure ops).data k = econtents ops k
  nodup : ((EMPT.after E secure ops).data.map (·.1)).Nodup
  storable : ∀ k v, econtents ops k = some v → v.storable = true

theorem EValid.valid {E : Env} {secure : Bool} {ops : List EOp} {ks : List Bytes}
    (h : EValid E secure ops ks) (hm : Mirror E secure ops) : Valid E secure (refOps E ops) ks where
  empties := fun _ pre hp => clean_of_nonempty fun op ho => refOps_nonempty E ops op (hp.subset ho)
  fits := fun op ho => by
    obtain ⟨e, he, hk⟩ := List.mem_map.1 (refOps_key ho)
    rw [← hk]; exact h.fits e he
  fitsq := h.fitsq
  log := by rw [← hm.trie]; exact h.log
  keys := fun hs => (h.keys hs).mono (by
    intro a ha
    rcases List.mem_append.1 ha with ha | ha
    · exact List.mem_append_left _ ha
    · obtain ⟨op, ho, rfl⟩ := List.mem_map.1 ha
      exact List.mem_append_right _ (refOps_key ho))

theorem Mirror.new (E : Env) (secure : Bool) : Mirror E secure [] :=
  ⟨rfl, fun _ => rfl, by simp [EMPT.after, EMPT.run, EMPT.new], by simp [econtents]⟩

theorem Mirror.delete_some {E : Env} {secure : Bool} {ops : List EOp} {k : Bytes} {v : Value}
    (hm : Mirror E secure ops) (h : EValid E secure (ops ++ [.delete k]) [])
    (hl : LogOk E (MPT.delete E k (MPT.after E secure (refOps E ops))).2.store.written)
    (hk : econtents ops k = some v) :
    EMPT.delete E k (EMPT.after E secure ops) =
      (.ok (), { trie := MPT.after E secure (refOps E ops ++ [.delete k]),
                 data := ddel (EMPT.after E secure ops).data k }) := by
  have hv := h.cut.valid hm
  have hcon := contents_refOps E ops k
  rw [hk] at hcon
  have hmem : k ∈ ([] : List Bytes) ++ [EOp.delete k].map EOp.key := by simp [EOp.key]
  have hq : Valid E secure (refOps E ops) [k] := hv.subset fun x hx => by
    simp only [List.mem_singleton] at hx
    subst hx; exact List.mem_append_left _ hmem
  have hc := Props.C01_contains_partial hq (.inr (.inl (by rw [hcon]; rfl)))
  rw [hcon] at hc
  have hd := hv.inv.delete_some ((hv.eff_key hmem).trans hcon) (hv.fit hmem) hl
  rw [EMPT.delete_eq, hm.trie, hc, hm.data, hk]
  simp only [Option.map_some, Option.isSome_some]
  rw [hd.1, Pymt.after_append]
  rfl

theorem Mirror.delete_none {E : Env} {secure : Bool} {ops : List EOp} {k : Bytes}
    (hm : Mirror E secure ops) (hk : econtents ops k = none) :
    ∃ e, EMPT.delete E k (EMPT.after E secure ops) = (.error e, EMPT.after E secure ops) := by
  rw [EMPT.delete_eq, hm.data, hk]
  split <;> exact ⟨_, rfl⟩

theorem EValid.mirror {E : Env} {secure : Bool} {ops : List EOp} {ks : List Bytes}
    (h : EValid E secure ops ks) : Mirror E secure ops := by
  rw [← List.reverse_reverse ops] at h ⊢
  generalize ops.reverse = ops at h ⊢
  induction ops generalizing ks with
  | nil => exact Mirror.new E secure
  | cons op ops ih =>
    rw [List.reverse_cons] at h ⊢
    have hm := ih h.cut
    have hv := h.cut.valid hm
    generalize ops.reverse = ops at *
    have hl := h.log
    rw [EMPT.after_append] at hl
    have hstep : EMPT.after E secure (ops ++ [op]) = (EMPT.exec E op (EMPT.after E secure ops)).2 := by
      rw [EMPT.after_append]; rfl
    have hl' : LogOk E (EMPT.exec E op (EMPT.after E secure ops)).2.trie.store.written := hl
    cases op with
    | update k v =>
      simp only [EMPT.exec] at hstep hl'
      by_cases hs : v.storable
      · have hmem : k ∈ ks ++ [EOp.update k v].map EOp.key := by simp [EOp.key]
        rw [EMPT.update_storable hs, hm.trie] at hstep hl'
        have hw : LogOk E (MPT.update E k (refOf E k v) (MPT.after E secure (refOps E ops))).2.store.written := by
          revert hl'
          cases MPT.update E k (refOf E k v) (MPT.after E secure (refOps E ops)) with
          | mk r t => cases r <;> exact id
        have hclean : Clean (Op.apply (eff E secure (refOps E ops))
            (.update ((MPT.after E secure (refOps E ops)).keyOf E k) (refOf E k v))) := by
          have := clean_eff (E := E) (secure := secure) (ops := refOps E (ops ++ [.update k v]))
            (fun _ => clean_of_nonempty (refOps_nonempty E _))
          rw [refOps_append, eff, List.map_append, contents_append] at this
          rw [keyOf_eq, after_secure]
          simp only [refOps, List.flatMap_cons, refOp, hs, if_true, List.flatMap_nil, List.append_nil,
            List.map_cons, List.map_nil, contentsFrom, List.foldl_cons, List.foldl_nil, Op.mapKey] at this
          exact this
        have hu := (hv.inv.update hclean (hv.fit hmem) hw).1
        have htrie : MPT.after E secure (refOps E (ops ++ [.update k v])) =
            (MPT.update E k (refOf E k v) (MPT.after E secure (refOps E ops))).2 := by
          rw [refOps_append, Pymt.after_append]
          simp [refOps, refOp, hs, MPT.run, MPT.exec]
        have hres : EMPT.after E secure (ops ++ [.update k v]) =
            { trie := MPT.after E secure (refOps E (ops ++ [.update k v])),
              data := dset (EMPT.after E secure ops).data k v } := by
          rw [hstep, htrie]
          revert hu
          cases MPT.update E k (refOf E k v) (MPT.after E secure (refOps E ops)) with
          | mk r t =>
            cases r with
            | error e => intro hu; simp at hu
            | ok u => intro _; rfl
        refine ⟨by rw [hres], fun k' => ?_, by rw [hres]; exact dset_nodup hm.nodup, fun k' v' => ?_⟩
        · rw [hres, econtents_append]
          simp only [dget_dset, EOp.apply, hs, true_and]
          by_cases hk : k' = k
          · subst hk; simp
          · rw [if_neg hk, if_neg (Ne.symm hk)]
            exact hm.data k'
        · rw [econtents_append]
          simp only [EOp.apply, hs, true_and]
          split
          · intro he; cases he; exact hs
          · exact hm.storable k' v'
      · obtain ⟨e, he⟩ := EMPT.update_other (E := E) (k := k) (v := v) (by simpa using hs) (EMPT.after E secure ops)
        rw [he] at hstep
        have h1 : refOps E (ops ++ [.update k v]) = refOps E ops := by
          rw [refOps_append]; simp [refOps, refOp, hs]
        have h2 : econtents (ops ++ [.update k v]) = econtents ops := by
          rw [econtents_append]; simp [EOp.apply, hs]
        exact ⟨by rw [hstep, h1, hm.trie], by rw [hstep, h2]; exact hm.data, by rw [hstep]; exact hm.nodup,
          by rw [h2]; exact hm.storable⟩
    | delete k =>
      simp only [EMPT.exec] at hstep hl'
      have h1 : refOps E (ops ++ [.delete k]) = refOps E ops ++ [.delete k] := by
        rw [refOps_append]; simp [refOps, refOp]
      have hmem : k ∈ ks ++ [EOp.delete k].map EOp.key := by simp [EOp.key]
      cases hk : econtents ops k with
      | none =>
        obtain ⟨e, he⟩ := hm.delete_none hk
        rw [he] at hstep
        have hcon := contents_refOps E ops k
        rw [hk] at hcon
        obtain ⟨e', he', _⟩ := hv.inv.delete_none ((hv.eff_key hmem).trans hcon) (hv.fit hmem) hv.log
        have h2 : econtents (ops ++ [.delete k]) = econtents ops := by
          rw [econtents_append]
          funext k'
          simp only [EOp.apply]
          split
          · rename_i e; rw [e, hk]
          · rfl
        refine ⟨?_, by rw [hstep, h2]; exact hm.data, by rw [hstep]; exact hm.nodup, by rw [h2]; exact hm.storable⟩
        rw [hstep, h1, Pymt.after_append, hm.trie]
        simp only [MPT.run, List.foldl_cons, List.foldl_nil, MPT.exec]
        rw [he']
      | some v =>
        have hcon := contents_refOps E ops k
        rw [hk] at hcon
        have hq : Valid E secure (refOps E ops) [k] := hv.subset fun x hx => by
          simp only [List.mem_singleton] at hx
          subst hx; exact List.mem_append_left _ hmem
        have hc := Props.C01_contains_partial hq (.inr (.inl (by rw [hcon]; rfl)))
        rw [hcon] at hc
        rw [EMPT.delete_eq, hm.trie, hc, hm.data, hk] at hl' hstep
        simp only [Option.map_some, Option.isSome_some] at hl' hstep
        have htrie : MPT.after E secure (refOps E (ops ++ [.delete k])) =
            (MPT.delete E k (MPT.after E secure (refOps E ops))).2 := by
          rw [h1, Pymt.after_append]; rfl
        refine ⟨by rw [hstep, htrie], fun k' => ?_, by rw [hstep]; exact ddel_nodup hm.nodup, fun k' v' => ?_⟩
        · rw [hstep, econtents_append]
          simp only [dget_ddel, EOp.apply]
          by_cases hkk : k' = k
          · subst hkk; simp
          · rw [if_neg hkk, if_neg (Ne.symm hkk)]
            exact hm.data k'
        · rw [econtents_append]
          simp only [EOp.apply]
          split
          · simp
          · exact hm.storable k' v'

theorem econtents_some_mem {ops : List EOp} {k : Bytes} {v : Value} (h : econtents ops k = some v) :
    .update k v ∈ ops := by
  rw [← List.reverse_reverse ops] at h ⊢
  generalize ops.reverse = l at h ⊢
  induction l with
  | nil => simp [econtents] at h
  | cons op ops ih =>
    rw [List.reverse_cons] at h ⊢
    rw [econtents_append] at h
    cases op with
    | update k' v' =>
      simp only [EOp.apply] at h
      split at h
      · rename_i hk
        simp only [Option.some.injEq] at h
        rw [← h, hk.2]; simp
      · exact List.mem_append_left _ (ih h)
    | delete k' =>
      simp only [EOp.apply] at h
      split at h
      · simp at h
      · exact List.mem_append_left _ (ih h)

end Pymt
