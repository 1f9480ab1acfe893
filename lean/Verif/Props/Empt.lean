import Verif.Lemmas.Empt
import Verif.Lemmas.EmptReal

/-!
# Properties C27-C31, C35: `EMPT` and `DataReference`

`econtents ops` (`Verif/Spec/Empt.lean`) is what the history means, `EMPT.after E secure ops` is the object
after the calls, `EValid` lists the assumptions.
-/

namespace Pymt
namespace Props

/-! ### C27: EMPT is a mapping -/

theorem decode_refOf {E : Env} {secure : Bool} {ops : List EOp} {ks : List Bytes}
    (h : EValid E secure ops ks) {k : Bytes} {v : Value} (hk : econtents ops k = some v) :
    DataRef.decode E (refOf E k v) = .ok ⟨k, v.payload⟩ := by
  refine DataRef.decode_encode ?_
  have := DataRef.encode_length_lt (E := E) (r := ⟨k, v.payload⟩) (h.sizes k v (econtents_some_mem hk))
  omega

theorem ofValue_storable {k : Bytes} {v : Value} (h : v.storable = true) :
    DataRef.ofValue k v = .ok ⟨k, v.payload⟩ := by
  match v, h with
  | .bytes b, _ => rfl
  | .obj _ true true _, _ => rfl

theorem ofValue_ok {k : Bytes} {v : Value} {r : DataRef} (h : DataRef.ofValue k v = .ok r) :
    r = ⟨k, v.payload⟩ := by
  match v, h with
  | .bytes b, h => simpa [DataRef.ofValue, Value.payload, eq_comm] using h
  | .bytearray b, h => simp [DataRef.ofValue] at h
  | .obj _ true _ _, h => simpa [DataRef.ofValue, Value.payload, eq_comm] using h
  | .obj _ false _ _, h => simp [DataRef.ofValue] at h

theorem _root_.Pymt.EValid.get_some {E : Env} {secure : Bool} {ops : List EOp} {k : Bytes} {v : Value}
    (h : EValid E secure ops [k]) (hk : econtents ops k = some v) :
    (EMPT.after E secure ops).get E k = .ok v := by
  have hm := h.mirror
  have hc := contents_refOps E ops k
  rw [hk] at hc
  have hg := C02_get (h.valid hm) hc
  unfold EMPT.get
  rw [dgetItem, hm.data, hk, hm.trie, hg]
  simp only [Except.bind_ok', decode_refOf h hk, ofValue_storable (hm.storable k v hk)]
  simp [DataRef.eq]

theorem _root_.Pymt.EValid.get_none {E : Env} {secure : Bool} {ops : List EOp} {k : Bytes} {ks : List Bytes}
    (h : EValid E secure ops ks) (hk : econtents ops k = none) :
    (EMPT.after E secure ops).get E k = .error .keyError := by
  unfold EMPT.get
  rw [dgetItem, h.mirror.data, hk]
  rfl

/-- The full statement of C27. -/
def C27 : Prop := ∀ (E : Env) (secure : Bool) (ops : List EOp) (k : Bytes), EValid E secure ops [k] →
  let s := EMPT.after E secure ops
  (∀ v, econtents ops k = some v → s.get E k = .ok v) ∧
  (econtents ops k = none → ∃ e, s.get E k = .error e) ∧
  s.contains E k = .ok (econtents ops k).isSome ∧
  s.iter.Nodup ∧ (∀ k', k' ∈ s.iter ↔ econtents ops k' ≠ none) ∧ s.len = s.iter.length

/-- C27 is false: with `12` and `12 34` present, `contains` answers True for the absent key `12 56`. -/
theorem C27_false : ¬ C27 := by
  intro h
  have := (h _ _ _ _ nested_valid).2.2.1
  rw [nested_contains, nested_absent] at this
  exact absurd this (by simp)

/-- C27 in part: everything but `contains`, for all histories; and `contains`, in secure mode, for present
keys, and for absent keys of which no present key is a proper prefix.  `get` of an absent key raises
KeyError.  Missing: `contains` for the other absent keys (`C27_false`). -/
theorem C27_mapping_partial {E : Env} {secure : Bool} {ops : List EOp} {k : Bytes}
    (h : EValid E secure ops [k]) :
    let s := EMPT.after E secure ops
    (∀ v, econtents ops k = some v → s.get E k = .ok v) ∧
    (econtents ops k = none → s.get E k = .error .keyError) ∧
    (secure = true ∨ (econtents ops k).isSome ∨ (∀ k', k' <+: k → k' ≠ k → econtents ops k' = none) →
      s.contains E k = .ok (econtents ops k).isSome) ∧
    s.iter.Nodup ∧ (∀ k', k' ∈ s.iter ↔ econtents ops k' ≠ none) ∧ s.len = s.iter.length := by
  have hm := h.mirror
  refine ⟨fun v => h.get_some, h.get_none, fun hpre => ?_, hm.nodup, fun k' => ?_, by simp [EMPT.len, EMPT.iter]⟩
  · have := C01_contains_partial (h.valid hm) (k := k) (by
      rcases hpre with hp | hp | hp
      · exact .inl hp
      · exact .inr (.inl (by rw [contents_refOps, Option.isSome_map]; exact hp))
      · refine .inr (.inr fun k' h1 h2 => ?_)
        rw [contents_refOps, hp k' h1 h2]; rfl)
    rw [EMPT.contains, hm.trie, this, contents_refOps, Option.isSome_map]
  · rw [EMPT.iter, mem_keys_iff, hm.data]

/-- Updates never raise for values that can be kept, and raise without any change for others. -/
theorem C27_update_total {E : Env} {secure : Bool} {ops : List EOp} {k : Bytes} {v : Value}
    (h : EValid E secure (ops ++ [.update k v]) []) :
    (v.storable = true → (EMPT.update E k v (EMPT.after E secure ops)).1 = .ok ()) ∧
    (v.storable = false → ∃ e, EMPT.update E k v (EMPT.after E secure ops) =
      (.error e, EMPT.after E secure ops)) := by
  refine ⟨fun hs => ?_, fun hs => EMPT.update_other hs _⟩
  have hm' := h.mirror
  have hv' := h.valid hm'
  have hm := h.cut.mirror
  rw [refOps_append] at hv'
  simp only [refOps, List.flatMap_cons, refOp, hs, if_true, List.flatMap_nil, List.append_nil] at hv'
  have := C05_update_total hv'
  rw [EMPT.update_storable hs, hm.trie]
  revert this
  show (MPT.update E k (refOf E k v) (MPT.after E secure (refOps E ops))).1 = .ok () → _
  cases MPT.update E k (refOf E k v) (MPT.after E secure (refOps E ops)) with
  | mk r t => cases r <;> intro h <;> simp_all

example : EValid toyEnv false sampleEOps [[0x12, 0x34]] ∧ EValid toyEnv false sampleEOps [[0x13]] ∧
    econtents sampleEOps [0x12, 0x34] = some (.bytes [2, 3]) ∧ econtents sampleEOps [0x12, 0x56] = some (.bytes []) ∧
    econtents sampleEOps [0x99] = some sampleObj ∧ econtents sampleEOps [0x13] = none ∧
    (EMPT.after toyEnv false sampleEOps).len = 3 ∧ EValid toyEnv true (sampleEOps.take 6) [[0x99]] :=
  ⟨evalid_of (by decide +kernel), evalid_of (by decide +kernel), by decide +kernel, by decide +kernel,
    by decide +kernel, by decide +kernel, by decide +kernel, evalid_of (by decide +kernel)⟩

/-! ### C28: tampered data storages -/

/-- The full statement of C28: whatever the data storage `d` holds, `get` raises or returns what was last put
under the key, unless a collision occurred. -/
def C28 : Prop := ∀ (E : Env) (secure : Bool) (ops : List EOp) (k : Bytes) (d : Dict Value) (x : Value),
  EValid E secure ops [k] → CollFree E ((k ++ x.payload) :: refHashed ops) →
  EMPT.get E { trie := (EMPT.after E secure ops).trie, data := d } k = .ok x →
  ∃ v, econtents ops k = some v ∧ x.payload = v.payload

/-- C28 is false: with keys `12 34` and `13 45` present, an entry for the absent key `12` whose data is `34`
followed by the data of `12 34` passes the check, because the reference hashes key and data without a
border between them and `get` of the trie returns the reference of the longer key. -/
theorem C28_false : ¬ C28 := by
  intro h
  obtain ⟨v, hv, _⟩ := h _ _ _ _ _ _ split_valid split_coll split_get
  exact absurd (hv.symm.trans split_absent) (Option.some_ne_none v)

theorem mem_refHashed {ops : List EOp} {k : Bytes} {v : Value} (h : .update k v ∈ ops) :
    k ++ v.payload ∈ refHashed ops := by
  induction ops with
  | nil => simp at h
  | cons op ops ih =>
    rcases List.mem_cons.1 h with h1 | h1
    · subst h1; exact List.mem_cons_self
    · cases op with
      | update k' v' => exact List.mem_cons_of_mem _ (ih h1)
      | delete k' => exact ih h1

/-- C28, what holds always: data that is returned is, glued to the key asked for, the key and the data of one
present entry, whose key extends the key asked for. -/
theorem C28_glued {E : Env} {secure : Bool} {ops : List EOp} {k : Bytes} {d : Dict Value} {x : Value}
    (h : EValid E secure ops [k]) (hcoll : CollFree E ((k ++ x.payload) :: refHashed ops))
    (hg : EMPT.get E { trie := (EMPT.after E secure ops).trie, data := d } k = .ok x) :
    ∃ k' v', econtents ops k' = some v' ∧ k <+: k' ∧ k ++ x.payload = k' ++ v'.payload := by
  have hm := h.mirror
  have hv := h.valid hm
  unfold EMPT.get at hg
  cases h1 : dgetItem d k with
  | error e => rw [h1] at hg; simp at hg
  | ok y =>
  rw [h1, hm.trie] at hg
  cases h2 : (MPT.after E secure (refOps E ops)).get E k with
  | error e => rw [h2] at hg; simp at hg
  | ok b =>
  rw [h2] at hg
  simp only [Except.bind_ok'] at hg
  rcases C03_sound hv h2 with rfl | ⟨k', hk', hc⟩
  · have : DataRef.decode E [] = .error .rlpDecoding := rfl
    rw [this] at hg; simp at hg
  · rw [contents_refOps] at hc
    cases hk2 : econtents ops k' with
    | none => rw [hk2] at hc; simp at hc
    | some v' =>
      rw [hk2, Option.map_some, Option.some.injEq] at hc
      rw [← hc, decode_refOf h hk2] at hg
      cases h3 : DataRef.ofValue k y with
      | error e => rw [h3] at hg; simp at hg
      | ok r =>
        rw [h3] at hg
        simp only [Except.bind_ok'] at hg
        have hr := ofValue_ok h3
        subst hr
        split at hg
        · simp at hg
        · rename_i heq
          simp only [Except.pure_ok', Except.ok.injEq] at hg
          subst hg
          have heq' := (DataRef.eq_iff E _ _).1 (by simpa using heq)
          simp only at heq'
          refine ⟨k', v', hk2, hk', ?_⟩
          exact (hcoll _ (List.mem_cons_of_mem _ (mem_refHashed (econtents_some_mem hk2))) _
            List.mem_cons_self heq').symm

/-- C28 in part: in secure mode, and for every present key, and for absent keys that no present key extends.
Missing: absent keys that are a proper prefix of a present key (`C28_false`). -/
theorem C28_tamper_partial {E : Env} {secure : Bool} {ops : List EOp} {k : Bytes} {d : Dict Value} {x : Value}
    (h : EValid E secure ops [k]) (hcoll : CollFree E ((k ++ x.payload) :: refHashed ops))
    (hpre : secure = true ∨ (econtents ops k).isSome ∨ ∀ k', k <+: k' → k' ≠ k → econtents ops k' = none)
    (hg : EMPT.get E { trie := (EMPT.after E secure ops).trie, data := d } k = .ok x) :
    ∃ v, econtents ops k = some v ∧ x.payload = v.payload := by
  have hm := h.mirror
  have hv := h.valid hm
  cases hk : econtents ops k with
  | none =>
    exfalso
    have hc := contents_refOps E ops k
    rw [hk] at hc
    obtain ⟨e, he⟩ := C03_get_absent_partial hv hc (by
      rcases hpre with hp | hp | hp
      · exact .inl hp
      · rw [hk] at hp; simp at hp
      · refine .inr fun k' h1 h2 => ?_
        rw [contents_refOps, hp k' h1 h2]; rfl)
    unfold EMPT.get at hg
    cases h1 : dgetItem d k with
    | error e => rw [h1] at hg; simp at hg
    | ok y => rw [h1, hm.trie, he] at hg; simp at hg
  | some v =>
    refine ⟨v, rfl, ?_⟩
    have hc := contents_refOps E ops k
    rw [hk] at hc
    have h2 := C02_get hv hc
    unfold EMPT.get at hg
    cases h1 : dgetItem d k with
    | error e => rw [h1] at hg; simp at hg
    | ok y =>
      rw [h1, hm.trie, h2] at hg
      simp only [Except.bind_ok', decode_refOf h hk] at hg
      cases h3 : DataRef.ofValue k y with
      | error e => rw [h3] at hg; simp at hg
      | ok r =>
        rw [h3] at hg
        simp only [Except.bind_ok'] at hg
        have hr := ofValue_ok h3
        subst hr
        split at hg
        · simp at hg
        · rename_i heq
          simp only [Except.pure_ok', Except.ok.injEq] at hg
          subst hg
          have heq' := (DataRef.eq_iff E _ _).1 (by simpa using heq)
          have := hcoll _ (List.mem_cons_of_mem _ (mem_refHashed (econtents_some_mem hk))) _
            List.mem_cons_self heq'
          exact (List.append_cancel_left this).symm

/-- A tampered storage that still answers: the object was replaced by its encoding. -/
example : EValid toyEnv false sampleEOps [[0x99]] ∧
    CollFree toyEnv (([0x99] ++ (Value.bytes [9, 9]).payload) :: refHashed sampleEOps) ∧
    EMPT.get toyEnv { trie := (EMPT.after toyEnv false sampleEOps).trie, data := [([0x99], .bytes [9, 9])] } [0x99] =
      .ok (.bytes [9, 9]) :=
  ⟨evalid_of (by decide +kernel), collFree_of (by decide +kernel), by decide +kernel⟩
/-- And one that does not. -/
example : EMPT.get toyEnv { trie := (EMPT.after toyEnv false sampleEOps).trie, data := [([0x99], .bytes [9, 8])] }
    [0x99] = .error .invalidReference := by decide +kernel

/-! ### C29: delete is all or nothing -/

/-- C29: deleting a present key succeeds; afterwards the key is gone from the data storage and from the trie
(a second deletion raises, in the trie as well), and all other keys keep their values.  Deleting an
absent key raises and changes nothing. -/
theorem C29_delete {E : Env} {secure : Bool} {ops : List EOp} {k : Bytes}
    (h : EValid E secure (ops ++ [.delete k]) []) :
    (econtents ops k ≠ none → ∃ s', EMPT.delete E k (EMPT.after E secure ops) = (.ok (), s') ∧
      dget s'.data k = none ∧ (∃ e, MPT.delete E k s'.trie = (.error e, s'.trie)) ∧
      ∀ k' v', k' ≠ k → econtents ops k' = some v' → s'.get E k' = .ok v') ∧
    (econtents ops k = none → ∃ e, EMPT.delete E k (EMPT.after E secure ops) =
      (.error e, EMPT.after E secure ops)) := by
  have hm := h.cut.mirror
  refine ⟨fun hne => ?_, hm.delete_none⟩
  cases hk : econtents ops k with
  | none => exact absurd hk hne
  | some v =>
    have hm' := h.mirror
    have h1 : refOps E (ops ++ [.delete k]) = refOps E ops ++ [.delete k] := by
      rw [refOps_append]; simp [refOps, refOp]
    have hl := h.log
    rw [hm'.trie, h1, after_append] at hl
    have hd := hm.delete_some h hl hk
    have hs : EMPT.after E secure (ops ++ [.delete k]) = (EMPT.delete E k (EMPT.after E secure ops)).2 := by
      rw [EMPT.after_append]; rfl
    have hgone : econtents (ops ++ [.delete k]) k = none := by
      rw [econtents_append]; simp [EOp.apply]
    refine ⟨EMPT.after E secure (ops ++ [.delete k]), by rw [hs, hd], ?_, ?_, ?_⟩
    · rw [hm'.data, hgone]
    · have hv := (h.valid hm').subset (ks' := [k]) (by
        intro x hx
        simp only [List.mem_singleton] at hx
        subst hx
        rw [h1]
        simp [Op.key])
      have hc := contents_refOps E (ops ++ [.delete k]) k
      rw [hgone] at hc
      rw [hm'.trie]
      exact C04_delete_absent hv hc
    · intro k' v' hne' hk'
      have hc : econtents (ops ++ [.delete k]) k' = some v' := by
        rw [econtents_append]; simp [EOp.apply, hne', hk']
      refine EValid.get_some (k := k') ⟨h.fits, ?_, h.sizes, h.log, ?_⟩ hc
      · intro x hx
        simp only [List.mem_singleton] at hx
        subst hx
        exact h.fits _ (econtents_some_mem hc)
      · intro hsec
        refine (h.keys hsec).mono fun a ha => ?_
        simp only [List.singleton_append, List.mem_cons, List.nil_append] at ha ⊢
        rcases ha with rfl | ha
        · exact List.mem_map.2 ⟨_, econtents_some_mem hc, rfl⟩
        · exact ha

example : EValid toyEnv false (sampleEOps ++ [.delete [0x12, 0x34]]) [] ∧
    econtents sampleEOps [0x12, 0x34] ≠ none :=
  ⟨evalid_of (by decide +kernel), by decide +kernel⟩
/-- The absent key whose `contains` wrongly says True: the deletion raises KeyError instead of
KeyNotFoundError, and nothing changes. -/
example : let ops : List EOp := [.update [0x12] (.bytes [1]), .update [0x12, 0x34] (.bytes [2])]
    EValid toyEnv false (ops ++ [.delete [0x12, 0x56]]) [] ∧ econtents ops [0x12, 0x56] = none ∧
    (EMPT.delete toyEnv [0x12, 0x56] (EMPT.after toyEnv false ops)).1 = .error .keyError :=
  ⟨evalid_of (by decide +kernel), by decide +kernel, by decide +kernel⟩

/-! ### C30: get_reference -/

/-- The full statement of C30 (`SparseEMPT.get_reference` is the same function, on an equal trie:
`C32_mirror_partial`). -/
def C30 : Prop := ∀ (E : Env) (secure : Bool) (ops : List EOp) (k : Bytes), EValid E secure ops [k] →
  (∀ v, econtents ops k = some v →
    EMPT.getReference E (EMPT.after E secure ops).trie k = .ok ⟨k, v.payload⟩) ∧
  (econtents ops k = none → ∃ e, EMPT.getReference E (EMPT.after E secure ops).trie k = .error e)

/-- C30 is false: with keys `12 34` and `13 45`, `get_reference(12)` returns the reference of `12 34`. -/
theorem C30_false : ¬ C30 := by
  intro h
  obtain ⟨e, he⟩ := (h _ _ _ _ split_valid).2 split_absent
  exact absurd (split_reference.symm.trans he) (by simp)

/-- C30 in part: the reference of a present key is right, always; for an absent key it raises in secure mode
and when no present key properly extends it; and in every case what is returned is the reference of a
present key that extends the key asked for.  Missing: `C30_false`. -/
theorem C30_reference_partial {E : Env} {secure : Bool} {ops : List EOp} {k : Bytes}
    (h : EValid E secure ops [k]) :
    (∀ v, econtents ops k = some v →
      EMPT.getReference E (EMPT.after E secure ops).trie k = .ok ⟨k, v.payload⟩) ∧
    (econtents ops k = none → (secure = true ∨ ∀ k', k <+: k' → k' ≠ k → econtents ops k' = none) →
      ∃ e, EMPT.getReference E (EMPT.after E secure ops).trie k = .error e) ∧
    (∀ r, EMPT.getReference E (EMPT.after E secure ops).trie k = .ok r →
      k <+: r.key ∧ ∃ v, econtents ops r.key = some v ∧ r.data = v.payload) := by
  have hm := h.mirror
  have hv := h.valid hm
  have hc := contents_refOps E ops k
  unfold EMPT.getReference
  rw [hm.trie]
  refine ⟨fun v hk => ?_, fun hk hpre => ?_, fun r hr => ?_⟩
  · rw [hk] at hc
    rw [C02_get hv hc]
    exact decode_refOf h hk
  · rw [hk] at hc
    obtain ⟨e, he⟩ := C03_get_absent_partial hv hc (by
      rcases hpre with hp | hp
      · exact .inl hp
      · refine .inr fun k' h1 h2 => ?_
        rw [contents_refOps, hp k' h1 h2]; rfl)
    exact ⟨e, by rw [he]; rfl⟩
  · cases h2 : (MPT.after E secure (refOps E ops)).get E k with
    | error e => rw [h2] at hr; simp at hr
    | ok b =>
      rw [h2] at hr
      simp only [Except.bind_ok'] at hr
      rcases C03_sound hv h2 with rfl | ⟨k', hk', hc'⟩
      · have : DataRef.decode E [] = .error .rlpDecoding := rfl
        rw [this] at hr; simp at hr
      · rw [contents_refOps] at hc'
        cases hk2 : econtents ops k' with
        | none => rw [hk2] at hc'; simp at hc'
        | some v' =>
          rw [hk2, Option.map_some, Option.some.injEq] at hc'
          rw [← hc', decode_refOf h hk2] at hr
          simp only [Except.ok.injEq] at hr
          subst hr
          exact ⟨hk', v', hk2, rfl⟩

example : EValid toyEnv false sampleEOps [[0x99]] ∧ econtents sampleEOps [0x99] = some sampleObj :=
  ⟨evalid_of (by decide +kernel), by decide +kernel⟩

/-! ### C31: DataReference -/

/-- C31, codec: decoding gives back key and data. -/
theorem C31_codec {E : Env} {r : DataRef} (h : r.key.length + r.data.length < 2 ^ 60) :
    DataRef.decode E (r.encode E) = .ok r := by
  have := DataRef.encode_length_lt (E := E) h
  exact DataRef.decode_encode (by omega)

example : (⟨[0x12], bigValue 1⟩ : DataRef).key.length + (⟨[0x12], bigValue 1⟩ : DataRef).data.length < 2 ^ 60 := by
  decide

/-- C31, checking: what `decode` accepts is the canonical encoding of the reference it returns, with the right
hash in the last field.  (Were the hash zero, an empty list would be accepted in its place.) -/
theorem C31_checked {E : Env} {b : Bytes} {r : DataRef} (h : DataRef.decode E b = .ok r)
    (h0 : ofBE (E.keccak (r.key ++ r.data)) ≠ 0) :
    b = Item.encode (.list [.str DataRef.flag, .str r.key, .str r.data,
      DataRef.intItem (ofBE (E.keccak (r.key ++ r.data)))]) := (DataRef.encode_decode h h0).symm

example : DataRef.decode toyEnv (DataRef.encode toyEnv ⟨[0x12], bigValue 1⟩) = .ok ⟨[0x12], bigValue 1⟩ ∧
    ofBE (toyEnv.keccak ([0x12] ++ bigValue 1)) ≠ 0 := by decide +kernel

/-- C31, rejection: any other number in the last field, or another flag, is rejected with ValueError. -/
theorem C31_reject {E : Env} {f k d : Bytes} {n : Nat}
    (hn : f ≠ DataRef.flag ∨ n ≠ ofBE (E.keccak (k ++ d)))
    (hl : (Item.encode (.list [.str f, .str k, .str d, DataRef.intItem n])).length < 2 ^ 64) :
    DataRef.decode E (Item.encode (.list [.str f, .str k, .str d, DataRef.intItem n])) = .error .valueError := by
  unfold DataRef.decode
  rw [rlpDecode_encode _ hl]
  simp only [Except.bind_ok', MPT.binary, DataRef.intOf_intItem]
  by_cases hf : f = DataRef.flag
  · have : DataRef.hash E ⟨k, d⟩ ≠ n := by
      rcases hn with h | h
      · exact absurd hf h
      · exact fun e => h e.symm
    simp [hf, this]
  · simp [hf]

example : DataRef.decode toyEnv (Item.encode (.list [.str DataRef.flag, .str [0x12], .str [1],
    DataRef.intItem 12345])) = .error .valueError := by decide +kernel

/-- The part of C31 about `==`. -/
def C31_eq : Prop := ∀ (E : Env) (r s : DataRef),
  CollFree E [r.key ++ r.data, s.key ++ s.data] → (r.eq E s = true ↔ r = s)

/-- It is false: `(12, 34 56)` and `(12 34, 56)` are equal. -/
theorem C31_false : ¬ C31_eq := by
  intro h
  have := (h realEnv ⟨[0x12], [0x34, 0x56]⟩ ⟨[0x12, 0x34], [0x56]⟩ (by intro a ha b hb _; simp_all)).1
    (by simp [DataRef.eq, DataRef.hash])
  simp at this

/-- C31, `==` in part: it compares key and data glued together; so it is right for keys of the same length.
Missing: keys of different lengths (`C31_false`). -/
theorem C31_eq_partial {E : Env} {r s : DataRef} (h : CollFree E [r.key ++ r.data, s.key ++ s.data]) :
    (r.eq E s = true ↔ r.key ++ r.data = s.key ++ s.data) ∧
    (r.key.length = s.key.length → (r.eq E s = true ↔ r = s)) := by
  have h1 : r.eq E s = true ↔ r.key ++ r.data = s.key ++ s.data := by
    rw [DataRef.eq_iff]
    exact ⟨fun e => h _ (by simp) _ (by simp) e, fun e => by rw [e]⟩
  refine ⟨h1, fun hl => h1.trans ⟨fun e => ?_, fun e => by rw [e]⟩⟩
  obtain ⟨k, d⟩ := r
  obtain ⟨k', d'⟩ := s
  simp only at e hl
  have := List.append_inj e hl
  rw [this.1, this.2]

example : CollFree toyEnv [[1, 2] ++ [3], [1, 3] ++ [3]] := collFree_of (by decide +kernel)

end Props
end Pymt
