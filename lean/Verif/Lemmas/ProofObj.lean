import Verif.Lemmas.Proofs
import Verif.Lemmas.Same

/-!
# Proofs made and checked by trie objects
-/

namespace Pymt

theorem eff_present {E : Env} {secure : Bool} {ops : List Op} {ks : List Bytes}
    (h : Valid E secure ops ks) {e : Bytes} : eff E secure ops e ≠ none ↔ Present E secure ops e := by
  constructor
  · intro hn
    cases hm : eff E secure ops e with
    | none => exact absurd hm hn
    | some v =>
      obtain ⟨k, hk, rfl⟩ := eff_some_mem hm
      refine ⟨k, ?_, rfl⟩
      rw [← eff_eq h.keys (List.mem_append_right _ hk), hm]
      simp
  · rintro ⟨k, hk, rfl⟩
    cases hm : contents ops k with
    | none => exact absurd hm hk
    | some v =>
      rw [eff_eq h.keys (List.mem_append_right _ (contents_some_mem hm)), hm]
      simp

namespace T

theorem pyIndex_zero {α : Type} (x : α) (l : List α) : pyIndex (x :: l) 0 = .ok x := rfl

theorem trail_eq (a : T) (p : List Nib) : trail a p = passed a p ++ [(T.seek a p).1] := rfl

theorem Holds.isEmpty_false {a : T} (hne : a ≠ empty) : a.isEmpty = false := by
  cases a <;> simp_all [isEmpty]

theorem trail_len {E : Env} {kv : Dict Bytes} {a : T} (h : Stored E kv a) (p : List Nib) :
    ∀ x ∈ trail a p, (enc E x).length < 2 ^ 64 := fun x hx => enc_len (trail_stored h p x hx)

theorem Holds.getPoi {E : Env} {t : MPT} {a : T} (h : Holds E t a) (hl : LogOk E t.store.written)
    (hne : a ≠ empty) {now key : Bytes} (hk : (toNibs (t.keyOf E key)).length < E.limit) :
    t.getPoi E now key =
      match foundP (T.seek a (toNibs (t.keyOf E key))).1 (T.seek a (toNibs (t.keyOf E key))).2 with
      | .error e => .error e
      | .ok _ => .ok { type := mptPoi, timestamp := now, targetKey := t.keyOf E key,
                       trieRoot := ref E a, proof := (trail a (toNibs (t.keyOf E key))).map (enc E) } := by
  unfold MPT.getPoi
  rw [h.noRoot hl, Holds.isEmpty_false hne, h.getD hne]
  have hr := getPoiAux_run E.limit h.shape hne h.stored (NibblePath.WF_bytes (t.keyOf E key))
    (by rwa [NibblePath.nibs_bytes]) []
  rw [NibblePath.nibs_bytes] at hr
  simp only [Bool.false_eq_true, if_false]
  rw [hr]
  cases hf : foundP (T.seek a (toNibs (t.keyOf E key))).1 (T.seek a (toNibs (t.keyOf E key))).2 with
  | error e => rfl
  | ok x => rw [foundP_ok hf]; rfl

theorem Holds.getPoi_empty {E : Env} {t : MPT} (h : Holds E t empty) (hl : LogOk E t.store.written)
    (now key : Bytes) : t.getPoi E now key = .error .valueError := by
  unfold MPT.getPoi
  rw [h.noRoot hl]; rfl

theorem Holds.verifyPoi {E : Env} {t : MPT} {a : T} (h : Holds E t a) (hl : LogOk E t.store.written)
    (hne : a ≠ empty) {p : Proof Bytes} (ht : p.type = mptPoi)
    (hp : p.proof = (trail a (toNibs p.targetKey)).map (enc E))
    (hk : (toNibs p.targetKey).length < E.limit) :
    t.verifyPoi E p =
      match verdict (T.seek a (toNibs p.targetKey)).1 (T.seek a (toNibs p.targetKey)).2 with
      | .error e => .error e
      | .ok b => .ok (b && (t.rootHash E == p.trieRoot)) := by
  have hc : CollFree E t.store.written := hl.coll.mono fun a ha => List.mem_cons_of_mem _ ha
  have hlog := h.stored.logged h.good
  have hne' := trail_ne_empty h.shape hne (toNibs p.targetKey)
  have hlen := trail_len h.stored (toNibs p.targetKey)
  obtain ⟨l, hl0⟩ := trail_head (t := a) (toNibs p.targetKey)
  unfold MPT.verifyPoi
  have hroot : (t.rootHash E ≠ E.keccak (enc E a)) = False := by rw [h.rootHash]; simp
  have hps := proofStorage_encs hne' hlen []
  rw [← hp] at hps
  have hfirst : pyIndex p.proof 0 = .ok (enc E a) := by rw [hp, hl0]; rfl
  have hhere : ∀ x ∈ trail a (toNibs p.targetKey),
      Here E (enter E (trail a (toNibs p.targetKey)) []) x := by
    intro x hx
    by_cases h32 : (enc E x).length < 32
    · exact .inl h32
    · right
      have := dget_enter hc hne' (fun y hy => trail_logged hlog _ y hy) hx []
      rw [ref_of_ne (hne' x hx), if_neg h32] at this
      exact ⟨this, hlen x hx⟩
  have hr := verifyPoiAux_run E.limit h.shape hne (path := ⟨p.targetKey, 0⟩)
    (by rw [NibblePath.nibs_bytes]; exact hhere) (NibblePath.WF_bytes _) (by rwa [NibblePath.nibs_bytes])
  rw [NibblePath.nibs_bytes] at hr
  rw [h.noRoot hl, Holds.isEmpty_false hne, h.getD hne, if_neg (by simp [ht]), hps, hfirst]
  simp only [Bool.false_eq_true, if_false, Except.bind_ok', hroot]
  rw [hr]
  cases verdict (T.seek a (toNibs p.targetKey)).1 (T.seek a (toNibs p.targetKey)).2 <;> rfl

/-- What an honest checker learns from an accepted inclusion proof. -/
theorem Holds.verifyPoi_sound {E : Env} {t : MPT} {a : T} (h : Holds E t a)
    (hl : LogOk E t.store.written) {p : Proof Bytes}
    (hc : CollFree E (t.store.written ++ checked p)) (hv : t.verifyPoi E p = .ok true) :
    a ≠ empty ∧ Accepts (T.seek a (toNibs p.targetKey)).1 (T.seek a (toNibs p.targetKey)).2 := by
  by_cases hne : a = empty
  · subst hne
    unfold MPT.verifyPoi at hv
    rw [h.noRoot hl] at hv
    split at hv <;> simp [isEmpty] at hv
  refine ⟨hne, ?_⟩
  unfold MPT.verifyPoi at hv
  rw [h.noRoot hl, Holds.isEmpty_false hne, h.getD hne] at hv
  split at hv
  · simp at hv
  simp only [Bool.false_eq_true, if_false] at hv
  cases hfirst : pyIndex p.proof 0 with
  | error e => rw [hfirst] at hv; cases hv
  | ok first =>
    rw [hfirst] at hv
    simp only [Except.bind_ok'] at hv
    split at hv
    · cases hv
    cases hps : MPT.proofStorage E p.proof [] with
    | error e =>
      rw [hps] at hv
      cases e <;> cases hv
    | ok ps =>
      rw [hps] at hv
      simp only at hv
      have hg : Genuine E (t.store.written ++ checked p) ps := by
        refine proofStorage_genuine (l := p.proof) (acc := []) ?_ ?_ hps
        · intro v hv e he
          refine List.mem_append_right _ (List.mem_append_right _ ?_)
          exact List.mem_filterMap.2 ⟨v, hv, he⟩
        · intro k v hk; simp [dget] at hk
      cases hr : MPT.verifyPoiAux ps E.limit (ref E a) ⟨p.targetKey, 0⟩ with
      | error e => rw [hr] at hv; cases hv
      | ok b =>
        rw [hr] at hv
        simp only [Except.bind_ok', Except.pure_ok', Except.ok.injEq, Bool.and_eq_true] at hv
        rw [hv.1] at hr
        have hlog : Logged E (t.store.written ++ checked p) a := by
          refine Logged.mono ?_ (h.stored.logged h.good)
          intro x hx; exact List.mem_append_left _ hx
        have := verifyPoiAux_sound hc hg E.limit h.shape hne h.stored hlog (NibblePath.WF_bytes _) hr
        rwa [NibblePath.nibs_bytes] at this

theorem Holds.getPoe {E : Env} {t : MPT} {a : T} (h : Holds E t a) (hl : LogOk E t.store.written)
    (hne : a ≠ empty) {now key : Bytes} (hk : (toNibs (t.keyOf E key)).length < E.limit) :
    t.getPoe E now key =
      if has a (toNibs (t.keyOf E key)) then .error .poe
      else .ok { type := mptPoe, timestamp := now, targetKey := t.keyOf E key,
                 trieRoot := t.rootHash E,
                 proof := (shown a (toNibs (t.keyOf E key))).map (enc E) ++
                   [enc E (leaf (T.seek a (toNibs (t.keyOf E key))).2 MPT.nullBytes)] } := by
  unfold MPT.getPoe
  rw [h.noRoot hl, Holds.isEmpty_false hne, h.getD hne, h.contains hl hk]
  simp only [Bool.false_eq_true, if_false, Except.bind_ok']
  by_cases hh : has a (toNibs (t.keyOf E key)) = true
  · rw [if_pos hh, if_pos hh]
  · rw [if_neg hh, if_neg hh]
    obtain ⟨n, path, h1, h2, h3, h4⟩ := getPoeAux_run E.limit h.shape hne h.stored
      (NibblePath.WF_bytes (t.keyOf E key)) (by rwa [NibblePath.nibs_bytes]) []
    rw [NibblePath.nibs_bytes] at h1 h2 h4
    rw [h1]
    have hnull : Node.encode (.leaf path MPT.nullBytes) =
        .ok (enc E (leaf (T.seek a (toNibs (t.keyOf E key))).2 MPT.nullBytes)) := by
      refine Rep.encode (t := leaf _ _) (n := .leaf path MPT.nullBytes) ?_
      exact ⟨h3, h4, rfl⟩
    simp only [Except.bind_ok', hnull]
    have hsn := seek_ne_empty h.shape hne (toNibs (t.keyOf E key))
    unfold has at hh
    generalize hs : T.seek a (toNibs (t.keyOf E key)) = s at *
    obtain ⟨x, r⟩ := s
    cases x with
    | empty => exact absurd rfl hsn
    | leaf q v =>
      cases n <;> simp only [Rep] at h2
      rename_i np d
      obtain ⟨g1, rfl, rfl⟩ := h2
      simp only [decide_eq_true_eq] at hh
      simp only [NibblePath.eq_spec g1 h3, h4, hh, decide_false, Except.bind_ok', Bool.false_eq_true, if_false]
      rfl
    | ext q c =>
      cases n <;> simp only [Rep] at h2
      rfl
    | branch cs v =>
      cases n <;> simp only [Rep] at h2
      obtain ⟨_, rfl⟩ := h2
      simp only [decide_eq_true_eq, ne_eq, Decidable.not_not] at hh
      simp only [hh, ne_eq, not_true, if_false]
      rfl

theorem Holds.getPoe_empty {E : Env} {t : MPT} (h : Holds E t empty) (hl : LogOk E t.store.written)
    (now key : Bytes) : t.getPoe E now key = .error .valueError := by
  unfold MPT.getPoe
  rw [h.noRoot hl]; rfl

/-- The last check of an exclusion proof. -/
def admits (x : T) (full : List Nib) : Bool :=
  match x with
  | leaf q _ => !decide (q = full)
  | _ => true

/-- Checking an exclusion proof that lists all nodes on the way of its target, followed by any leaf
with the value `null`. -/
theorem Holds.verifyPoe {E : Env} {t : MPT} {a : T} (h : Holds E t a) (hl : LogOk E t.store.written)
    (hne : a ≠ empty) {p : Proof Bytes} (ht : p.type = mptPoe) {r : List Nib}
    (hr : (enc E (leaf r MPT.nullBytes)).length < 2 ^ 64)
    (hp : p.proof = (trail a (toNibs p.targetKey)).map (enc E) ++ [enc E (leaf r MPT.nullBytes)])
    (hk : (toNibs p.targetKey).length < E.limit) :
    t.verifyPoe E p = .ok (admits (T.seek a (toNibs p.targetKey)).1 (toNibs p.targetKey)) := by
  have hc : CollFree E t.store.written := hl.coll.mono fun a ha => List.mem_cons_of_mem _ ha
  have hlog := h.stored.logged h.good
  have hne' := trail_ne_empty h.shape hne (toNibs p.targetKey)
  have hlen := trail_len h.stored (toNibs p.targetKey)
  obtain ⟨l, hl0⟩ := trail_head (t := a) (toNibs p.targetKey)
  unfold MPT.verifyPoe
  have hroot : (t.rootHash E ≠ E.keccak (enc E a)) = False := by rw [h.rootHash]; simp
  have hps := proofStorage_encs hne' hlen []
  have hfirst : pyIndex p.proof 0 = .ok (enc E a) := by rw [hp, hl0]; rfl
  have hlast : MPT.lastItem p.proof = .ok (enc E (leaf r MPT.nullBytes)) := by
    rw [hp]; simp [MPT.lastItem]
  have hdrop : p.proof.dropLast = (trail a (toNibs p.targetKey)).map (enc E) := by
    rw [hp]; simp
  obtain ⟨n0, hn0, hrep0⟩ := decode_enc (t := leaf r MPT.nullBytes) (by simp) hr
  have hd0 : MPT.nodeData n0 = .ok MPT.nullBytes := by
    cases n0 <;> simp only [Rep] at hrep0
    simp [MPT.nodeData, hrep0.2.2]
  obtain ⟨n, h1, h2⟩ := verifyPoeAux_run ⟨hc, hl.size⟩ E.limit h.shape hne hlog
    (path := ⟨p.targetKey, 0⟩) (ps := enter E (trail a (toNibs p.targetKey)) [])
    (by
      rw [NibblePath.nibs_bytes]
      intro x hx
      exact dget_enter hc hne' (fun y hy => trail_logged hlog _ y hy) hx [])
    (NibblePath.WF_bytes _) (by rwa [NibblePath.nibs_bytes])
  rw [NibblePath.nibs_bytes] at h1 h2
  rw [takeOut_enter] at h1
  rw [h.noRoot hl, Holds.isEmpty_false hne, h.getD hne, if_neg (by simp [ht]), hfirst, hlast, hdrop, hps]
  simp only [Bool.false_eq_true, if_false, Except.bind_ok', hroot, hn0, hd0, ne_eq, not_true, h1,
    List.length_nil]
  have hsn := seek_ne_empty h.shape hne (toNibs p.targetKey)
  generalize (T.seek a (toNibs p.targetKey)).1 = x at *
  cases x with
  | empty => exact absurd rfl hsn
  | leaf q v =>
    cases n <;> simp only [Rep] at h2
    rename_i np d
    obtain ⟨g1, rfl, rfl⟩ := h2
    simp only [NibblePath.eq_spec g1 (NibblePath.WF_bytes _), NibblePath.nibs_bytes]
    rfl
  | ext q c => cases n <;> simp only [Rep] at h2; rfl
  | branch cs v => cases n <;> simp only [Rep] at h2; rfl

/-! ### How long the root node is -/

theorem encodeList_ge {l : List Item} {x : Item} (h : x ∈ l) :
    x.encode.length + (l.length - 1) ≤ (Item.encodeList l).length := by
  have hn : ∀ l : List Item, l.length ≤ (Item.encodeList l).length := by
    intro l
    induction l with
    | nil => simp
    | cons y l ih =>
      have := Item.encode_length_pos y
      simp only [Item.encodeList, List.length_cons, List.length_append]
      omega
  induction l with
  | nil => simp at h
  | cons y l ih =>
    simp only [Item.encodeList, List.length_cons, List.length_append]
    rcases List.mem_cons.1 h with rfl | h
    · have := hn l; omega
    · have := ih h
      have := Item.encode_length_pos y
      have : 0 < l.length := List.length_pos_of_mem h
      omega

theorem list_ge {l : List Item} {x : Item} (h : x ∈ l) :
    x.encode.length + l.length ≤ (Item.encode (.list l)).length := by
  have h1 := encodeList_ge h
  have h2 := lenPrefix_length_pos 192 (Item.encodeList l).length
  have : 0 < l.length := List.length_pos_of_mem h
  simp only [Item.encode, List.length_append]
  omega

theorem wrap_ge (E : Env) (x : Item) : min 32 x.encode.length ≤ (wrap E x).encode.length := by
  unfold wrap
  split
  · omega
  · have := encStr_length_ge (E.keccak x.encode)
    rw [E.keccak_len] at this
    simp only [Item.encode]
    omega

theorem pack_length (l : List Nib) : (pack l).length = l.length / 2 := by
  induction l using pack.induct with
  | case1 a b l ih => simp only [pack, List.length_cons, ih]; omega
  | case2 l h => 
    rcases l with _ | ⟨a, _ | ⟨b, l⟩⟩
    · simp [pack]
    · simp [pack]
    · exact absurd rfl (h a b l)

theorem hp_length (b : Bool) (q : List Nib) : (hp b q).length = q.length / 2 + 1 := by
  unfold hp
  split <;> rw [pack_length] <;> simp only [List.length_cons] <;> omega

/-- Every key with its value makes the nodes above it long. -/
theorem enc_ge (E : Env) {t : T} {p : List Nib} {v : Bytes} (h : lookup t p = some v) :
    min 32 (p.length / 2 + v.length + 2) ≤ (enc E t).length := by
  induction t generalizing p with
  | empty => simp [lookup] at h
  | leaf q w =>
    simp only [lookup] at h
    split at h
    · rename_i e
      subst e
      simp only [Option.some.injEq] at h
      subst h
      have h2 := encStr_length_ge w
      have h3 := encStr_length_ge (hp true q)
      rw [hp_length] at h3
      have := lenPrefix_length_pos 192 (encStr (hp true q) ++ encStr w).length
      simp only [enc, item, Item.encode, Item.encodeList, List.length_append, List.append_nil] at *
      omega
    · simp at h
  | ext q c ih =>
    simp only [lookup] at h
    split at h
    · rename_i e
      have h1 := ih h
      have h2 := wrap_ge E (item E c)
      have h3 := encStr_length_ge (hp false q)
      rw [hp_length] at h3
      have h4 := lenPrefix_length_pos 192 (encStr (hp false q) ++ (wrap E (item E c)).encode).length
      have h5 := e.length_le
      simp only [enc, item, Item.encode, Item.encodeList, List.length_append, List.append_nil,
        List.length_drop] at *
      omega
    · simp at h
  | branch cs w ih =>
    cases p with
    | nil =>
      simp only [lookup] at h
      split at h
      · simp at h
      · simp only [Option.some.injEq] at h
        subst h
        have := list_ge (l := (List.finRange 16).map (fun i => wrap E (item E (cs i))) ++ [.str w])
          (x := .str w) (by simp)
        have h2 := encStr_length_ge w
        simp only [enc, item, List.length_append, List.length_map, List.length_finRange,
          List.length_cons, List.length_nil] at this ⊢
        simp only [Item.encode] at this ⊢
        omega
    | cons i p =>
      simp only [lookup] at h
      have h1 := ih i h
      have := list_ge (l := (List.finRange 16).map (fun i => wrap E (item E (cs i))) ++ [.str w])
        (x := wrap E (item E (cs i)))
        (List.mem_append_left _ (List.mem_map.2 ⟨i, List.mem_finRange i, rfl⟩))
      have h2 := wrap_ge E (item E (cs i))
      simp only [enc, item, List.length_append, List.length_map, List.length_finRange,
          List.length_cons, List.length_nil] at *
      omega

theorem ref_len {E : Env} {t : T} (h : 32 ≤ (enc E t).length) : (ref E t).length = 32 := by
  have hne : t ≠ empty := by
    rintro rfl
    have : (enc E empty).length = 1 := by show (Item.encode (.str [])).length = 1; decide
    omega
  rw [ref_of_ne hne, if_neg (by omega), E.keccak_len]

theorem lenPrefix_le (o : Nat) {n : Nat} (h : n < 2 ^ 64) : (lenPrefix o n).length ≤ 9 := by
  unfold lenPrefix
  split
  · simp
  · have := beBytes_length_le h
    simp only [List.length_cons]; omega

theorem encStr_le {b : Bytes} (h : b.length < 2 ^ 64) : (encStr b).length ≤ 9 + b.length := by
  unfold encStr
  split
  · split
    · simp
    · have := lenPrefix_le 128 (n := 1) (by omega)
      simp only [List.length_append, List.length_cons, List.length_nil]; omega
  · have := lenPrefix_le 128 h
    simp only [List.length_append]; omega

/-- A leaf with a path of reasonable length can be encoded. -/
theorem null_len (E : Env) {r : List Nib} (h : r.length < 2 ^ 61) :
    (enc E (leaf r MPT.nullBytes)).length < 2 ^ 64 := by
  have h1 := encStr_le (b := hp true r) (by rw [hp_length]; omega)
  have h2 : (encStr MPT.nullBytes).length = 5 := by decide
  rw [hp_length] at h1
  have h3 := lenPrefix_le 192 (n := (encStr (hp true r) ++ encStr MPT.nullBytes).length)
    (by rw [List.length_append]; omega)
  simp only [enc, item, Item.encode, Item.encodeList, List.length_append, List.append_nil] at *
  omega

theorem seek_length (t : T) (p : List Nib) : (T.seek t p).2.length ≤ p.length := by
  obtain ⟨b, h1, _⟩ := seek_split t p
  have := congrArg List.length h1
  simp only [List.length_append] at this
  omega

/-! ### Exclusion proofs that leave out the last extension -/

theorem seek_height (t : T) (p : List Nib) : height (T.seek t p).1 ≤ height t :=
  trail_height t p _ (by simp [trail])

theorem passed_height (t : T) (p : List Nib) : ∀ x ∈ passed t p, height (T.seek t p).1 < height x := by
  induction t generalizing p with
  | empty => simp [passed]
  | leaf q v => simp [passed]
  | ext q c ih =>
    cases p with
    | nil => simp [passed]
    | cons i p =>
      by_cases hpre : q <+: i :: p
      · simp only [passed, T.seek, hpre, if_true, List.mem_cons]
        rintro x (rfl | hx)
        · have := seek_height c ((i :: p).drop q.length)
          simp only [height]; omega
        · exact ih _ x hx
      · simp [passed, hpre]
  | branch cs v ih =>
    cases p with
    | nil => simp [passed]
    | cons i p =>
      by_cases he : (cs i).isEmpty = true
      · simp [passed, he]
      · simp only [passed, T.seek, he, if_false, List.mem_cons, Bool.false_eq_true]
        rintro x (rfl | hx)
        · have := seek_height (cs i) p
          have := height_child cs v i
          omega
        · exact ih i _ x hx

theorem verifyPoeAux_skip {E : Env} {log : List Bytes} (hlg : Named E log) (f : Nat) {t : T}
    (hsh : t.Shape) (hne : t ≠ empty) (hlog : Logged E log t) {path : NibblePath} {ps : Dict Bytes}
    (hs : ∀ x ∈ passed t path.nibs, dget ps (ref E x) = some (enc E x))
    (hstop : dget ps (ref E (T.seek t path.nibs).1) = none)
    (hp : path.WF) (hf : path.nibs.length < f) :
    MPT.verifyPoeAux f (ref E t) path ps =
      if (ref E (T.seek t path.nibs).1).length = 32 then .ok (none, takeOut E (passed t path.nibs) ps)
      else .error .poe := by
  have hlen : ∀ c, Logged E log c → c ≠ empty → (enc E c).length < 2 ^ 64 := by
    intro c hc hcn
    rcases hc.here hcn with h0 | h0
    · omega
    · exact hlg.size _ h0
  induction f generalizing t path ps with
  | zero => omega
  | succ f ih =>
    cases hpa : passed t path.nibs with
    | nil =>
      have hst : T.seek t path.nibs = (t, path.nibs) := by
        generalize path.nibs = p at *
        cases t with
        | empty => rfl
        | leaf q v => rfl
        | ext q c =>
          cases p with
          | nil => rfl
          | cons i p =>
            by_cases hpre : q <+: i :: p
            · simp [passed, hpre] at hpa
            · simp [T.seek, hpre]
        | branch cs v =>
          cases p with
          | nil => rfl
          | cons i p =>
            by_cases he : (cs i).isEmpty = true
            · simp [T.seek, he]
            · simp [passed, he] at hpa
      rw [hst] at hstop ⊢
      unfold MPT.verifyPoeAux
      by_cases h32 : (ref E t).length = 32
      · rw [if_pos ⟨h32, hstop⟩, if_pos h32]
        rfl
      · rw [if_neg (fun h => h32 h.1), if_neg h32]
        have hsmall : (enc E t).length < 32 := by
          rcases Nat.lt_or_ge (enc E t).length 32 with h | h
          · exact h
          · exact absurd (ref_len h) h32
        obtain ⟨n, hn, _⟩ := decode_enc hne (hlen t hlog hne)
        have hraw : MPT.rawOf ps (ref E t) = .ok (enc E t) := by
          unfold MPT.rawOf
          rw [if_neg h32, ref_of_ne hne, if_pos hsmall]
        rw [hraw]
        simp only [Except.bind_ok', hn, hstop, if_true]
    | cons x0 l0 =>
      have hx0 : x0 = t ∧ path.nibs ≠ [] := by
        generalize path.nibs = p at *
        cases t with
        | empty => simp [passed] at hpa
        | leaf q v => simp [passed] at hpa
        | ext q c =>
          cases p with
          | nil => simp [passed] at hpa
          | cons i p =>
            simp only [passed] at hpa
            split at hpa
            · exact ⟨(List.cons.inj hpa).1.symm, by simp⟩
            · simp at hpa
        | branch cs v =>
          cases p with
          | nil => simp [passed] at hpa
          | cons i p =>
            simp only [passed] at hpa
            split at hpa
            · simp at hpa
            · exact ⟨(List.cons.inj hpa).1.symm, by simp⟩
      obtain ⟨rfl, hpne⟩ := hx0
      have hget := hs x0 (by rw [hpa]; simp)
      obtain ⟨n, h2, h3, hrep⟩ := raw_of_dget hne (hlen _ hlog hne) hget
      unfold MPT.verifyPoeAux
      rw [if_neg (by simp [hget]), h2]
      simp only [Except.bind_ok', h3, NibblePath.len_spec hp, hget]
      simp only [reduceCtorEq, if_false]
      have hkid : ∀ c p, c ≠ empty → c.Shape → height c < height x0 → Logged E log c →
          (∀ x ∈ passed c p, dget ps (ref E x) = some (enc E x)) →
          ∀ x ∈ passed c p, dget (ddel ps (ref E x0)) (ref E x) = some (enc E x) := by
        intro c p hcn hcs hh hlc hx x hxm
        have hxt : x ∈ trail c p := by simp [trail, hxm]
        rw [dget_ddel, if_neg, hx x hxm]
        intro e
        have hxe := trail_ne_empty hcs hcn p x hxt
        have := ref_inj hlg.coll hlg.size hne hxe hlog (trail_logged hlc p x hxt) e
        subst this
        have := trail_height c p x0 hxt
        omega
      cases hpn : path.nibs with
      | nil => exact absurd hpn hpne
      | cons i p =>
        rw [if_neg (by simp)]
        rw [hpn] at hs hstop hpa
        cases x0 with
        | empty => exact absurd rfl hne
        | leaf q v => simp [passed] at hpa
        | ext q c =>
          cases n <;> simp only [Rep] at hrep
          rename_i np nr
          obtain ⟨h1, rfl, rfl⟩ := hrep
          simp only [NibblePath.startsWith_spec hp h1, hpn, Except.bind_ok']
          by_cases hpre : np.nibs <+: i :: p
          · have hpre' := hpre
            rw [← hpn] at hpre'
            simp only [hpre, decide_true, if_true, NibblePath.len_spec h1, Except.bind_ok']
            simp only [passed, T.seek, hpre, if_true] at hs hstop hpa
            obtain ⟨-, rfl⟩ := List.cons.inj hpa
            have hk := hkid c _ hsh.child_ne hsh.2.2 (by simp [height]) hlog.2
              (fun x hx => hs x (List.mem_cons_of_mem _ hx))
            have := ih (path := path.consume np.nibs.length) hsh.2.2 hsh.child_ne hlog.2
              (ps := ddel ps (ref E (ext np.nibs c)))
              (by rw [NibblePath.consume_nibs, hpn]; exact hk)
              (by
                rw [NibblePath.consume_nibs, hpn, dget_ddel]
                split
                · rfl
                · exact hstop)
              (NibblePath.consume_WF hp hpre'.length_le)
              (by rw [NibblePath.consume_nibs]; exact drop_len hsh.1 hpre' hf)
            rw [NibblePath.consume_nibs, hpn] at this
            rw [this]
            simp only [T.seek, hpre, if_true]
            rfl
          · simp [passed, hpre] at hpa
        | branch cs v =>
          cases n <;> simp only [Rep] at hrep
          rename_i bs d
          obtain ⟨rfl, rfl⟩ := hrep
          simp only [NibblePath.at_zero hpn, Except.bind_ok', refs_get, ref_length_pos]
          obtain ⟨hw, hc⟩ := nibs_cons_consume hp hpn
          by_cases he : (cs i).isEmpty = true
          · simp [passed, he] at hpa
          · have hci : cs i ≠ empty := fun e => he (isEmpty_iff.2 e)
            simp only [he, if_true]
            simp only [passed, T.seek, he, if_false, Bool.false_eq_true] at hs hstop hpa
            obtain ⟨-, rfl⟩ := List.cons.inj hpa
            have hk := hkid (cs i) _ hci (hsh i) (height_child cs d i) (hlog.2 i)
              (fun x hx => hs x (List.mem_cons_of_mem _ hx))
            have := ih (path := path.consume 1) (hsh i) hci (hlog.2 i)
              (ps := ddel ps (ref E (branch cs d)))
              (by rw [hc]; exact hk)
              (by
                rw [hc, dget_ddel]
                split
                · rfl
                · exact hstop)
              hw (by rw [hc]; rw [hpn] at hf; simp at hf; omega)
            rw [hc] at this
            rw [this]
            simp only [T.seek, he, if_false, Bool.false_eq_true]
            rfl

/-- Checking an exclusion proof that leaves out the node at which the search ends, when that node is
not the root: accepted when it is referred to by its hash, otherwise PoeError. -/
theorem Holds.verifyPoe_skip' {E : Env} {t : MPT} {a : T} (h : Holds E t a) (hl : LogOk E t.store.written)
    (hne : a ≠ empty) {p : Proof Bytes} (ht : p.type = mptPoe) {r : List Nib}
    (hr : (enc E (leaf r MPT.nullBytes)).length < 2 ^ 64)
    (hp : p.proof = (passed a (toNibs p.targetKey)).map (enc E) ++ [enc E (leaf r MPT.nullBytes)])
    (hk : (toNibs p.targetKey).length < E.limit) (hpa : passed a (toNibs p.targetKey) ≠ []) :
    t.verifyPoe E p =
      if (ref E (T.seek a (toNibs p.targetKey)).1).length = 32 then .ok true else .error .poe := by
  have hc : CollFree E t.store.written := hl.coll.mono fun a ha => List.mem_cons_of_mem _ ha
  have hlog := h.stored.logged h.good
  have hsub : ∀ x ∈ passed a (toNibs p.targetKey), x ∈ trail a (toNibs p.targetKey) := by
    intro x hx; simp [trail, hx]
  have hne' : ∀ x ∈ passed a (toNibs p.targetKey), x ≠ empty :=
    fun x hx => trail_ne_empty h.shape hne (toNibs p.targetKey) x (hsub x hx)
  have hlen : ∀ x ∈ passed a (toNibs p.targetKey), (enc E x).length < 2 ^ 64 :=
    fun x hx => trail_len h.stored (toNibs p.targetKey) x (hsub x hx)
  have hlog' : ∀ x ∈ passed a (toNibs p.targetKey), Logged E t.store.written x :=
    fun x hx => trail_logged hlog (toNibs p.targetKey) x (hsub x hx)
  have hl0 : ∃ l, passed a (toNibs p.targetKey) = a :: l := by
    obtain ⟨l, hl0⟩ := trail_head (t := a) (toNibs p.targetKey)
    rw [trail] at hl0
    cases hq : passed a (toNibs p.targetKey) with
    | nil => exact absurd hq hpa
    | cons x l' =>
      rw [hq] at hl0
      exact ⟨l', by rw [(List.cons.inj hl0).1]⟩
  obtain ⟨l, hl0⟩ := hl0
  unfold MPT.verifyPoe
  have hroot : (t.rootHash E ≠ E.keccak (enc E a)) = False := by rw [h.rootHash]; simp
  have hps := proofStorage_encs hne' hlen []
  have hfirst : pyIndex p.proof 0 = .ok (enc E a) := by rw [hp, hl0]; rfl
  have hlast : MPT.lastItem p.proof = .ok (enc E (leaf r MPT.nullBytes)) := by
    rw [hp]; simp [MPT.lastItem]
  have hdrop : p.proof.dropLast = (passed a (toNibs p.targetKey)).map (enc E) := by
    rw [hp]; simp
  obtain ⟨n0, hn0, hrep0⟩ := decode_enc (t := leaf r MPT.nullBytes) (by simp) hr
  have hd0 : MPT.nodeData n0 = .ok MPT.nullBytes := by
    cases n0 <;> simp only [Rep] at hrep0
    simp [MPT.nodeData, hrep0.2.2]
  have hstopne := seek_ne_empty h.shape hne (toNibs p.targetKey)
  have h1 := verifyPoeAux_skip ⟨hc, hl.size⟩ E.limit h.shape hne hlog
    (path := ⟨p.targetKey, 0⟩) (ps := enter E (passed a (toNibs p.targetKey)) [])
    (by
      rw [NibblePath.nibs_bytes]
      intro x hx
      exact dget_enter hc hne' hlog' hx [])
    (by
      rw [NibblePath.nibs_bytes]
      refine dget_enter_nil fun x hx e => ?_
      have := ref_inj hc hl.size (hne' x hx) hstopne (hlog' x hx)
        (trail_logged hlog (toNibs p.targetKey) _ (by simp [trail])) e
      have hh := passed_height a (toNibs p.targetKey) x hx
      rw [this] at hh
      omega)
    (NibblePath.WF_bytes _) (by rwa [NibblePath.nibs_bytes])
  rw [NibblePath.nibs_bytes, takeOut_enter] at h1
  rw [h.noRoot hl, Holds.isEmpty_false hne, h.getD hne, if_neg (by simp [ht]), hfirst, hlast, hdrop, hps]
  simp only [Bool.false_eq_true, if_false, Except.bind_ok', hroot, hn0, hd0, ne_eq, not_true, h1,
    List.length_nil]
  split <;> rfl

theorem Holds.verifyPoe_skip {E : Env} {t : MPT} {a : T} (h : Holds E t a) (hl : LogOk E t.store.written)
    (hne : a ≠ empty) {p : Proof Bytes} (ht : p.type = mptPoe) {r : List Nib}
    (hr : (enc E (leaf r MPT.nullBytes)).length < 2 ^ 64)
    (hp : p.proof = (passed a (toNibs p.targetKey)).map (enc E) ++ [enc E (leaf r MPT.nullBytes)])
    (hk : (toNibs p.targetKey).length < E.limit) (hpa : passed a (toNibs p.targetKey) ≠ [])
    (h32 : (ref E (T.seek a (toNibs p.targetKey)).1).length = 32) :
    t.verifyPoe E p = .ok true := by
  rw [h.verifyPoe_skip' hl hne ht hr hp hk hpa, if_pos h32]

end T
end Pymt
