import Verif.Props.Size

/-!
# What a storage shows of the past (C131)
-/

namespace Pymt.Props

/-- **C131** (false, see below) The storages of two tries with the same contents have the same entries, whatever
happened before: a copy of the storage says nothing about the past. -/
def C131 : Prop :=
  ∀ (E : Env) (secure : Bool) (ops ops' : List Op), Valid E secure ops (ops'.map Op.key) →
    Valid E secure ops' (ops.map Op.key) → contents ops = contents ops' →
    ∀ k, dget (MPT.after E secure ops).store.kv k = dget (MPT.after E secure ops').store.kv k

theorem value_in_storage {E : Env} {secure : Bool} {ops : List Op} {k v : Bytes}
    (h : Valid E secure ops [k]) (hv : contents ops k = some v) (hl : 32 ≤ v.length) :
    ∃ r e, dget (MPT.after E secure ops).store.kv r = some e ∧ v <:+: e := by
  obtain ⟨a, h1, h2, h3, h4⟩ := h.inv
  have hlk : T.lookup a (toNibs ((MPT.after E secure ops).keyOf E k)) = some v := by
    rw [h3, h.eff_key (by simp), hv]
  have hi := T.infix_enc E (T.seek_value h1.shape hlk)
  have hlen := hi.length_le
  have hne : (T.seek a (toNibs ((MPT.after E secure ops).keyOf E k))).1 ≠ .empty := by
    rcases T.seek_value h1.shape hlk with ⟨q, he⟩ | ⟨cs, he⟩ <;> rw [he] <;> simp
  rcases (h1.stored.seek (toNibs ((MPT.after E secure ops).keyOf E k))).here hne with hs | ⟨hs, _⟩
  · omega
  · exact ⟨_, _, hs, hi⟩

theorem infix_encode_storage {t : MPT} {r e b : Bytes} (he : dget t.store.kv r = some e) (hl : 32 ≤ e.length)
    (hb : t.encode = .ok b) : e <:+: b := by
  have key : ∀ (l : List Bytes) (xs : List Item), prepareAll l = .ok xs → e ∈ l → .str e ∈ xs := by
    intro l
    induction l with
    | nil => intro xs _ hm; simp at hm
    | cons x l ih =>
      intro xs hx hm
      rw [prepareAll] at hx
      cases h1 : prepareForEncoding x with
      | error err => rw [h1] at hx; simp at hx
      | ok i =>
        cases h2 : prepareAll l with
        | error err => rw [h1, h2] at hx; simp at hx
        | ok is =>
          rw [h1, h2] at hx
          simp only [Except.bind_ok', Except.pure_ok', Except.ok.injEq] at hx
          subst hx
          rcases List.mem_cons.1 hm with rfl | hm
          · rw [prepareForEncoding, if_neg (by omega)] at h1
            injection h1 with h1
            rw [← h1]; exact List.mem_cons_self
          · exact List.mem_cons_of_mem _ (ih is h2 hm)
  unfold MPT.encode at hb
  cases hp : prepareAll (t.store.kv.map (·.2)) with
  | error err => rw [hp] at hb; simp at hb
  | ok xs =>
    rw [hp] at hb
    cases hr : t.root with
    | none => rw [hr] at hb; simp at hb
    | some root =>
      rw [hr] at hb
      simp only [Except.bind_ok', Except.pure_ok', Except.ok.injEq] at hb
      subst hb
      have h1 := infix_encode (key _ _ hp (List.mem_map.2 ⟨_, mem_of_dget he, rfl⟩))
      refine h1.trans ?_
      have h2 : (Item.list xs) ∈ [.str root, .list xs, MPT.boolItem t.secure] := by simp
      have h3 := infix_encodeList h2
      rw [Item.encode]
      exact h3.trans (List.suffix_append _ _).isInfix

/-- C131, what happens instead: every value of 32 bytes or more that a key ever had stays in the storage, and in what
`encode()` returns, whatever happens afterwards. -/
theorem C131_shows {E : Env} {secure : Bool} {ops more : List Op} {k v : Bytes}
    (h : Valid E secure (ops ++ more) [k]) (hv : contents ops k = some v) (hl : 32 ≤ v.length) :
    (∃ r e, dget (MPT.after E secure (ops ++ more)).store.kv r = some e ∧ v <:+: e) ∧
    ∀ b, (MPT.after E secure (ops ++ more)).encode = .ok b → v <:+: b := by
  have h0 : Valid E secure ops [k] := h.cut.subset (by simp)
  obtain ⟨r, e, he, h1⟩ := value_in_storage h0 hv hl
  have he' : dget (MPT.after E secure (ops ++ more)).store.kv r = some e :=
    (C13_append_only he).2.2 (h.log.coll.mono fun x hx => List.mem_cons_of_mem _ hx)
  have hlen := h1.length_le
  exact ⟨⟨r, e, he', h1⟩, fun b hb => h1.trans (infix_encode_storage he' (by omega) hb)⟩

/-- The same for an EMPT and its sparse copy: key and data of a value of 32 bytes or more are in the copy and in what
its `encode_rlp()` returns, also after the value was deleted or replaced. -/
theorem C131_sparse {E : Env} {secure : Bool} {ops more : List EOp} {k : Bytes} {v : Value}
    (h : EValid E secure (ops ++ more) [k]) (hv : econtents ops k = some v) (hl : 32 ≤ v.payload.length) :
    (∃ r e, dget ((EMPT.after E secure (ops ++ more)).getSparse E).store.kv r = some e ∧ k <:+: e ∧ v.payload <:+: e) ∧
    ∀ b, Sparse.encodeRlp ((EMPT.after E secure (ops ++ more)).getSparse E) = .ok b → k <:+: b ∧ v.payload <:+: b := by
  obtain ⟨r, e, he, h1, h2⟩ := C127_stays h hv hl
  have he' : dget ((EMPT.after E secure (ops ++ more)).getSparse E).store.kv r = some e := he
  have hlen := h2.length_le
  refine ⟨⟨r, e, he', h1, h2⟩, fun b hb => ?_⟩
  have := infix_encode_storage he' (by omega) hb
  exact ⟨h1.trans this, h2.trans this⟩

/-- C131 holds of storages that were cleaned: the same entries, in some order. -/
theorem C131_cleaned_partial {E : Env} {secure : Bool} {ops ops' : List Op} (h : Valid E secure ops (ops'.map Op.key))
    (h' : Valid E secure ops' (ops.map Op.key)) (hc : contents ops = contents ops') {t t' : MPT}
    (hs : Trimmed (MPT.after E secure ops) t) (hs' : Trimmed (MPT.after E secure ops') t') :
    (∀ k, dget t.store.kv k = dget t'.store.kv k) ∧ t.store.kv.Perm t'.store.kv := by
  have he := eff_congr h.keys hc
  obtain ⟨a, h1, h2, _⟩ := Inv.same h.inv (he ▸ h'.inv)
  have key : ∀ (ops ops' : List Op) (t t' : MPT), LogOk E (MPT.after E secure ops).store.written →
      T.Holds E (MPT.after E secure ops) a → T.Holds E (MPT.after E secure ops') a →
      Trimmed (MPT.after E secure ops) t → Trimmed (MPT.after E secure ops') t' →
      ∀ k v, dget t.store.kv k = some v → dget t'.store.kv k = some v := by
    intro ops ops' t t' hl h1 h2 hs hs' k v hv
    have hg : GS E (MPT.after E secure ops).store.written (MPT.after E secure ops).store := after_gs ops fun w hw => hw
    obtain ⟨root, hr, hk⟩ := hs.used k v hv
    obtain ⟨hne, y, p, hy, hp, e1, e2, _, hlong⟩ := h1.reached hl hg hr hk (hs.less.less k v hv)
    have hst := (hp.stored h2.stored).here hy
    rcases hst with hst | ⟨hst, _⟩
    · omega
    have hk' := hp.reached h2.stored hne
    have hr' := (h2.root.resolve_left fun e => hne e.1).2
    rw [e1, e2, ← hst]
    refine hs'.less.keep _ hr' _ (E.keccak_len _) ?_
    have : T.ref E y = E.keccak (T.enc E y) := by rw [T.ref_of_ne hy, if_neg (by omega)]
    rw [← this]; exact hk'
  have hd : ∀ k, dget t.store.kv k = dget t'.store.kv k := by
    intro k
    cases e : dget t.store.kv k with
    | some v => exact (key ops ops' t t' h.log h1 h2 hs hs' k v e).symm
    | none =>
      cases e' : dget t'.store.kv k with
      | none => rfl
      | some v => rw [key ops' ops t' t h'.log h2 h1 hs' hs k v e'] at e; exact (nomatch e)
  refine ⟨hd, ?_⟩
  have nd : ∀ d : Dict Bytes, (d.map (·.1)).Nodup → d.Nodup := fun d hd => by
    rw [List.nodup_iff_pairwise_ne, List.pairwise_map] at hd
    exact hd.imp fun hab e => hab (congrArg _ e)
  refine (List.perm_ext_iff_of_nodup (nd _ hs.dict) (nd _ hs'.dict)).2 fun e => ?_
  constructor
  · intro hm
    have := dget_mem hs.dict hm
    rw [hd] at this
    exact mem_of_dget this
  · intro hm
    have := dget_mem hs'.dict hm
    rw [← hd] at this
    exact mem_of_dget this

/-- A key whose value was replaced, and one that was deleted. -/
def pastOps : List Op :=
  [.update [0x12] (bigValue 1), .update [0x77] (bigValue 2), .update [0x12] (bigValue 3), .delete [0x77]]

theorem past_contents : contents pastOps = contents [.update [0x12] (bigValue 3)] := by
  funext k
  simp only [pastOps, contents, contentsFrom, List.foldl_cons, List.foldl_nil, Op.apply]
  by_cases h1 : k = [0x12]
  · simp [h1]
  · by_cases h2 : k = [0x77]
    · simp [h2]
    · simp [h1, h2]

theorem C131_false : ¬ C131 := by
  intro h
  have := h toyEnv false pastOps [.update [0x12] (bigValue 3)] (valid_of (by decide +kernel)) (valid_of (by decide +kernel))
    past_contents
  have hk : ∃ e ∈ (MPT.after toyEnv false pastOps).store.kv,
      dget (MPT.after toyEnv false pastOps).store.kv e.1 ≠
        dget (MPT.after toyEnv false [.update [0x12] (bigValue 3)]).store.kv e.1 := by decide +kernel
  obtain ⟨e, _, he⟩ := hk
  exact he (this e.1)

/-- The hypotheses of `C131_shows` are met by a value that was replaced and one that was deleted. -/
example : Valid toyEnv false (pastOps.take 2 ++ pastOps.drop 2) [[0x77]] ∧
    contents (pastOps.take 2) [0x77] = some (bigValue 2) ∧ contents pastOps [0x77] = none ∧
    32 ≤ (bigValue 2).length ∧ (MPT.after toyEnv false pastOps).encode.toOption.isSome = true :=
  ⟨valid_of (by decide +kernel), by decide +kernel, by decide +kernel, by decide +kernel, by decide +kernel⟩

/-- The hypotheses of `C131_sparse` are met by data that was deleted. -/
example : EValid toyEnv false ([.update [0x12] (.bytes (bigValue 1)), .update [0x13] (.bytes (bigValue 2))] ++ [.delete [0x12]]) [[0x12]] ∧
    econtents [.update [0x12] (.bytes (bigValue 1)), .update [0x13] (.bytes (bigValue 2))] [0x12] = some (.bytes (bigValue 1)) ∧
    32 ≤ (Value.bytes (bigValue 1)).payload.length ∧
    (Sparse.encodeRlp ((EMPT.after toyEnv false ([.update [0x12] (.bytes (bigValue 1)), .update [0x13] (.bytes (bigValue 2))] ++
      [.delete [0x12]])).getSparse toyEnv)).toOption.isSome = true :=
  ⟨evalid_of (by decide +kernel), by decide +kernel, by decide +kernel, by decide +kernel⟩

/-- The hypotheses of `C131_cleaned_partial` are met by this history and one update. -/
example : Valid toyEnv false pastOps [[0x12]] ∧ Valid toyEnv false [.update [0x12] (bigValue 3)] (pastOps.map Op.key) ∧
    contents pastOps = contents [.update [0x12] (bigValue 3)] ∧
    Trimmed (MPT.after toyEnv false pastOps) (trimmed (MPT.after toyEnv false pastOps)) ∧
    Trimmed (MPT.after toyEnv false [.update [0x12] (bigValue 3)]) (trimmed (MPT.after toyEnv false [.update [0x12] (bigValue 3)])) ∧
    (trimmed (MPT.after toyEnv false pastOps)).store.kv ≠ [] :=
  ⟨valid_of (by decide +kernel), valid_of (by decide +kernel), past_contents,
   trimmed_of (by decide +kernel) (by decide +kernel) (by decide +kernel) (by decide +kernel) (by decide +kernel),
   trimmed_of (by decide +kernel) (by decide +kernel) (by decide +kernel) (by decide +kernel) (by decide +kernel),
   by decide +kernel⟩

end Pymt.Props
