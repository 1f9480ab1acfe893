import Verif.Lemmas.Poison
import Verif.Props.Tampered

/-!
# Property C85: values that are not `bytes`
-/

namespace Pymt
namespace Props

/-- A `bytes` or `bytearray` object. -/
def Val.IsBytes : Val → Prop
  | .bytes _ => True
  | .bytearray _ => True
  | _ => False

/-- The byte string that stands for the value in RLP: the bytes themselves, integers in big-endian notation without
leading zeros, `True` and `False` as `b"\x01"` and `b""`, and texts in UTF-8. -/
def Val.bytes? : Val → Option Bytes
  | .bytes b => some b
  | .bytearray b => some b
  | .int n => some (if n = 0 then [] else beBytes n)
  | .bool b => some (if b then [1] else [])
  | .text b => some b
  | _ => none

mutual
/-- A value with an RLP encoding: no `None` and no object without serializer, at any depth. -/
def Val.plain : Val → Bool
  | .none => false
  | .other => false
  | .seq l => Val.plains l
  | _ => true
/-- The same for all elements of a list. -/
def Val.plains : List Val → Bool
  | [] => true
  | v :: l => Val.plain v && Val.plains l
end

/-- Another key in the trie starts with `k`.  In secure mode all keys have the same length and this does not
happen. -/
def Above (secure : Bool) (ops : List Op) (k : Bytes) : Prop :=
  secure = false ∧ ∃ k', k' ≠ k ∧ k <+: k' ∧ contents ops k' ≠ none

/-- The claim: `update` with a value that is neither `bytes` nor `bytearray` raises TypeError and no lookup notices. -/
def C85 : Prop := ∀ (E : Env) (secure : Bool) (ops : List Op) (k : Bytes) (v : Val),
  Valid E secure ops [k] → ¬ Val.IsBytes v →
  LogOk E (MPT.updateVal E k v (MPT.after E secure ops)).2.store.written →
  (MPT.updateVal E k v (MPT.after E secure ops)).1 = .error .typeError ∧
    (MPT.updateVal E k v (MPT.after E secure ops)).2.get E k = (MPT.after E secure ops).get E k

/-- A call that raised TypeError and that no lookup notices. -/
def Refused (E : Env) (secure : Bool) (ops : List Op) (k : Bytes) (v : Val) : Prop :=
  (MPT.updateVal E k v (MPT.after E secure ops)).1 = .error .typeError ∧
  (MPT.updateVal E k v (MPT.after E secure ops)).2.root = (MPT.after E secure ops).root ∧
  (LogOk E (MPT.updateVal E k v (MPT.after E secure ops)).2.store.written → ∀ k', Valid E secure ops [k'] →
    (MPT.updateVal E k v (MPT.after E secure ops)).2.get E k' = (MPT.after E secure ops).get E k' ∧
    (MPT.updateVal E k v (MPT.after E secure ops)).2.contains E k' = (MPT.after E secure ops).contains E k')

theorem updateVal_refused {E : Env} {secure : Bool} {ops : List Op} {k : Bytes} {v : Val}
    (h : Valid E secure ops [k]) (he : (MPT.updateVal E k v (MPT.after E secure ops)).1 = .error .typeError)
    (h0 : (∀ k', contents ops k' = none) → (MPT.updateVal E k v (MPT.after E secure ops)).2 = MPT.after E secure ops) :
    Refused E secure ops k v := by
  have hs : ∃ st, MPT.updateVal E k v (MPT.after E secure ops) =
      (.error .typeError, { MPT.after E secure ops with store := st }) ∧
      (LogOk E st.written → ∀ k v, dget (MPT.after E secure ops).store.kv k = some v → dget st.kv k = some v) := by
    have hw := Writes.updateValAux (E := E) E.limit ((MPT.after E secure ops).root.getD [])
      ⟨(MPT.after E secure ops).keyOf E k, 0⟩ v
    obtain ⟨a, h1, -⟩ := h.inv
    rw [updateVal_eq] at he ⊢
    cases hr : MPT.updateValAux E E.limit ((MPT.after E secure ops).root.getD [])
      ⟨(MPT.after E secure ops).keyOf E k, 0⟩ v (MPT.after E secure ops).store with
    | mk r st =>
      rw [hr] at he
      cases r with
      | ok r => exact absurd he (by simp)
      | error e =>
        simp only [Except.error.injEq] at he
        subst he
        exact ⟨st, rfl, fun hl => (T.step_writes hw hr h1.good hl).keep⟩
  obtain ⟨st, h2, h3⟩ := hs
  unfold Refused
  rw [h2] at h0 ⊢
  refine ⟨rfl, rfl, fun hl k' h' => ?_⟩
  by_cases hne : ∃ k', contents ops k' ≠ none
  · exact more_nodes h' hne rfl (after_secure _ _ _) (h3 hl)
  · rw [h0 (fun k' => Classical.byContradiction fun g => hne ⟨k', g⟩)]
    exact ⟨rfl, rfl⟩

mutual
theorem item_plain : (v : Val) → (Val.plain v = true → ∃ i, v.item = .ok i) ∧
    (Val.plain v = false → ∃ e, v.item = .error e)
  | .bytes b => ⟨fun _ => ⟨_, rfl⟩, fun h => nomatch h⟩
  | .bytearray b => ⟨fun _ => ⟨_, rfl⟩, fun h => nomatch h⟩
  | .int n => ⟨fun _ => ⟨_, rfl⟩, fun h => nomatch h⟩
  | .bool b => ⟨fun _ => ⟨_, rfl⟩, fun h => nomatch h⟩
  | .text b => ⟨fun _ => ⟨_, rfl⟩, fun h => nomatch h⟩
  | .none => ⟨fun h => (nomatch h), fun _ => ⟨_, rfl⟩⟩
  | .other => ⟨fun h => (nomatch h), fun _ => ⟨_, rfl⟩⟩
  | .seq l => by
    rw [Val.plain, Val.item]
    obtain ⟨h1, h2⟩ := items_plain l
    refine ⟨fun h => ?_, fun h => ?_⟩
    · obtain ⟨is, h3⟩ := h1 h
      exact ⟨.list is, by rw [h3]; rfl⟩
    · obtain ⟨e, h3⟩ := h2 h
      exact ⟨e, by rw [h3]; rfl⟩
theorem items_plain : (l : List Val) → (Val.plains l = true → ∃ i, Val.items l = .ok i) ∧
    (Val.plains l = false → ∃ e, Val.items l = .error e)
  | [] => ⟨fun _ => ⟨_, rfl⟩, fun h => nomatch h⟩
  | v :: l => by
    rw [Val.plains, Val.items]
    obtain ⟨h1, h2⟩ := item_plain v
    obtain ⟨h3, h4⟩ := items_plain l
    refine ⟨fun h => ?_, fun h => ?_⟩
    · rw [Bool.and_eq_true] at h
      obtain ⟨i, hi⟩ := h1 h.1
      obtain ⟨is, his⟩ := h3 h.2
      exact ⟨i :: is, by rw [hi, his]; rfl⟩
    · cases hv : Val.plain v with
      | false =>
        obtain ⟨e, he⟩ := h2 hv
        exact ⟨e, by rw [he]; rfl⟩
      | true =>
        obtain ⟨i, hi⟩ := h1 hv
        rw [hv, Bool.true_and] at h
        obtain ⟨e, he⟩ := h4 h
        exact ⟨e, by rw [hi, he]; rfl⟩
end

theorem kind_above {E : Env} {secure : Bool} {ops : List Op} {ks : List Bytes} {k : Bytes} {a : T}
    (_h : Valid E secure ops ks) (h2 : a.Canon) (h3 : ∀ k, a.lookup (toNibs k) = eff E secure ops k)
    (h4 : ∀ p v, a.lookup p = some v → ∃ k, p = toNibs k) :
    T.kind a (toNibs ((MPT.after E secure ops).keyOf E k)) = .inner ↔ Above secure ops k := by
  rw [h2.kind_inner]
  unfold Above
  rw [keyOf_eq, after_secure]
  cases secure with
  | false =>
    simp only [Bool.false_eq_true, if_false, true_and]
    constructor
    · rintro ⟨q, hq, hp, hl⟩
      obtain ⟨w, hw⟩ := Option.ne_none_iff_exists'.1 hl
      obtain ⟨k', rfl⟩ := h4 q w hw
      rw [h3, eff_false] at hl
      exact ⟨k', fun e => hq (by rw [e]), toNibs_prefix.1 hp, hl⟩
    · rintro ⟨k', hk, hp, hl⟩
      exact ⟨toNibs k', fun e => hk (toNibs_inj e), toNibs_prefix.2 hp, by rw [h3, eff_false]; exact hl⟩
  | true =>
    simp only [if_true, Bool.true_eq_false, false_and, iff_false]
    rintro ⟨q, hq, hp, hl⟩
    obtain ⟨w, hw⟩ := Option.ne_none_iff_exists'.1 hl
    obtain ⟨k', rfl⟩ := h4 q w hw
    rw [h3] at hw
    have := eff_secure_len hw
    rw [toNibs_prefix] at hp
    exact hq (by rw [hp.eq_of_length (by rw [this, E.keccak_len])])

/-- What `update` does with a value, in terms of the way it ends. -/
theorem updateVal_run {E : Env} {secure : Bool} {ops : List Op} {k : Bytes} (v : Val)
    (h : Valid E secure ops [k]) :
    ∃ kd : Kind, (kd = .inner ↔ Above secure ops k) ∧ (kd = .leaf ↔ contents ops k ≠ none ∧ ¬ Above secure ops k) ∧
      (∀ c, v.land kd = .ok c →
        MPT.updateVal E k v (MPT.after E secure ops) = MPT.update E k c (MPT.after E secure ops)) ∧
      (∀ e, v.land kd = .error e → (kd = .leaf → ∀ l, v.item ≠ .ok (.list l)) → Refused E secure ops k v) := by
  obtain ⟨a, h1, h2, h3, h4⟩ := h.inv
  have hin := kind_above (k := k) h h2 h3 h4
  refine ⟨T.kind a (toNibs ((MPT.after E secure ops).keyOf E k)), hin, ?_, ?_⟩
  · rw [h2.kind_leaf, h3, h.eff_key (by simp), Ne, Ne, hin]
  have hk := fits_nibs (E := E) (t := MPT.after E secure ops) (h.fit (k := k) (by simp))
  by_cases hne : a = .empty
  · subst hne
    have hr : ∃ r, (r = [] ∨ r = emptyHash E) ∧ (MPT.after E secure ops).root.getD [] = r := by
      rcases h1.root with ⟨_, g | g⟩ | ⟨g, _⟩
      · exact ⟨[], .inl rfl, by rw [g]; rfl⟩
      · exact ⟨_, .inr rfl, by rw [g]; rfl⟩
      · exact absurd rfl g
    obtain ⟨r, hr, hg⟩ := hr
    have hlim : ∃ f, E.limit = f + 1 := ⟨E.limit - 1, by omega⟩
    obtain ⟨f, hf⟩ := hlim
    refine ⟨fun c hc => ?_, fun e he _ => ?_⟩
    · simp only [T.kind, Val.land] at hc
      rw [updateVal_eq, T.update_eq, hg, hf]
      unfold MPT.updateValAux MPT.updateAux
      simp only [if_pos hr, M.bind_apply, M.lift_apply, hc]
      rfl
    · simp only [T.kind, Val.land] at he
      have hrun : MPT.updateVal E k v (MPT.after E secure ops) = (.error .typeError, MPT.after E secure ops) := by
        rw [updateVal_eq, hg, hf]
        unfold MPT.updateValAux
        simp only [if_pos hr, M.bind_apply, M.lift_apply, he, Val.asLeaf_error he]
      exact updateVal_refused h (by rw [hrun]) (fun _ => by rw [hrun])
  · have hrun := T.updateValAux_run E.limit h1.shape (NibblePath.WF_bytes ((MPT.after E secure ops).keyOf E k)) v
      (by rw [NibblePath.nibs_bytes]; exact hk) h1.good h.log h1.stored
    rw [NibblePath.nibs_bytes, ← h1.getD hne] at hrun
    refine ⟨fun c hc => ?_, fun e he hlist => ?_⟩
    · rw [updateVal_eq, T.update_eq, hrun.1 c hc]
      rfl
    · refine updateVal_refused h ?_ (fun g => ?_)
      · have := hrun.2 e he hlist
        rw [updateVal_eq]
        revert this
        cases MPT.updateValAux E E.limit ((MPT.after E secure ops).root.getD [])
          ⟨(MPT.after E secure ops).keyOf E k, 0⟩ v (MPT.after E secure ops).store with
        | mk r st =>
          intro this
          simp only at this
          subst this
          rfl
      · obtain ⟨k', hk'⟩ := (nonempty_iff h h2 h3 h4).2 hne
        exact absurd (g k') hk'

/-- `bytes` and `bytearray` are what `update` is made for. -/
theorem C85_bytes {E : Env} {secure : Bool} {ops : List Op} {k : Bytes} (b : Bytes) (h : Valid E secure ops [k]) :
    MPT.updateVal E k (.bytes b) (MPT.after E secure ops) = MPT.update E k b (MPT.after E secure ops) ∧
    MPT.updateVal E k (.bytearray b) (MPT.after E secure ops) = MPT.update E k b (MPT.after E secure ops) := by
  constructor
  · obtain ⟨kd, -, -, h1, -⟩ := updateVal_run (.bytes b) h
    exact h1 b (Val.land_bytes b kd)
  · obtain ⟨kd, -, -, h1, -⟩ := updateVal_run (.bytearray b) h
    exact h1 b (Val.land_bytearray b kd)

/-- C85 holds for keys that are not in the trie (and with which no other key starts): every value of another type is
refused. -/
theorem C85_absent_partial {E : Env} {secure : Bool} {ops : List Op} {k : Bytes} {v : Val}
    (h : Valid E secure ops [k]) (hk : contents ops k = none) (ha : ¬ Above secure ops k) (hv : ¬ Val.IsBytes v) :
    Refused E secure ops k v := by
  obtain ⟨kd, h1, h2, -, h4⟩ := updateVal_run v h
  have hf : kd = .fresh := by
    cases kd with
    | fresh => rfl
    | leaf => exact absurd hk (h2.1 rfl).1
    | inner => exact absurd (h1.1 rfl) ha
  subst hf
  refine h4 .typeError ?_ (fun g => nomatch g)
  cases v <;> first | rfl | exact absurd trivial hv

/-- For a key with which other keys start, `None` is as good as `b""`, and every other value of another type is
refused. -/
theorem C85_above {E : Env} {secure : Bool} {ops : List Op} {k : Bytes}
    (h : Valid E secure ops [k]) (ha : Above secure ops k) :
    MPT.updateVal E k .none (MPT.after E secure ops) = MPT.update E k [] (MPT.after E secure ops) ∧
    ∀ v, ¬ Val.IsBytes v → v ≠ .none → Refused E secure ops k v := by
  constructor
  · obtain ⟨kd, h1, -, h3, -⟩ := updateVal_run .none h
    exact h3 [] (by rw [h1.2 ha]; rfl)
  · intro v hv hn
    obtain ⟨kd, h1, -, -, h4⟩ := updateVal_run v h
    rw [h1.2 ha] at h4
    refine h4 .typeError ?_ (fun g => nomatch g)
    cases v <;> first | rfl | exact absurd trivial hv | exact absurd rfl hn

/-- For a key in the trie with which no other key starts, everything that RLP can express as a byte string is stored as
that byte string; `None` and objects without RLP encoding are refused.

Lists and tuples: see `C85_list`. -/
theorem C85_present {E : Env} {secure : Bool} {ops : List Op} {k : Bytes} {v : Val}
    (h : Valid E secure ops [k]) (hk : contents ops k ≠ none) (ha : ¬ Above secure ops k) :
    (∀ c, Val.bytes? v = some c →
      MPT.updateVal E k v (MPT.after E secure ops) = MPT.update E k c (MPT.after E secure ops)) ∧
    (Val.plain v = false → Refused E secure ops k v) := by
  obtain ⟨kd, -, h2, h3, h4⟩ := updateVal_run v h
  rw [h2.2 ⟨hk, ha⟩] at h3 h4
  constructor
  · intro c hc
    refine h3 c ?_
    cases v <;> simp only [Val.bytes?, Option.some.injEq, reduceCtorEq] at hc <;> subst hc <;> rfl
  · intro hc
    obtain ⟨e, hi⟩ := (item_plain v).2 hc
    exact h4 e (by simp [Val.land, hi]) (fun _ l => by simp [hi])

/-- The key in the trie of a key. -/
theorem keyOf_ne {E : Env} {secure : Bool} {ops : List Op} {k k' : Bytes} (h : Valid E secure ops [k, k'])
    (hne : k' ≠ k) : (MPT.after E secure ops).keyOf E k' ≠ (MPT.after E secure ops).keyOf E k := by
  rw [keyOf_eq, keyOf_eq, after_secure]
  cases secure with
  | false => exact hne
  | true => exact fun e => hne (h.keys rfl k' (by simp) k (by simp) e)

/-- For a key in the trie with which no other key starts, `update` with a list or tuple raises no exception.
Afterwards every lookup of the key raises TypeError, and the other keys have kept their values. -/
theorem C85_list {E : Env} {secure : Bool} {ops : List Op} {k : Bytes} {l : List Val}
    (h : Valid E secure ops [k]) (hk : contents ops k ≠ none) (ha : ¬ Above secure ops k)
    (hv : Val.plain (.seq l) = true)
    (hl : LogOk E (MPT.updateVal E k (.seq l) (MPT.after E secure ops)).2.store.written) :
    (MPT.updateVal E k (.seq l) (MPT.after E secure ops)).1 = .ok () ∧
    (MPT.updateVal E k (.seq l) (MPT.after E secure ops)).2.get E k = .error .typeError ∧
    (MPT.updateVal E k (.seq l) (MPT.after E secure ops)).2.contains E k = .error .typeError ∧
    ∀ k' w, k' ≠ k → Valid E secure ops [k, k'] → contents ops k' = some w →
      (MPT.updateVal E k (.seq l) (MPT.after E secure ops)).2.get E k' = .ok w := by
  obtain ⟨a, h1, h2, h3, h4⟩ := h.inv
  have hne : a ≠ .empty := (nonempty_iff h h2 h3 h4).1 ⟨k, hk⟩
  have hkind : T.kind a (toNibs ((MPT.after E secure ops).keyOf E k)) = .leaf := by
    rw [h2.kind_leaf, h3, h.eff_key (by simp)]
    exact ⟨hk, fun g => ha ((kind_above h h2 h3 h4).1 g)⟩
  have hlen := fits_nibs (E := E) (t := MPT.after E secure ops) (h.fit (k := k) (by simp))
  obtain ⟨is, hi⟩ := (item_plain (.seq l)).1 hv
  have hi' : ∃ l', is = .list l' := by
    simp only [Val.item] at hi
    cases hls : Val.items l with
    | error e => rw [hls] at hi; simp at hi
    | ok is' => rw [hls] at hi; simp only [Except.bind_ok', Except.pure_ok', Except.ok.injEq] at hi; exact ⟨_, hi.symm⟩
  obtain ⟨l', rfl⟩ := hi'
  cases hrun : MPT.updateValAux E E.limit (T.ref E a) ⟨(MPT.after E secure ops).keyOf E k, 0⟩ (.seq l)
      (MPT.after E secure ops).store with
  | mk r st =>
    have hup : MPT.updateVal E k (.seq l) (MPT.after E secure ops) =
        match (r, st) with
        | (.ok r, st) => (.ok (), { MPT.after E secure ops with store := st, root := some r })
        | (.error e, st) => (.error e, { MPT.after E secure ops with store := st }) := by
      rw [updateVal_eq, h1.getD hne, hrun]
      cases r <;> rfl
    have hst : LogOk E st.written := by
      rw [hup] at hl
      cases r <;> exact hl
    obtain ⟨r', rfl, g1, -, g2⟩ := T.updateValAux_list E.limit h1.shape
      (NibblePath.WF_bytes ((MPT.after E secure ops).keyOf E k)) hi (by rw [NibblePath.nibs_bytes]; exact hlen)
      (by rw [NibblePath.nibs_bytes]; exact hkind) hrun h1.good hst h1.stored
    have hgood := (T.step_writes (Writes.updateValAux _ _ _ _) hrun h1.good hst).good
    have hbad := g2.bad (f := E.limit) (NibblePath.WF_bytes ((MPT.after E secure ops).keyOf E k)) rfl
      (by rw [NibblePath.nibs_bytes]; exact hlen)
    have heh := g2.ne_emptyHash hgood hst
    have hfal : ({ MPT.after E secure ops with store := st, root := some r' } : MPT).rootFalsy = false := by
      simp [MPT.rootFalsy, g1]
    have hno : ({ MPT.after E secure ops with store := st, root := some r' } : MPT).noRoot E = false := by
      simp [MPT.noRoot, heh]
    rw [hup]
    refine ⟨rfl, ?_, ?_, fun k' w hk' h' hw => ?_⟩
    · show MPT.get E { MPT.after E secure ops with store := st, root := some r' } k = _
      unfold MPT.get
      rw [hfal]
      have := hbad.1
      unfold MPT.keyOf at this ⊢
      simp only [Option.getD_some, this]
      rfl
    · show MPT.contains E { MPT.after E secure ops with store := st, root := some r' } k = _
      unfold MPT.contains
      rw [hfal, hno]
      have := hbad.2
      unfold MPT.keyOf at this ⊢
      simp only [Option.getD_some, this]
      rfl
    · have hl' := fits_nibs (E := E) (t := MPT.after E secure ops) (h'.fit (k := k') (by simp))
      have hlook : T.lookup a (toNibs ((MPT.after E secure ops).keyOf E k')) = some w := by
        rw [h3, h'.eff_key (by simp), hw]
      obtain ⟨n, q1, q2⟩ := g2.get (f := E.limit) (NibblePath.WF_bytes ((MPT.after E secure ops).keyOf E k'))
        (by rw [NibblePath.nibs_bytes, NibblePath.nibs_bytes]; exact fun e => keyOf_ne h' hk' (toNibs_inj e))
        (by rw [NibblePath.nibs_bytes]; exact hl') (by rw [NibblePath.nibs_bytes]; exact hlook)
      show MPT.get E { MPT.after E secure ops with store := st, root := some r' } k' = _
      unfold MPT.get
      rw [hfal]
      unfold MPT.keyOf at q1 ⊢
      simp only [Option.getD_some, q1]
      rcases q2 with ⟨q, rfl⟩ | ⟨bs, rfl⟩ <;> rfl

/-- `12 ↦ …`, `12 34 ↦ …`, `56 ↦ …`. -/
def typesOps : List Op := [.update [0x12] (bigValue 1), .update [0x12, 0x34] (bigValue 2), .update [0x56] [7]]

/-- C85 is false: the integer 5 becomes the new value of a key, as `b"\x05"`. -/
theorem C85_false : ¬ C85 := by
  intro h
  have := (h toyEnv false typesOps [0x56] (.int 5) (valid_of (by decide +kernel)) (fun g => g)
    (logOk_of (by decide +kernel))).1
  exact absurd this (by decide +kernel)

example : Valid toyEnv false typesOps [[0x77]] ∧ contents typesOps [0x77] = none ∧
    ¬ Above false typesOps [0x77] ∧ ¬ Val.IsBytes (.text [0x61]) := by
  refine ⟨valid_of (by decide +kernel), by decide +kernel, ?_, fun g => g⟩
  rintro ⟨_, k', h1, h2, h3⟩
  obtain ⟨w, hw⟩ := Option.ne_none_iff_exists'.1 h3
  have := contents_some_mem hw
  simp only [typesOps, List.map_cons, List.map_nil, Op.key, List.mem_cons, List.not_mem_nil, or_false] at this
  rcases this with rfl | rfl | rfl <;> exact absurd h2 (by decide)

example : Valid toyEnv false typesOps [[0x12]] ∧ Above false typesOps [0x12] :=
  ⟨valid_of (by decide +kernel), rfl, [0x12, 0x34], by decide, by decide, by decide +kernel⟩

/-- `12 34` and `56` are leaves. -/
theorem not_above {k : Bytes} (hk : k = [0x12, 0x34] ∨ k = [0x56]) : ¬ Above false typesOps k := by
  rintro ⟨_, k', h1, h2, h3⟩
  obtain ⟨w, hw⟩ := Option.ne_none_iff_exists'.1 h3
  have := contents_some_mem hw
  simp only [typesOps, List.map_cons, List.map_nil, Op.key, List.mem_cons, List.not_mem_nil, or_false] at this
  rcases hk with rfl | rfl <;> rcases this with rfl | rfl | rfl <;>
    first | exact absurd h2 (by decide) | exact h1 rfl

example : Valid toyEnv false typesOps [[0x56]] ∧ contents typesOps [0x56] ≠ none ∧ ¬ Above false typesOps [0x56] ∧
    Val.bytes? (.text [0x68, 0x69]) = some [0x68, 0x69] ∧ Val.bytes? (.int 258) = some [1, 2] ∧
    Val.plain .none = false :=
  ⟨valid_of (by decide +kernel), by decide +kernel, not_above (.inr rfl), by decide +kernel, by decide +kernel, rfl⟩

example : Valid toyEnv false typesOps [[0x12, 0x34]] ∧ contents typesOps [0x12, 0x34] ≠ none ∧
    ¬ Above false typesOps [0x12, 0x34] ∧ Val.plain (.seq [.int 1, .text [0x61], .seq []]) = true ∧
    LogOk toyEnv (MPT.updateVal toyEnv [0x12, 0x34] (.seq [.int 1, .text [0x61], .seq []])
      (MPT.after toyEnv false typesOps)).2.store.written ∧
    Valid toyEnv false typesOps [[0x12, 0x34], [0x12]] ∧ contents typesOps [0x12] = some (bigValue 1) :=
  ⟨valid_of (by decide +kernel), by decide +kernel, not_above (.inl rfl), by decide +kernel,
    logOk_of (by decide +kernel), valid_of (by decide +kernel), by decide +kernel⟩

end Props
end Pymt
