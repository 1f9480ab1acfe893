import Verif.Lemmas.Keys
import Verif.Props.Map
import Verif.Props.Proofs
import Verif.Spec.ToyEmpt

/-!
# Property C115: keys of the wrong type
-/

namespace Pymt
namespace Props

/-- What a call with a wrong key should do: a TypeError from every method, and nothing is changed. -/
def RefusesKey (E : Env) (t : MPT) (key : KeyArg) (value now : Bytes) : Prop :=
  t.getAny E key = .error .typeError ∧ t.containsAny E key = .error .typeError ∧
  MPT.updateAny E key value t = (.error .typeError, t) ∧ MPT.deleteAny E key t = (.error .typeError, t) ∧
  t.getPoiAny E now key = .error .typeError ∧ t.getPoeAny E now key = .error .typeError

/-- The full statement of C115: a trie with at least one key refuses keys that are not bytes-like with TypeError, and
is not changed. -/
def C115 : Prop := ∀ (E : Env) (secure : Bool) (ops : List Op) (k : Bytes) (key : KeyArg) (value now : Bytes),
  Valid E secure ops [k] → contents ops k ≠ none → key.Wrong →
  RefusesKey E (MPT.after E secure ops) key value now

/-- C115 is false: a trie with the key `b"\x12"` answers `contains("ab")` with False. -/
theorem C115_false : ¬ C115 := by
  intro h
  have h1 := (h toyEnv false [.update [0x12] [1]] [0x12] (.text 2) [] [] (valid_of (by decide +kernel))
    (by decide +kernel) trivial).2.1
  revert h1
  decide +kernel

/-- The empty `str` is even written: it counts as the key `b""`. -/
theorem C115_empty : ∃ ops : List Op, Valid toyEnv false ops [] ∧ (∃ k, contents ops k ≠ none) ∧
    (MPT.updateAny toyEnv (.text 0) [7] (MPT.after toyEnv false ops)).1 = .ok () ∧
    (MPT.updateAny toyEnv (.text 0) [7] (MPT.after toyEnv false ops)).2.get toyEnv [] = .ok [7] ∧
    (MPT.updateAny toyEnv (.text 0) [7] (MPT.after toyEnv false ops)).2.root ≠ (MPT.after toyEnv false ops).root :=
  ⟨sampleOps, valid_of (by decide +kernel), ⟨[0x99], by decide +kernel⟩, by decide +kernel, by decide +kernel,
    by decide +kernel⟩

/-- C115, in secure mode it holds, for whatever the storage holds: an object with a root refuses every key that is
not bytes-like with TypeError, the empty `str` included. -/
theorem C115_secure_partial {E : Env} {t : MPT} {key : KeyArg} (value now : Bytes) (hs : t.secure = true)
    (h0 : t.noRoot E = false) (h1 : t.rootFalsy = false) (hk : key.Wrong) : RefusesKey E t key value now := by
  have hb : ∀ p, t.badPath p = .error .typeError := fun p => by simp [MPT.badPath, hs]
  have hc : t.containsAny E key = .error .typeError := by
    rcases key with b | b | (_ | n) | _
    · exact hk.elim
    · exact hk.elim
    · simp [MPT.containsAny, hs, h1]
    · simp [MPT.containsAny, MPT.containsAny.containsBad, h1, hb]
    · simp [MPT.containsAny, MPT.containsAny.containsBad, h1, hb]
  refine ⟨?_, hc, ?_, ?_, ?_, ?_⟩
  all_goals rcases key with b | b | (_ | n) | _
  all_goals first
    | exact hk.elim
    | simp [MPT.getAny, MPT.getAny.getBad, MPT.updateAny, MPT.updateAny.updateBad, MPT.deleteAny,
        MPT.deleteAny.deleteBad, MPT.getPoiAny, MPT.getPoiAny.poiBad, MPT.getPoeAny, MPT.getPoeAny.poeBad, hs, h0, h1,
        hb, hc, M.bind_apply, M.get_apply, M.lift_apply, M.raise_apply]

/-- C115, in both modes, for whatever the storage holds: a key that cannot be read is never found and never written.
`get` and the proof methods raise, `contains` does not return True, `update` and `delete` raise and change
neither the root nor the storage. -/
theorem C115_refused_partial {E : Env} {t : MPT} {key : KeyArg} (value now : Bytes) (hk : key.Unreadable) :
    (∃ e, t.getAny E key = .error e) ∧ t.containsAny E key ≠ .ok true ∧
    (∃ e, MPT.updateAny E key value t = (.error e, t)) ∧ (∃ e, MPT.deleteAny E key t = (.error e, t)) ∧
    (∃ e, t.getPoiAny E now key = .error e) ∧ ∃ e, t.getPoeAny E now key = .error e := by
  have main : ∀ p : BadPath, p ≠ some 0 →
      (∃ e, MPT.getAny.getBad E t p = .error e) ∧ MPT.containsAny.containsBad E t p ≠ .ok true ∧
      (∃ e, MPT.updateAny.updateBad E p t = (.error e, t)) ∧ (∃ e, MPT.deleteAny.deleteBad E p t = (.error e, t)) ∧
      (∃ e, MPT.getPoiAny.poiBad E now t key p = .error e) ∧ ∃ e, MPT.getPoeAny.poeBad E now t key p = .error e := by
    intro p hp
    cases hb : t.badPath p with
    | error e =>
      refine ⟨?_, ?_, ?_, ?_, ?_, ?_⟩
      · unfold MPT.getAny.getBad; split <;> simp [hb]
      · unfold MPT.containsAny.containsBad; split <;> simp [hb]
      · exact ⟨e, by simp [MPT.updateAny.updateBad, M.bind_apply, M.get_apply, M.lift_apply, hb]⟩
      · simp only [MPT.deleteAny.deleteBad, M.bind_apply, M.get_apply]
        split
        · exact ⟨_, rfl⟩
        · exact ⟨e, by simp [M.bind_apply, M.lift_apply, hb]⟩
      · unfold MPT.getPoiAny.poiBad; split <;> simp [hb]
      · unfold MPT.getPoeAny.poeBad
        split
        · exact ⟨_, rfl⟩
        · cases t.containsAny E key with
          | error e => exact ⟨e, rfl⟩
          | ok b => cases b <;> simp [hb]
    | ok p' =>
      have hpp : p' = p := by
        unfold MPT.badPath at hb
        split at hb <;> cases hb
        rfl
      subst hpp
      refine ⟨?_, ?_, ?_, ?_, ?_, ?_⟩
      · unfold MPT.getAny.getBad
        split
        · exact ⟨_, rfl⟩
        · obtain ⟨e, he⟩ := MPT.getAuxBad_raises hp t.store.kv E.limit (t.root.getD [])
          exact ⟨e, by simp [hb, he]⟩
      · unfold MPT.containsAny.containsBad
        split
        · simp
        · have hn := MPT.containsAuxBad_node (p := p') (t.noRoot E) t.store.kv E.limit (t.root.getD [])
          simp only [hb, Except.bind_ok']
          cases hx : MPT.containsAuxBad (t.noRoot E) t.store.kv E.limit (t.root.getD []) p' with
          | error e => simp
          | ok x =>
            rcases x with _ | (⟨q, d⟩ | ⟨q, r⟩ | ⟨bs, d⟩)
            · simp
            · simpa using BadPath.eq_ne_true hp q
            · simp
            · exact absurd hx (hn bs d)
      · obtain ⟨e, he⟩ := MPT.updateAuxBad_raises E hp t.store E.limit (t.root.getD [])
        exact ⟨e, by simp [MPT.updateAny.updateBad, M.bind_apply, M.get_apply, M.lift_apply, hb, MPT.onStore, he]⟩
      · simp only [MPT.deleteAny.deleteBad, M.bind_apply, M.get_apply]
        split
        · exact ⟨_, rfl⟩
        · obtain ⟨e, he⟩ := MPT.deleteAuxBad_raises E hp t.store E.limit (t.root.getD [])
          exact ⟨e, by simp [M.bind_apply, M.lift_apply, hb, MPT.onStore, he]⟩
      · unfold MPT.getPoiAny.poiBad
        split
        · exact ⟨_, rfl⟩
        · obtain ⟨e, he⟩ := MPT.getPoiAuxBad_raises hp t.store.kv E.limit (t.root.getD []) []
          exact ⟨e, by simp [hb, he]⟩
      · unfold MPT.getPoeAny.poeBad
        split
        · exact ⟨_, rfl⟩
        · cases t.containsAny E key with
          | error e => exact ⟨e, rfl⟩
          | ok b =>
            cases b with
            | true => exact ⟨.poe, by simp⟩
            | false =>
              simp only [Except.bind_ok', hb, Bool.false_eq_true, if_false]
              cases MPT.getPoeAuxBad t.store.kv E.limit (t.root.getD []) p' [] with
              | error e => exact ⟨e, rfl⟩
              | ok l => exact ⟨.typeError, by simp [BadPath.encode_error]⟩
  rcases key with b | b | (_ | n) | _
  · exact hk.elim
  · exact hk.elim
  · exact absurd rfl hk
  · exact main (some (2 * (n + 1))) (by simp)
  · exact main none (by simp)

/-- C115, exactly which answers a trie with a key gives to a key that cannot be read: `update` and
`get_proof_of_exclusion` raise TypeError; for the others TypeError is one of two or three answers. -/
theorem C115_answers_partial {E : Env} {secure : Bool} {ops : List Op} {k : Bytes} {key : KeyArg}
    (value now : Bytes) (h : Valid E secure ops [k]) (hin : contents ops k ≠ none) (hk : key.Unreadable) :
    (((MPT.after E secure ops).getAny E key = .error .typeError ∨
      (MPT.after E secure ops).getAny E key = .error .attributeError)) ∧
    ((MPT.after E secure ops).containsAny E key = .error .typeError ∨
      (MPT.after E secure ops).containsAny E key = .ok false) ∧
    MPT.updateAny E key value (MPT.after E secure ops) = (.error .typeError, MPT.after E secure ops) ∧
    (∃ e, MPT.deleteAny E key (MPT.after E secure ops) = (.error e, MPT.after E secure ops) ∧
      (e = .typeError ∨ e = .leafPath ∨ e = .extensionPath)) ∧
    ((MPT.after E secure ops).getPoiAny E now key = .error .typeError ∨
      (MPT.after E secure ops).getPoiAny E now key = .error .attributeError) ∧
    (MPT.after E secure ops).getPoeAny E now key = .error .typeError := by
  have he := h.eff_key (k := k) (by simp)
  have hfit := fits_nibs (h.fit (k := k) (by simp))
  have hlog := h.log
  obtain ⟨a, h1, h2, h3, h4⟩ := h.inv
  have hne : a ≠ .empty := by
    rintro rfl
    have := h3 ((MPT.after E secure ops).keyOf E k)
    rw [he] at this
    exact hin this.symm
  have hnr := h1.noRoot hlog
  have hrf := h1.rootFalsy hne
  have hei : a.isEmpty = false := by cases a <;> simp_all [T.isEmpty]
  rw [hei] at hnr
  obtain ⟨n, hn, hcase, x, hx⟩ := MPT.root_node h1 hne
  have hg := h1.getD hne
  have hr0 := T.ref_ne_nil (E := E) hne
  have hre := T.ref_ne_emptyHash h1.good hlog h1.stored hne
  obtain ⟨f, hf⟩ : ∃ f, E.limit = f + 1 := ⟨E.limit - 1, by omega⟩
  generalize MPT.after E secure ops = t at *
  rw [← hg] at hr0 hre
  have main : ∀ p : BadPath, p ≠ some 0 → t.containsAny E key = MPT.containsAny.containsBad E t p →
      (MPT.getAny.getBad E t p = .error .typeError ∨ MPT.getAny.getBad E t p = .error .attributeError) ∧
      (MPT.containsAny.containsBad E t p = .error .typeError ∨ MPT.containsAny.containsBad E t p = .ok false) ∧
      MPT.updateAny.updateBad E p t = (.error .typeError, t) ∧
      (∃ e, MPT.deleteAny.deleteBad E p t = (.error e, t) ∧ (e = .typeError ∨ e = .leafPath ∨ e = .extensionPath)) ∧
      (MPT.getPoiAny.poiBad E now t key p = .error .typeError ∨
        MPT.getPoiAny.poiBad E now t key p = .error .attributeError) ∧
      MPT.getPoeAny.poeBad E now t key p = .error .typeError := by
    intro p hp hcp
    by_cases hs : t.secure = true
    · have hb : t.badPath p = .error .typeError := by simp [MPT.badPath, hs]
      have hc : MPT.containsAny.containsBad E t p = .error .typeError := by
        simp [MPT.containsAny.containsBad, hrf, hb]
      refine ⟨.inl ?_, .inl hc, ?_, ⟨.typeError, ?_, .inl rfl⟩, .inl ?_, ?_⟩
      · simp [MPT.getAny.getBad, hrf, hb]
      · simp [MPT.updateAny.updateBad, M.bind_apply, M.get_apply, M.lift_apply, hb]
      · simp [MPT.deleteAny.deleteBad, M.bind_apply, M.get_apply, M.lift_apply, hnr, hb]
      · simp [MPT.getPoiAny.poiBad, hnr, hb]
      · simp [MPT.getPoeAny.poeBad, hnr, hcp, hc]
    · have hb : t.badPath p = .ok p := by simp [MPT.badPath, hs]
      have hlen : p.len = .error .typeError ∨ ∃ m, p.len = .ok m := by
        cases p with
        | none => exact .inl rfl
        | some m => exact .inr ⟨m, rfl⟩
      have hpoe : MPT.containsAny.containsBad E t p = .error .typeError ∨
            MPT.containsAny.containsBad E t p = .ok false ∧
            ((∃ l, MPT.getPoeAuxBad t.store.kv E.limit (t.root.getD []) p [] = .ok l) ∨
            MPT.getPoeAuxBad t.store.kv E.limit (t.root.getD []) p [] = .error .typeError) →
          MPT.getPoeAny.poeBad E now t key p = .error .typeError := by
        rintro (hc | ⟨hc, ⟨l, hl⟩ | hl⟩)
        · simp [MPT.getPoeAny.poeBad, hnr, hcp, hc]
        · simp [MPT.getPoeAny.poeBad, hnr, hcp, hc, hb, hl, BadPath.encode_error]
        · simp [MPT.getPoeAny.poeBad, hnr, hcp, hc, hb, hl]
      have hu : ¬ (t.root.getD [] = [] ∨ t.root.getD [] = emptyHash E) := fun hh => hh.elim hr0 hre
      have hgm : MPT.getNodeM (t.root.getD []) t.store = (.ok n, t.store) := by
        simp [MPT.getNodeM, M.bind_apply, M.get_apply, M.lift_apply, hn]
      rcases hcase with ⟨q, d, rfl, hq⟩ | ⟨q, r, rfl, hq, hq0⟩ | ⟨bs, d, rfl⟩
      · rcases BadPath.eq_cases hp hq with heq | heq <;> rcases hlen with hlen | ⟨m, hlen⟩ <;>
          rcases BadPath.commonPrefix_cases p hq with hcom | ⟨y, hcom⟩ <;>
          refine ⟨?_, ?_, ?_, ?_, ?_, hpoe ?_⟩ <;>
          simp [MPT.getAny.getBad, MPT.containsAny.containsBad, MPT.updateAny.updateBad, MPT.deleteAny.deleteBad,
            MPT.getPoiAny.poiBad, MPT.getAuxBad, MPT.containsAuxBad, MPT.updateAuxBad, MPT.deleteAuxBad,
            MPT.getPoiAuxBad, MPT.getPoeAuxBad, MPT.message, MPT.onStore, MPT.createBranchLeafBad_eq,
            M.bind_apply, M.get_apply, M.lift_apply, M.raise_apply, hrf, hnr, hb, hf, hn, hgm, hu, heq, hlen, hcom, hx]
      · rcases BadPath.startsWith_cases (p := p) hq hq0 with heq | heq <;> rcases hlen with hlen | ⟨m, hlen⟩ <;>
          rcases BadPath.commonPrefix_cases p hq with hcom | ⟨y, hcom⟩ <;>
          refine ⟨?_, ?_, ?_, ?_, ?_, hpoe ?_⟩ <;>
          simp [MPT.getAny.getBad, MPT.containsAny.containsBad, MPT.updateAny.updateBad, MPT.deleteAny.deleteBad,
            MPT.getPoiAny.poiBad, MPT.getAuxBad, MPT.containsAuxBad, MPT.updateAuxBad, MPT.deleteAuxBad,
            MPT.getPoiAuxBad, MPT.getPoeAuxBad, MPT.message, MPT.onStore, MPT.createBranchLeafBad_eq,
            M.bind_apply, M.get_apply, M.lift_apply, M.raise_apply, hrf, hnr, hb, hf, hn, hgm, hu, heq, hlen, hcom, hx]
      · rcases hlen with hlen | ⟨m, hlen⟩ <;> refine ⟨?_, ?_, ?_, ?_, ?_, hpoe ?_⟩ <;>
          simp [MPT.getAny.getBad, MPT.containsAny.containsBad, MPT.updateAny.updateBad, MPT.deleteAny.deleteBad,
            MPT.getPoiAny.poiBad, MPT.getAuxBad, MPT.containsAuxBad, MPT.updateAuxBad, MPT.deleteAuxBad,
            MPT.getPoiAuxBad, MPT.getPoeAuxBad, MPT.onStore, BadPath.nibbleAt,
            M.bind_apply, M.get_apply, M.lift_apply, hrf, hnr, hb, hf, hn, hgm, hu, hlen]
  rcases key with b | b | (_ | m) | _
  · exact hk.elim
  · exact hk.elim
  · exact absurd rfl hk
  · exact main (some (2 * (m + 1))) (by simp) rfl
  · exact main none (by simp) rfl

/-- C115, `bytearray` keys in plain mode: such a key is found like the `bytes`, but no proof is made for it. -/
theorem C115_bytearray {E : Env} {ops : List Op} {k v : Bytes} (now : Bytes) (h : Valid E false ops [k])
    (hk : contents ops k = some v) :
    (MPT.after E false ops).getAny E (.bytearray k) = .ok v ∧
    (MPT.after E false ops).getPoiAny E now (.bytes k) = (MPT.after E false ops).getPoi E now k ∧
    (∃ p, (MPT.after E false ops).getPoi E now k = .ok p) ∧
    (MPT.after E false ops).getPoiAny E now (.bytearray k) = .error .typeError := by
  obtain ⟨p, r, hp, _, _⟩ := C18_exact now h (by rw [hk]; simp)
  have hs : (MPT.after E false ops).secure = false := after_secure ..
  refine ⟨C02_get h hk, ?_, ⟨p, hp⟩, ?_⟩
  · simp [MPT.getPoiAny, MPT.proofKey, hp]
  · simp [MPT.getPoiAny, MPT.proofKey, hp, hs]

/-- C115 for `EMPT`: whatever the object holds, a key that is not `bytes` is refused with TypeError by every method,
`bytearray` and the empty `str` included, and neither the trie nor the data is changed. -/
theorem C115_empt {E : Env} {s : EMPT} {key : KeyArg} {v : Value} (now : Bytes) (hk : ∀ b, key ≠ .bytes b)
    (hv : v.storable = true) :
    s.getAny E key = .error .typeError ∧ s.containsAny E key = .error .typeError ∧
    EMPT.updateAny E key v s = (.error .typeError, s) ∧ EMPT.deleteAny E key s = (.error .typeError, s) ∧
    s.getReferenceAny E key = .error .typeError ∧ s.getPoiAny E now key = .error .typeError ∧
    s.getPoeAny E now key = .error .typeError := by
  have hc := checked_of_ne hk
  refine ⟨by simp [EMPT.getAny, hc], by simp [EMPT.containsAny, hc], ?_,
    by simp [EMPT.deleteAny, M.bind_apply, M.lift_apply, hc], by simp [EMPT.getReferenceAny, hc],
    by simp [EMPT.getPoiAny, hc], by simp [EMPT.getPoeAny, hc]⟩
  unfold EMPT.updateAny
  split
  · simp [Value.storable] at hv
  · simp [Value.storable] at hv
  · simp [M.bind_apply, M.lift_apply, hc]

/-- C115 for `SparseEMPT`: the same. -/
theorem C115_sparse {E : Env} {t : MPT} {key : KeyArg} {v : Value} (now : Bytes) (hk : ∀ b, key ≠ .bytes b)
    (hv : v.storable = true) :
    Sparse.containsAny E t key = .error .typeError ∧ Sparse.updateAny E key v t = (.error .typeError, t) ∧
    Sparse.deleteAny E key t = (.error .typeError, t) ∧ Sparse.getReferenceAny E t key = .error .typeError ∧
    Sparse.getPoiAny E t now key = .error .typeError ∧ Sparse.getPoeAny E t now key = .error .typeError := by
  have hc := checked_of_ne hk
  refine ⟨by simp [Sparse.containsAny, hc], ?_, by simp [Sparse.deleteAny, M.bind_apply, M.lift_apply, hc],
    by simp [Sparse.getReferenceAny, hc], by simp [Sparse.getPoiAny, hc], by simp [Sparse.getPoeAny, hc]⟩
  unfold Sparse.updateAny
  split
  · simp [Value.storable] at hv
  · rfl
  · simp [M.bind_apply, M.lift_apply, hc]

example : Valid toyEnv false sampleOps [[0x99]] ∧ contents sampleOps [0x99] = some [5, 5] ∧
    (KeyArg.text 3).Unreadable ∧
    MPT.updateAny toyEnv (.text 3) [1] (MPT.after toyEnv false sampleOps) =
      (.error .typeError, MPT.after toyEnv false sampleOps) ∧
    (MPT.after toyEnv false sampleOps).containsAny toyEnv (.text 3) = .error .typeError :=
  ⟨valid_of (by decide +kernel), by decide +kernel, by simp [KeyArg.Unreadable], by decide +kernel,
    by decide +kernel⟩

/-- A single leaf: the other answers of `get`, `contains`, `delete` and `get_proof_of_inclusion`. -/
example :
    (MPT.after toyEnv false [.update [0x12] [1]]).getAny toyEnv (.text 2) = .error .attributeError ∧
    (MPT.after toyEnv false [.update [0x12] [1]]).getAny toyEnv (.text 1) = .error .typeError ∧
    (MPT.after toyEnv false [.update [0x12] [1]]).containsAny toyEnv (.text 2) = .ok false ∧
    (MPT.deleteAny toyEnv (.text 2) (MPT.after toyEnv false [.update [0x12] [1]])).1 = .error .leafPath ∧
    (MPT.after toyEnv false [.update [0x12] [1]]).getPoiAny toyEnv [] (.text 2) = .error .attributeError ∧
    (MPT.after toyEnv false [.update [0x12] [1]]).getPoeAny toyEnv [] (.text 2) = .error .typeError :=
  ⟨by decide +kernel, by decide +kernel, by decide +kernel, by decide +kernel, rfl,
    (C115_answers_partial [] [] (k := [0x12]) (valid_of (by decide +kernel)) (by decide +kernel)
      (by simp [KeyArg.Unreadable])).2.2.2.2.2⟩

/-- An extension that is longer than the key. -/
example :
    (MPT.deleteAny toyEnv (.text 1)
      (MPT.after toyEnv false [.update [0x12, 0x34] [1], .update [0x12, 0x35] [2]])).1 = .error .extensionPath ∧
    (MPT.after toyEnv false [.update [0x12, 0x34] [1], .update [0x12, 0x35] [2]]).containsAny toyEnv (.text 1) =
      .ok false := by
  decide +kernel

example : RefusesKey toyEnv (MPT.after toyEnv true secureOps) (.text 0) [1] [] ∧
    (MPT.after toyEnv true secureOps).noRoot toyEnv = false ∧ (MPT.after toyEnv true secureOps).rootFalsy = false :=
  have h0 : (MPT.after toyEnv true secureOps).noRoot toyEnv = false := by decide +kernel
  have h1 : (MPT.after toyEnv true secureOps).rootFalsy = false := by decide +kernel
  ⟨C115_secure_partial _ _ (by decide +kernel) h0 h1 trivial, h0, h1⟩

example : (EMPT.after toyEnv false sampleEOps).data ≠ [] ∧
    EMPT.updateAny toyEnv (.bytearray [0x12]) (.bytes [1]) (EMPT.after toyEnv false sampleEOps) =
      (.error .typeError, EMPT.after toyEnv false sampleEOps) :=
  ⟨by decide +kernel, (C115_empt [] (by simp) rfl).2.2.1⟩

example : (MPT.after toyEnv false sampleOps).root ≠ none ∧
    Sparse.deleteAny toyEnv (.text 0) (MPT.after toyEnv false sampleOps) =
      (.error .typeError, MPT.after toyEnv false sampleOps) :=
  ⟨by decide +kernel, (C115_sparse (v := .bytes []) [] (by simp) rfl).2.2.1⟩

end Props
end Pymt
