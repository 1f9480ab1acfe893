import Verif.Props.EmptErrors
import Verif.Props.Storage

/-!
# `EMPT` opened at an old root (C81)

The trie keeps its history (C10), the data storage does not: there is one value per key.
-/

namespace Pymt.Props

/-- The claim: an `EMPT` opened at the root of an earlier moment, over the same two storages, reads the values of
that moment. -/
def C81 : Prop :=
  ∀ (E : Env) (secure : Bool) (ops more : List EOp) (k : Bytes) (v : Value) (s : EMPT),
    EValid E secure (ops ++ more) [k] → econtents ops k = some v →
    EMPT.init E (EMPT.after E secure (ops ++ more)).trie.store (EMPT.after E secure (ops ++ more)).data
      (EMPT.after E secure ops).trie.root secure = .ok s →
    s.get E k = .ok v

theorem C81_false : ¬ C81 := by
  intro h
  have := h toyEnv false [.update [0x12] (.bytes [1])] [.update [0x12] (.bytes [2])] [0x12] (.bytes [1])
    { trie := MPT.init toyEnv (EMPT.after toyEnv false [.update [0x12] (.bytes [1]), .update [0x12] (.bytes [2])]).trie.store
        (EMPT.after toyEnv false [.update [0x12] (.bytes [1])]).trie.root false,
      data := (EMPT.after toyEnv false [.update [0x12] (.bytes [1]), .update [0x12] (.bytes [2])]).data }
    (evalid_of (by decide +kernel)) (by decide +kernel) (by decide +kernel)
  revert this
  decide +kernel

/-- The trie inside still gives the reference of that moment, ... -/
theorem C81_reference {E : Env} {secure : Bool} {ops more : List EOp} {k : Bytes} {v : Value} {s : EMPT}
    (h : EValid E secure (ops ++ more) [k]) (hk : econtents ops k = some v)
    (hs : EMPT.init E (EMPT.after E secure (ops ++ more)).trie.store (EMPT.after E secure (ops ++ more)).data
      (EMPT.after E secure ops).trie.root secure = .ok s) :
    EMPT.getReference E s.trie k = .ok ⟨k, v.payload⟩ := by
  have hm := h.mirror
  have hc := h.cut
  have hm0 := hc.mirror
  have hv := h.valid hm
  unfold EMPT.init at hs
  split at hs
  · simp at hs
  · simp only [Except.ok.injEq] at hs
    subst hs
    have hvo : Valid E secure (refOps E ops ++ refOps E more) [k] := by rw [← refOps_append]; exact hv
    have hcon : contents (refOps E ops) k = some ((⟨k, v.payload⟩ : DataRef).encode E) := by
      rw [contents_refOps, hk]; rfl
    have hget : (MPT.init E (EMPT.after E secure (ops ++ more)).trie.store (EMPT.after E secure ops).trie.root
        secure).get E k = .ok ((⟨k, v.payload⟩ : DataRef).encode E) := by
      rw [hm.trie, hm0.trie, refOps_append,
        (C10_old_roots hvo).2.2.2 k (by rw [hcon]; simp)]
      exact C02_get (hc.valid hm0 |>.subset (by simp)) hcon
    unfold EMPT.getReference
    simp only
    rw [hget]
    exact decode_refOf hc hk

/-- ... but the values come from the present, whatever the root: ... -/
theorem C81_current {E : Env} {secure : Bool} {ops more : List EOp} {ks : List Bytes} {k : Bytes} {w : Value}
    {s : EMPT} {root : Option Bytes} (h : EValid E secure (ops ++ more) ks)
    (hs : EMPT.init E (EMPT.after E secure (ops ++ more)).trie.store (EMPT.after E secure (ops ++ more)).data
      root secure = .ok s) (hw : s.get E k = .ok w) : econtents (ops ++ more) k = some w := by
  unfold EMPT.init at hs
  split at hs
  · simp at hs
  · simp only [Except.ok.injEq] at hs
    subst hs
    rw [← h.mirror.data]
    unfold EMPT.get dgetItem at hw
    simp only at hw
    cases hd : dget (EMPT.after E secure (ops ++ more)).data k with
    | none => rw [hd] at hw; simp [Except.bind_error'] at hw
    | some d =>
      rw [hd] at hw
      simp only [Except.bind_ok'] at hw
      generalize MPT.get E _ k = g at hw
      cases g with
      | error e => simp [Except.bind_error'] at hw
      | ok enc =>
        simp only [Except.bind_ok'] at hw
        cases hr : DataRef.decode E enc with
        | error e => rw [hr] at hw; simp [Except.bind_error'] at hw
        | ok ref =>
          rw [hr] at hw
          simp only [Except.bind_ok'] at hw
          cases ho : DataRef.ofValue k d with
          | error e => rw [ho] at hw; simp [Except.bind_error'] at hw
          | ok ex =>
            rw [ho] at hw
            simp only [Except.bind_ok'] at hw
            split at hw
            · simp at hw
            · simp only [Except.pure_ok', Except.ok.injEq] at hw
              rw [hw]

/-- ... so a key of that moment raises KeyError when it was deleted since, gives its value when that has the payload
it had then (or its hash collides), and raises InvalidReferenceError when it was changed.  The claim holds for the
keys whose value is the same at both moments (`C81_same_partial`); the others are missing. -/
theorem C81_exact_partial {E : Env} {secure : Bool} {ops more : List EOp} {k : Bytes} {v : Value} {s : EMPT}
    (h : EValid E secure (ops ++ more) [k]) (hk : econtents ops k = some v)
    (hs : EMPT.init E (EMPT.after E secure (ops ++ more)).trie.store (EMPT.after E secure (ops ++ more)).data
      (EMPT.after E secure ops).trie.root secure = .ok s) :
    (econtents (ops ++ more) k = none → s.get E k = .error .keyError) ∧
    (∀ v', econtents (ops ++ more) k = some v' → s.get E k =
      if E.keccak (k ++ v.payload) = E.keccak (k ++ v'.payload) then .ok v' else .error .invalidReference) := by
  have hm := h.mirror
  have hc := h.cut
  have hm0 := hc.mirror
  have hv := h.valid hm
  unfold EMPT.init at hs
  split at hs
  · simp at hs
  · simp only [Except.ok.injEq] at hs
    subst hs
    refine ⟨fun hn => ?_, fun v' hv' => ?_⟩
    · unfold EMPT.get dgetItem
      simp only
      rw [hm.data, hn]
      rfl
    · have hvo : Valid E secure (refOps E ops ++ refOps E more) [k] := by rw [← refOps_append]; exact hv
      have hcon : contents (refOps E ops) k = some ((⟨k, v.payload⟩ : DataRef).encode E) := by
        rw [contents_refOps, hk]; rfl
      have hget : (MPT.init E (EMPT.after E secure (ops ++ more)).trie.store (EMPT.after E secure ops).trie.root
          secure).get E k = .ok ((⟨k, v.payload⟩ : DataRef).encode E) := by
        rw [hm.trie, hm0.trie, refOps_append,
          (C10_old_roots hvo).2.2.2 k (by rw [hcon]; simp)]
        exact C02_get (hc.valid hm0 |>.subset (by simp)) hcon
      unfold EMPT.get dgetItem
      simp only
      rw [hm.data, hv', hget]
      simp only [Except.bind_ok']
      have hdec : DataRef.decode E ((⟨k, v.payload⟩ : DataRef).encode E) = .ok ⟨k, v.payload⟩ := decode_refOf hc hk
      rw [hdec, ofValue_storable (hm.storable k v' hv')]
      simp only [Except.bind_ok']
      by_cases he : E.keccak (k ++ v.payload) = E.keccak (k ++ v'.payload)
      · rw [if_pos he, (DataRef.eq_iff E _ _).2 he]
        rfl
      · rw [if_neg he]
        have : (⟨k, v.payload⟩ : DataRef).eq E ⟨k, v'.payload⟩ = false := by
          rw [Bool.eq_false_iff]
          exact fun hb => he ((DataRef.eq_iff E _ _).1 hb)
        rw [this]
        rfl

/-- The values unchanged since are read as they were. -/
theorem C81_same_partial {E : Env} {secure : Bool} {ops more : List EOp} {k : Bytes} {v : Value} {s : EMPT}
    (h : EValid E secure (ops ++ more) [k]) (hk : econtents ops k = some v)
    (hn : econtents (ops ++ more) k = some v)
    (hs : EMPT.init E (EMPT.after E secure (ops ++ more)).trie.store (EMPT.after E secure (ops ++ more)).data
      (EMPT.after E secure ops).trie.root secure = .ok s) : s.get E k = .ok v := by
  rw [(C81_exact_partial h hk hs).2 v hn, if_pos rfl]

/-- No value of another moment passes for a value of that one: an answer has the payload the key had then, unless
two different byte strings have the same hash. -/
theorem C81_never_wrong {E : Env} {secure : Bool} {ops more : List EOp} {k : Bytes} {v w : Value} {s : EMPT}
    (h : EValid E secure (ops ++ more) [k]) (hk : econtents ops k = some v)
    (hs : EMPT.init E (EMPT.after E secure (ops ++ more)).trie.store (EMPT.after E secure (ops ++ more)).data
      (EMPT.after E secure ops).trie.root secure = .ok s) (hw : s.get E k = .ok w) :
    w.payload = v.payload ∨
      (k ++ v.payload ≠ k ++ w.payload ∧ E.keccak (k ++ v.payload) = E.keccak (k ++ w.payload)) := by
  have hc := C81_current h hs hw
  rw [(C81_exact_partial h hk hs).2 w hc] at hw
  by_cases he : E.keccak (k ++ v.payload) = E.keccak (k ++ w.payload)
  · by_cases hp : w.payload = v.payload
    · exact .inl hp
    · exact .inr ⟨fun hh => hp (List.append_cancel_left hh).symm, he⟩
  · rw [if_neg he] at hw
    simp at hw

/-- Opening the old root never fails. -/
theorem C81_opens {E : Env} {secure : Bool} {ops more : List EOp} {k : Bytes} {v : Value}
    (h : EValid E secure (ops ++ more) [k]) (hk : econtents ops k = some v) :
    ∃ s, EMPT.init E (EMPT.after E secure (ops ++ more)).trie.store (EMPT.after E secure (ops ++ more)).data
      (EMPT.after E secure ops).trie.root secure = .ok s := by
  have hc := h.cut
  have hm := hc.mirror
  have hcon : contents (refOps E ops) k = some ((⟨k, v.payload⟩ : DataRef).encode E) := by
    rw [contents_refOps, hk]; rfl
  have hg := C02_get (hc.valid hm |>.subset (by simp)) hcon
  have hr : (EMPT.after E secure ops).trie.root ≠ none := by
    intro hn
    rw [hm.trie] at hn
    have hf : (MPT.after E secure (refOps E ops)).rootFalsy = true := by
      unfold MPT.rootFalsy
      rw [hn]; rfl
    unfold MPT.get at hg
    rw [if_pos hf] at hg
    simp at hg
  unfold EMPT.init
  rw [if_neg fun hh => hr hh.2]
  exact ⟨_, rfl⟩

/-- Four keys are stored; then one is changed, one deleted, one written again as it was and one left alone.  At the
first root the first raises InvalidReferenceError, the second KeyError, and the others have their values. -/
def historyOps : List EOp :=
  [.update [0x12] (.bytes [1]), .update [0x13, 0x45] (.bytes [2]), .update [0x56] (.obj 1 true true [3]),
    .update [0x57] (.bytes [4])]

/-- What happens afterwards. -/
def laterOps : List EOp := [.update [0x12] (.bytes [9]), .delete [0x13, 0x45], .update [0x56] (.obj 2 true true [3])]

/-- The object at the first root. -/
def atOldRoot : EMPT :=
  { trie := MPT.init toyEnv (EMPT.after toyEnv false (historyOps ++ laterOps)).trie.store
      (EMPT.after toyEnv false historyOps).trie.root false,
    data := (EMPT.after toyEnv false (historyOps ++ laterOps)).data }

example : EValid toyEnv false (historyOps ++ laterOps) [[0x12], [0x13, 0x45], [0x56], [0x57]] ∧
    EMPT.init toyEnv (EMPT.after toyEnv false (historyOps ++ laterOps)).trie.store
      (EMPT.after toyEnv false (historyOps ++ laterOps)).data (EMPT.after toyEnv false historyOps).trie.root false =
      .ok atOldRoot ∧
    econtents historyOps [0x12] = some (.bytes [1]) ∧ econtents (historyOps ++ laterOps) [0x12] = some (.bytes [9]) ∧
    atOldRoot.get toyEnv [0x12] = .error .invalidReference ∧
    econtents historyOps [0x13, 0x45] = some (.bytes [2]) ∧
    econtents (historyOps ++ laterOps) [0x13, 0x45] = none ∧
    atOldRoot.get toyEnv [0x13, 0x45] = .error .keyError ∧
    atOldRoot.get toyEnv [0x56] = .ok (.obj 2 true true [3]) ∧
    EMPT.getReference toyEnv atOldRoot.trie [0x12] = .ok ⟨[0x12], [1]⟩ ∧
    econtents historyOps [0x57] = some (.bytes [4]) ∧ econtents (historyOps ++ laterOps) [0x57] = some (.bytes [4]) ∧
    atOldRoot.get toyEnv [0x57] = .ok (.bytes [4]) :=
  ⟨evalid_of (by decide +kernel), by decide +kernel, by decide +kernel, by decide +kernel, by decide +kernel,
    by decide +kernel, by decide +kernel, by decide +kernel, by decide +kernel, by decide +kernel, by decide +kernel,
    by decide +kernel, by decide +kernel⟩

end Pymt.Props
