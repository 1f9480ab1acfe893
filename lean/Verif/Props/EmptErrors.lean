import Verif.Props.EmptObjects
import Verif.Props.Lookups

/-!
# Which exceptions `EMPT` raises (C27, C29, C30, C35)

The theorems of `Props/Empt.lean` say that a call raises; these say what.
-/

namespace Pymt.Props

/-- C27: what `update` raises for a value that cannot be kept: TypeError for a bytearray,
NotImplementedError for an object without `encode_rlp` and `decode_rlp`.  Nothing changes. -/
theorem C27_refused (E : Env) (k : Bytes) (s : EMPT) :
    (∀ b, EMPT.update E k (.bytearray b) s = (.error .typeError, s)) ∧
    (∀ i enc dec b, (enc && dec) = false → EMPT.update E k (.obj i enc dec b) s = (.error .notImplemented, s)) := by
  refine ⟨fun b => rfl, fun i enc dec b h => ?_⟩
  cases enc
  · rfl
  · cases dec
    · rfl
    · simp at h

example : EMPT.update toyEnv [0x12] (.obj 3 true false [1]) (EMPT.after toyEnv false sampleEOps) =
    (.error .notImplemented, EMPT.after toyEnv false sampleEOps) := by decide +kernel

/-- C29: what `delete` raises for an absent key: KeyNotFoundError when `contains` says False, KeyError when it
wrongly says True.  Nothing changes. -/
theorem C29_exception {E : Env} {secure : Bool} {ops : List EOp} {k : Bytes} (h : EValid E secure ops [k])
    (hk : econtents ops k = none) :
    ∃ b, (EMPT.after E secure ops).contains E k = .ok b ∧
      EMPT.delete E k (EMPT.after E secure ops) =
        (.error (if b then .keyError else .keyNotFound), EMPT.after E secure ops) ∧
      (b = true → secure = false ∧ ∃ k', k' <+: k ∧ k' ≠ k ∧ econtents ops k' ≠ none) := by
  have hm := h.mirror
  have hv := h.valid hm
  have hb : ∃ b, (EMPT.after E secure ops).contains E k = .ok b := by
    rw [EMPT.contains, hm.trie]
    rcases hv.inv.contains_total hv.log (hv.fit (k := k) (by simp)) with h2 | h2
    · exact ⟨true, h2⟩
    · exact ⟨false, h2⟩
  obtain ⟨b, hb⟩ := hb
  refine ⟨b, hb, ?_, fun ht => ?_⟩
  · rw [EMPT.delete_eq, hm.data, hk]
    rw [EMPT.contains] at hb
    rw [hb]
    cases b <;> rfl
  · subst ht
    refine Classical.byContradiction fun hcon => ?_
    have := (C27_mapping_partial h).2.2.1 (by
      cases secure with
      | true => exact .inl rfl
      | false =>
        refine .inr (.inr fun k' h1 h2 => Classical.byContradiction fun h3 => ?_)
        exact hcon ⟨rfl, k', h1, h2, h3⟩)
    rw [hb, hk] at this
    simp at this

example : EValid toyEnv false sampleEOps [[0x13]] ∧ econtents sampleEOps [0x13] = none ∧
    (EMPT.delete toyEnv [0x13] (EMPT.after toyEnv false sampleEOps)).1 = .error .keyNotFound :=
  ⟨evalid_of (by decide +kernel), by decide +kernel, by decide +kernel⟩

/-- C30 exactly: what `get_reference` does with an absent key, by the point `b` where the key leaves the present
ones (`refOps E ops` is the history of the inner trie, with the same keys): it returns the reference of a
longer key exactly when only one present key goes through that point and the key ends there. -/
theorem C30_exact {E : Env} {secure : Bool} {ops : List EOp} {k : Bytes} {b : List Nib}
    (h : EValid E secure ops [k]) (hk : econtents ops k = none)
    (hb : Stop (pathContents E secure (refOps E ops)) (toNibs (effective E secure k)) b) :
    (∀ k', Lone (pathContents E secure (refOps E ops)) b k' →
      (toNibs (effective E secure k) = b → ∃ r, EMPT.getReference E (EMPT.after E secure ops).trie k = .ok r ∧
        effective E secure r.key = k' ∧ ∃ v, econtents ops r.key = some v ∧ r.data = v.payload) ∧
      (toNibs (effective E secure k) ≠ b →
        EMPT.getReference E (EMPT.after E secure ops).trie k = .error .keyNotFound)) ∧
    (Fork (pathContents E secure (refOps E ops)) b → EMPT.getReference E (EMPT.after E secure ops).trie k =
        .error (if toNibs (effective E secure k) = b then .rlpDecoding else .branchPath)) ∧
    ((∀ k', ¬ Lone (pathContents E secure (refOps E ops)) b k') →
      ¬ Fork (pathContents E secure (refOps E ops)) b →
      EMPT.getReference E (EMPT.after E secure ops).trie k =
        .error (if toNibs (effective E secure k) = b then .attributeError else .extensionPath)) := by
  have hm := h.mirror
  have hv := h.valid hm
  have hc := contents_refOps E ops k
  rw [hk] at hc
  obtain ⟨g1, g2, g3⟩ := C62_get_partial hv hc hb
  unfold EMPT.getReference
  rw [hm.trie]
  refine ⟨fun k' hl => ?_, fun hf => ?_, fun h1 h2 => ?_⟩
  · cases hv' : pathContents E secure (refOps E ops) k' with
    | none => exact absurd hv' hl.1
    | some v' =>
      have g := g1 k' v' hl hv'
      refine ⟨fun e => ?_, fun e => ?_⟩
      · rw [if_pos e] at g
        rw [g]
        obtain ⟨k0, h0, he⟩ := eff_some_mem hv'
        have hc0 : contents (refOps E ops) k0 = some v' := by
          rw [← eff_eq hv.keys (List.mem_append_right _ h0), ← he]
          exact hv'
        rw [contents_refOps] at hc0
        cases hk2 : econtents ops k0 with
        | none => rw [hk2] at hc0; simp at hc0
        | some v =>
          rw [hk2, Option.map_some, Option.some.injEq] at hc0
          refine ⟨⟨k0, v.payload⟩, ?_, he.symm, v, hk2, rfl⟩
          simp only [Except.bind_ok']
          rw [← hc0]
          exact decode_refOf h hk2
      · rw [if_neg e] at g
        rw [g]; rfl
  · rw [g2 hf]
    split <;> rfl
  · rw [g3 h1 h2]; rfl

/-- With `12 34` and `13 45` present: `12` ends where `12 34` is alone, `14` leaves at a fork. -/
example : let ops : List EOp := [.update [0x12, 0x34] (.bytes [1]), .update [0x13, 0x45] (.bytes [2])]
    EValid toyEnv false ops [[0x12]] ∧ econtents ops [0x12] = none ∧
    EMPT.getReference toyEnv (EMPT.after toyEnv false ops).trie [0x12] = .ok ⟨[0x12, 0x34], [1]⟩ ∧
    EMPT.getReference toyEnv (EMPT.after toyEnv false ops).trie [0x14] = .error .branchPath ∧
    EMPT.getReference toyEnv (EMPT.after toyEnv false ops).trie [0x24] = .error .extensionPath ∧
    EMPT.getReference toyEnv (EMPT.after toyEnv false ops).trie [0x12, 0x35] = .error .keyNotFound :=
  ⟨evalid_of (by decide +kernel), by decide +kernel, by decide +kernel, by decide +kernel, by decide +kernel,
    by decide +kernel⟩

/-- C35: what `setdefault` raises for a value that cannot be kept. -/
theorem C35_refused {E : Env} {secure : Bool} {ops : List EOp} {k : Bytes} (h : EValid E secure ops [k])
    (hk : econtents ops k = none) :
    (∀ b, EMPT.setdefault E k (.bytearray b) (EMPT.after E secure ops) =
      (.error .typeError, EMPT.after E secure ops)) ∧
    (∀ i enc dec b, (enc && dec) = false → EMPT.setdefault E k (.obj i enc dec b) (EMPT.after E secure ops) =
      (.error .notImplemented, EMPT.after E secure ops)) := by
  unfold EMPT.setdefault
  refine ⟨fun b => ?_, fun i enc dec b hb => ?_⟩
  · simp only [M.bind_apply, M.get_apply, h.get_none hk, (C27_refused E k _).1]
  · simp only [M.bind_apply, M.get_apply, h.get_none hk, (C27_refused E k _).2 i enc dec b hb]

example : EValid toyEnv false sampleEOps [[0x13]] ∧ econtents sampleEOps [0x13] = none :=
  ⟨evalid_of (by decide +kernel), by decide +kernel⟩

/-- C35: after `clear`, `get` raises KeyError for every key. -/
theorem C35_cleared {E : Env} {secure : Bool} {ops : List EOp}
    (h : EValid E secure (ops ++ deletes (EMPT.after E secure ops).iter) []) (k : Bytes) :
    (EMPT.clear E (EMPT.after E secure ops)).2.get E k = .error .keyError := by
  obtain ⟨s', h1, h2, _⟩ := C35_clear h
  rw [h1]
  unfold EMPT.get dgetItem
  rw [show s'.data = [] from List.map_eq_nil_iff.1 h2]
  rfl

example : EValid toyEnv false (sampleEOps ++ deletes (EMPT.after toyEnv false sampleEOps).iter) [] :=
  evalid_of (by decide +kernel)

end Pymt.Props
