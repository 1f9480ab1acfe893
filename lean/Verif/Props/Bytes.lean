import Verif.Lemmas.Bytes
import Verif.Props.Cost
import Verif.Props.Empt
import Verif.Props.Storage
import Verif.Lemmas.EmptWatching
import Verif.Model.EmptProofs
import Verif.Spec.ToyEmpt

/-!
# Properties C126, C127: how long proofs are, and what the trie of an EMPT contains
-/

namespace Pymt
namespace Props

/-- The number of bytes of the entries of a proof. -/
def bytesOf (p : Proof Bytes) : Nat := (p.proof.map List.length).sum

/-- The keys in the trie have at most `n` bytes, its values at most `B`. -/
theorem within {E : Env} {secure : Bool} {ops : List Op} {ks : List Bytes} {n B : Nat} {a : T}
    (h : Valid E secure ops ks) (h2 : a.Canon)
    (h3 : ∀ k, T.lookup a (toNibs k) = eff E secure ops k)
    (h4 : ∀ p v, T.lookup a p = some v → ∃ k, p = toNibs k)
    (hb : ∀ j v, contents ops j = some v → (effective E secure j).length ≤ n ∧ v.length ≤ B) :
    T.Within (2 * n) B a := by
  refine ⟨h2.full, fun q v hq => ?_⟩
  obtain ⟨x, rfl⟩ := h4 q v hq
  rw [h3] at hq
  obtain ⟨j, hj, rfl⟩ := eff_some_mem hq
  rw [eff_eq h.keys (List.mem_append_right _ hj)] at hq
  have := hb j v hq
  rw [toNibs_length]
  omega

/-- What is there was written. -/
theorem written_mem {f : Bytes → Bytes} {ops : List Op} {m : Contents} {k v : Bytes}
    (h : contentsFrom m (ops.map (Op.mapKey f)) k = some v) (hm : ∀ k, m k = none := by simp) :
    ∃ j, .update j v ∈ ops ∧ k = f j := by
  suffices key : ∀ (ops : List Op) (m : Contents), contentsFrom m (ops.map (Op.mapKey f)) k = some v →
      (∃ j, .update j v ∈ ops ∧ k = f j) ∨ m k = some v by
    rcases key ops m h with h | h
    · exact h
    · rw [hm] at h; simp at h
  intro ops
  induction ops with
  | nil => exact fun m h => .inr h
  | cons op ops ih =>
    intro m h
    rcases ih _ h with ⟨j, h1, h2⟩ | h
    · exact .inl ⟨j, List.mem_cons_of_mem _ h1, h2⟩
    · cases op with
      | update j w =>
        simp only [Op.mapKey, Op.apply] at h
        split at h
        · rename_i e
          injection h with h
          exact .inl ⟨j, by rw [h]; exact List.mem_cons_self, e⟩
        · exact .inr h
      | delete j =>
        simp only [Op.mapKey, Op.apply] at h
        split at h
        · simp at h
        · exact .inr h

/-! ### C126: the size of proofs -/

/-- The size of proofs, from the size of what is in the trie. -/
theorem proof_sizes {E : Env} {secure : Bool} {ops : List Op} {k now : Bytes} {p : Proof Bytes} {n B : Nat} {a : T}
    (h1 : T.Holds E (MPT.after E secure ops) a) (hl : LogOk E (MPT.after E secure ops).store.written)
    (hw : T.Within (2 * n) B a) (hf : Fits E secure k) (hk : k.length < 2 ^ 60) :
    ((MPT.after E secure ops).getPoi E now k = .ok p →
      (∀ e ∈ p.proof, e.length ≤ n + B + 546) ∧
      bytesOf p ≤ (2 * (effective E secure k).length + 1) * (n + B + 546)) ∧
    ((MPT.after E secure ops).getPoe E now k = .ok p →
      bytesOf p ≤ (2 * (effective E secure k).length + 1) * (n + B + 546) +
        ((effective E secure k).length + 24)) := by
  by_cases hn : a = .empty
  · subst hn
    constructor
    · intro hp; rw [h1.getPoi_empty hl] at hp; simp at hp
    · intro hp; rw [h1.getPoe_empty hl] at hp; simp at hp
  have hlen := passed_length h1.shape (toNibs (effective E secure k))
  rw [toNibs_length] at hlen
  have hkl : (effective E secure k).length < 2 ^ 60 := by
    unfold effective
    split
    · rw [E.keccak_len]; decide
    · exact hk
  have hentry : ∀ x ∈ T.trail a (toNibs (effective E secure k)), (T.enc E x).length ≤ n + B + 546 := by
    intro x hx
    have := (hw.trail _ x hx).enc (E := E) (T.trail_len h1.stored _ x hx)
    omega
  have htl : (T.trail a (toNibs (effective E secure k))).length ≤ 2 * (effective E secure k).length + 1 := by
    simp only [T.trail, List.length_append, List.length_cons, List.length_nil]
    omega
  constructor
  · intro hp
    rw [h1.getPoi hl hn (fits_nibs (by rw [after_secure]; exact hf)), keyOf_eq, after_secure,
      show (if secure = true then E.keccak k else k) = effective E secure k from rfl] at hp
    split at hp
    · simp at hp
    · simp only [Except.ok.injEq] at hp
      subst hp
      refine ⟨fun e he => ?_, ?_⟩
      · obtain ⟨x, hx, rfl⟩ := List.mem_map.1 he
        exact hentry x hx
      · simp only [bytesOf, List.map_map]
        exact Nat.le_trans (T.sum_le_mul _ _ hentry) (Nat.mul_le_mul_right _ htl)
  · intro hp
    rw [h1.getPoe hl hn (fits_nibs (by rw [after_secure]; exact hf)), keyOf_eq, after_secure,
      show (if secure = true then E.keccak k else k) = effective E secure k from rfl] at hp
    split at hp
    · simp at hp
    · simp only [Except.ok.injEq] at hp
      subst hp
      simp only [bytesOf, List.map_append, List.map_map, List.sum_append, List.map_cons, List.map_nil,
        List.sum_cons, List.sum_nil, Nat.add_zero]
      have hsub : ∀ x ∈ T.shown a (toNibs (effective E secure k)),
          x ∈ T.trail a (toNibs (effective E secure k)) := by
        intro x hx
        unfold T.shown at hx
        split at hx
        · exact List.mem_append_left _ hx
        · exact hx
      have hsl : (T.shown a (toNibs (effective E secure k))).length ≤
          2 * (effective E secure k).length + 1 := by
        refine Nat.le_trans ?_ htl
        unfold T.shown
        split <;> simp [T.trail]
      have hsk := T.seek_length a (toNibs (effective E secure k))
      rw [toNibs_length] at hsk
      refine Nat.add_le_add (Nat.le_trans (T.sum_le_mul _ _ fun x hx => hentry x (hsub x hx))
        (Nat.mul_le_mul_right _ hsl)) ?_
      have := T.null_enc E (r := (T.seek a (toNibs (effective E secure k))).2) (by omega)
      omega

/-- C126: however many keys a trie holds, a proof has at most as many bytes as the length of the key allows:
if all keys in the trie have at most `n` bytes and all values at most `B` bytes, then each of the at most
`2 |k| + 1` nodes has at most `n + B + 546` bytes; the last entry of a proof of exclusion has at most
`|k| + 24` bytes more.  (In secure mode the keys are hashes: `|k| = n = 32`.) -/
theorem C126 {E : Env} {secure : Bool} {ops : List Op} {k now : Bytes} {p : Proof Bytes} {n B : Nat}
    (h : Valid E secure ops [k]) (hk : k.length < 2 ^ 60)
    (hb : ∀ j v, contents ops j = some v → (effective E secure j).length ≤ n ∧ v.length ≤ B) :
    ((MPT.after E secure ops).getPoi E now k = .ok p →
      (∀ e ∈ p.proof, e.length ≤ n + B + 546) ∧
      bytesOf p ≤ (2 * (effective E secure k).length + 1) * (n + B + 546)) ∧
    ((MPT.after E secure ops).getPoe E now k = .ok p →
      bytesOf p ≤ (2 * (effective E secure k).length + 1) * (n + B + 546) +
        ((effective E secure k).length + 24)) := by
  obtain ⟨a, h1, h2, h3, h4⟩ := h.inv
  exact proof_sizes h1 h.log (within h h2 h3 h4 hb) (by rw [← after_secure E secure ops]; exact h.fit (by simp)) hk

/-- Three keys, one at a branch: the proof of the deepest has 151 bytes, the bound is 2940. -/
example : Valid toyEnv false [.update [0x12] (bigValue 1), .update [0x12, 0x34] [2], .update [0x15] [3]] [[0x12, 0x34]] ∧
    (∀ j v, contents [.update [0x12] (bigValue 1), .update [0x12, 0x34] [2], .update [0x15] [3]] j = some v →
      (effective toyEnv false j).length ≤ 2 ∧ v.length ≤ 40) ∧
    ((MPT.after toyEnv false [.update [0x12] (bigValue 1), .update [0x12, 0x34] [2], .update [0x15] [3]]).getPoi toyEnv []
      [0x12, 0x34]).map bytesOf = .ok 151 ∧ (2 * (effective toyEnv false [0x12, 0x34]).length + 1) * (2 + 40 + 546) = 2940 := by
  refine ⟨valid_of (by decide +kernel), fun j v hj => ?_, by decide +kernel, by decide +kernel⟩
  have hm := contents_some_mem hj
  simp only [List.map_cons, List.map_nil, Op.key, List.mem_cons, List.not_mem_nil, or_false] at hm
  rcases hm with rfl | rfl | rfl <;> revert hj <;> revert v <;> decide +kernel

/-- C126 for all histories, with empty values and failing calls as well: the bounds are in terms of what was ever
written. -/
theorem C126_all {E : Env} {secure : Bool} {ops : List Op} {k now : Bytes} {p : Proof Bytes} {n B : Nat}
    (ho : ∀ op ∈ ops, Fits E secure op.key) (hl : LogOk E (MPT.after E secure ops).store.written)
    (hf : Fits E secure k) (hk : k.length < 2 ^ 60)
    (hb : ∀ j v, .update j v ∈ ops → (effective E secure j).length ≤ n ∧ v.length ≤ B) :
    ((MPT.after E secure ops).getPoi E now k = .ok p →
      (∀ e ∈ p.proof, e.length ≤ n + B + 546) ∧
      bytesOf p ≤ (2 * (effective E secure k).length + 1) * (n + B + 546)) ∧
    ((MPT.after E secure ops).getPoe E now k = .ok p →
      bytesOf p ≤ (2 * (effective E secure k).length + 1) * (n + B + 546) +
        ((effective E secure k).length + 24)) := by
  obtain ⟨a, h1, h2, h3, h4⟩ := (Keeping.new E secure).run (ops := ops) ho hl
  refine proof_sizes h1 hl ⟨h2, fun q v hq => ?_⟩ hf hk
  obtain ⟨x, rfl⟩ := h4 q v hq
  obtain ⟨j, hj, hx⟩ := written_mem (m := fun _ => none)
    (kept_sub (m := fun _ => none) (by simp) _ _ ((h3 x v).1 hq))
  obtain ⟨h5, h6⟩ := hb j v hj
  rw [toNibs_length, hx]
  change (effective E (MPT.new E secure).secure j).length ≤ n at h5
  exact ⟨by omega, h6⟩

/-- An empty value at a branch takes the value there away; then a third key: the proof has 97 bytes. -/
def emptiedOps : List Op := [.update [0x12] (bigValue 1), .update [0x12, 0x34] [2], .update [0x12] [], .update [0x15] [3]]

example : (∀ op ∈ emptiedOps, Fits toyEnv false op.key) ∧
    LogOk toyEnv (MPT.after toyEnv false emptiedOps).store.written ∧
    (∀ j v, .update j v ∈ emptiedOps → (effective toyEnv false j).length ≤ 2 ∧ v.length ≤ 40) ∧
    ((MPT.after toyEnv false emptiedOps).getPoi toyEnv [] [0x12, 0x34]).map bytesOf = .ok 97 := by
  refine ⟨by decide +kernel, logOk_of (by decide +kernel), fun j v h => ?_, by decide +kernel⟩
  simp only [emptiedOps, List.mem_cons, List.not_mem_nil, or_false, Op.update.injEq] at h
  rcases h with h | h | h | h <;> obtain ⟨rfl, rfl⟩ := h <;> decide +kernel

/-- C126 in secure mode: 65 nodes at most, whatever the keys. -/
theorem C126_secure {E : Env} {ops : List Op} {k now : Bytes} {p : Proof Bytes} {B : Nat}
    (h : Valid E true ops [k]) (hk : k.length < 2 ^ 60) (hb : ∀ j v, contents ops j = some v → v.length ≤ B) :
    ((MPT.after E true ops).getPoi E now k = .ok p → bytesOf p ≤ 65 * (B + 578)) ∧
    ((MPT.after E true ops).getPoe E now k = .ok p → bytesOf p ≤ 65 * (B + 578) + 56) := by
  have hl : ∀ j, (effective E true j).length = 32 := fun j => E.keccak_len j
  have := C126 (n := 32) (B := B) (now := now) (p := p) h hk fun j v hj => ⟨by rw [hl]; exact Nat.le_refl _, hb j v hj⟩
  rw [hl, show 32 + B + 546 = B + 578 by omega, show 2 * 32 + 1 = 65 from rfl, show 32 + 24 = 56 from rfl] at this
  exact ⟨fun hp => (this.1 hp).2, this.2⟩

example : Valid toyEnv true secureOps [[0x12]] ∧ Valid toyEnv true secureOps [[0x77]] ∧
    (∀ j v, contents secureOps j = some v → v.length ≤ 40) ∧
    ((MPT.after toyEnv true secureOps).getPoi toyEnv [] [0x12]).map bytesOf = .ok 159 ∧
    ((MPT.after toyEnv true secureOps).getPoe toyEnv [] [0x77]).map bytesOf = .ok 123 := by
  refine ⟨valid_of (by decide +kernel), valid_of (by decide +kernel), fun j v hj => ?_, by decide +kernel,
    by decide +kernel⟩
  have hm := contents_some_mem hj
  simp only [secureOps, List.map_cons, List.map_nil, Op.key, List.mem_cons, List.not_mem_nil, or_false] at hm
  rcases hm with rfl | rfl | rfl | rfl | rfl <;> revert hj <;> revert v <;> decide +kernel

/-! ### C127: references and data -/

/-- C127 as documented: the trie of an EMPT, and a SparseEMPT, keep references instead of the data, to reduce
what is stored: what is kept of a value beyond its key does not grow with the value. -/
def C127 : Prop := ∃ c, ∀ (E : Env) (r : DataRef), (r.encode E).length ≤ r.key.length + c

/-- It does: a reference contains the data. -/
theorem C127_false : ¬ C127 := by
  rintro ⟨c, h⟩
  have h1 := h toyEnv ⟨[], List.replicate (c + 1) 0⟩
  have h2 := (DataRef.infix_encode toyEnv ⟨[], List.replicate (c + 1) 0⟩).2.length_le
  simp only [List.length_replicate, List.length_nil] at h1 h2
  omega

/-- Data of 32 bytes or more is in a node of the trie storage, with its key. -/
theorem data_in_storage {E : Env} {secure : Bool} {ops : List EOp} {k : Bytes} {v : Value}
    (h : EValid E secure ops [k]) (hv : econtents ops k = some v) (hl : 32 ≤ v.payload.length) :
    ∃ r e, dget (EMPT.after E secure ops).trie.store.kv r = some e ∧ k <:+: e ∧ v.payload <:+: e := by
  have hm := h.mirror
  have hval := h.valid hm
  obtain ⟨a, h1, h2, h3, h4⟩ := hval.inv
  have hlk : T.lookup a (toNibs ((MPT.after E secure (refOps E ops)).keyOf E k)) = some (refOf E k v) := by
    rw [h3, hval.eff_key (by simp), contents_refOps, hv]; rfl
  have hi := T.infix_enc E (T.seek_value h1.shape hlk)
  have hd := DataRef.infix_encode E ⟨k, v.payload⟩
  have hlen := (hd.2.trans hi).length_le
  have hne : (T.seek a (toNibs ((MPT.after E secure (refOps E ops)).keyOf E k))).1 ≠ .empty := by
    rcases T.seek_value h1.shape hlk with ⟨q, he⟩ | ⟨cs, he⟩ <;> rw [he] <;> simp
  rcases (h1.stored.seek (toNibs ((MPT.after E secure (refOps E ops)).keyOf E k))).here hne with hs | ⟨hs, _⟩
  · simp only at hlen; omega
  · rw [hm.trie]
    exact ⟨_, _, hs, hd.1.trans hi, hd.2.trans hi⟩

/-- C127, what holds instead: a SparseEMPT (`get_sparse_trie()`) gives the data of every key, and the last entry
of every proof of inclusion contains the key and the data. -/
theorem C127_shows {E : Env} {secure : Bool} {ops : List EOp} {k : Bytes} {v : Value}
    (h : EValid E secure ops [k]) (hv : econtents ops k = some v) :
    EMPT.getReference E ((EMPT.after E secure ops).getSparse E) k = .ok ⟨k, v.payload⟩ ∧
    ∀ now p, (EMPT.after E secure ops).getPoi E now k = .ok p →
      ∃ e, p.proof.getLast? = some e ∧ k <:+: e ∧ v.payload <:+: e := by
  have hm := h.mirror
  have hval := h.valid hm
  constructor
  · have h0 := (C30_reference_partial h).1 v hv
    cases hr : (EMPT.after E secure ops).trie.root with
    | none =>
      unfold EMPT.getReference MPT.get MPT.rootFalsy at h0
      simp [hr] at h0
    | some r =>
      rw [← h0]
      unfold EMPT.getSparse MPT.init
      congr 1
      rw [hr]
      generalize (EMPT.after E secure ops).trie = t at hr
      cases t
      simp only at hr ⊢
      rw [hr]
      rfl
  · intro now p hp
    have hp : (EMPT.after E secure ops).trie.getPoi E now k = .ok p := hp
    rw [hm.trie] at hp
    obtain ⟨a, h1, h2, h3, h4⟩ := hval.inv
    have hlk : T.lookup a (toNibs ((MPT.after E secure (refOps E ops)).keyOf E k)) = some (refOf E k v) := by
      rw [h3, hval.eff_key (by simp), contents_refOps, hv]; rfl
    have hi := T.infix_enc E (T.seek_value h1.shape hlk)
    have hd := DataRef.infix_encode E ⟨k, v.payload⟩
    have hne : a ≠ .empty := by rintro rfl; simp [T.lookup] at hlk
    rw [h1.getPoi hval.log hne (fits_nibs (hval.fit (by simp)))] at hp
    split at hp
    · simp at hp
    · simp only [Except.ok.injEq] at hp
      subst hp
      refine ⟨_, ?_, hd.1.trans hi, hd.2.trans hi⟩
      simp [T.trail]

/-- An object with its encoding `[9, 9]`, and a byte string; both are read from the sparse copy. -/
example : EValid toyEnv false sampleEOps [[0x99]] ∧ econtents sampleEOps [0x99] = some sampleObj ∧
    EMPT.getReference toyEnv ((EMPT.after toyEnv false sampleEOps).getSparse toyEnv) [0x99] = .ok ⟨[0x99], [9, 9]⟩ ∧
    okAnd ((EMPT.after toyEnv false sampleEOps).getPoi toyEnv [] [0x99]) (fun _ => true) = true :=
  ⟨evalid_of (by decide +kernel), by decide +kernel, by decide +kernel, by decide +kernel⟩

/-- C127, sizes: a proof of inclusion has at least as many bytes as the data, and at most a number that depends on
the lengths of the keys and of the data present, not on how many there are.  Missing: independence of the size of
the data (`C127_false`). -/
theorem C127_sizes_partial {E : Env} {secure : Bool} {ops : List EOp} {k now : Bytes} {v : Value} {p : Proof Bytes}
    {n m B : Nat} (h : EValid E secure ops [k]) (hv : econtents ops k = some v)
    (hn : ∀ j w, econtents ops j = some w → (effective E secure j).length ≤ n ∧ j.length ≤ m ∧ w.payload.length ≤ B)
    (hp : (EMPT.after E secure ops).getPoi E now k = .ok p) :
    v.payload.length ≤ bytesOf p ∧
    bytesOf p ≤ (2 * (effective E secure k).length + 1) * (n + m + B + 617) := by
  have hm := h.mirror
  have hval := h.valid hm
  constructor
  · obtain ⟨e, he, _, hd⟩ := (C127_shows h hv).2 now p hp
    have h1 := hd.length_le
    have h2 : e ∈ p.proof := List.mem_of_getLast? he
    obtain ⟨l1, l2, hl⟩ := List.append_of_mem h2
    unfold bytesOf
    rw [hl, List.map_append, List.sum_append, List.map_cons, List.sum_cons]
    omega
  · have hp : (EMPT.after E secure ops).trie.getPoi E now k = .ok p := hp
    rw [hm.trie] at hp
    have hk : k.length < 2 ^ 60 := by
      have := h.sizes k v (econtents_some_mem hv)
      omega
    have := (C126 (n := n) (B := m + B + 71) (now := now) (p := p) hval hk (fun j w hj => by
      rw [contents_refOps] at hj
      cases hw : econtents ops j with
      | none => rw [hw] at hj; simp at hj
      | some w' =>
        rw [hw] at hj
        simp only [Option.map_some, Option.some.injEq] at hj
        subst hj
        obtain ⟨g1, g2, g3⟩ := hn j w' hw
        have := DataRef.encode_length_le (E := E) (r := ⟨j, w'.payload⟩) (h.sizes j w' (econtents_some_mem hw))
        simp only [refOf] at this ⊢
        exact ⟨g1, by omega⟩)).1 hp
    rw [show n + m + B + 617 = n + (m + B + 71) + 546 by omega]
    exact this.2

example : EValid toyEnv false sampleEOps [[0x99]] ∧
    (∀ j w, econtents sampleEOps j = some w →
      (effective toyEnv false j).length ≤ 2 ∧ j.length ≤ 2 ∧ w.payload.length ≤ 2) ∧
    okAnd ((EMPT.after toyEnv false sampleEOps).getPoi toyEnv [] [0x99]) (fun p => 2 ≤ bytesOf p) = true := by
  refine ⟨evalid_of (by decide +kernel), fun j w hj => ?_, by decide +kernel⟩
  have hm := econtents_some_mem hj
  simp only [sampleEOps, List.mem_cons, List.not_mem_nil, or_false, EOp.update.injEq, reduceCtorEq, false_or] at hm
  rcases hm with h | h | h | h | h | h <;> obtain ⟨rfl, rfl⟩ := h <;> decide +kernel

/-- C127, deletion: data of 32 bytes or more that was in the EMPT once stays in the trie storage, with its key,
whatever calls follow. -/
theorem C127_stays {E : Env} {secure : Bool} {ops more : List EOp} {k : Bytes} {v : Value}
    (h : EValid E secure (ops ++ more) [k]) (hv : econtents ops k = some v) (hl : 32 ≤ v.payload.length) :
    ∃ r e, dget (EMPT.after E secure (ops ++ more)).trie.store.kv r = some e ∧ k <:+: e ∧ v.payload <:+: e := by
  have h0 : EValid E secure ops [k] := h.prefix
  obtain ⟨r, e, he, h1, h2⟩ := data_in_storage h0 hv hl
  refine ⟨r, e, ?_, h1, h2⟩
  rw [h0.mirror.trie] at he
  rw [h.mirror.trie, refOps_append]
  refine (C13_append_only he).2.2 ?_
  have := h.log.coll
  rw [h.mirror.trie, refOps_append] at this
  exact this.mono fun x hx => List.mem_cons_of_mem _ hx

/-- 40 bytes that were deleted: they are not in the mapping, and still in the trie storage. -/
example : EValid toyEnv true ([.update [0x12] (.bytes (bigValue 7)), .update [0x55] (.bytes [1])] ++ [.delete [0x12]]) [[0x12]] ∧
    econtents [.update [0x12] (.bytes (bigValue 7)), .update [0x55] (.bytes [1])] [0x12] = some (.bytes (bigValue 7)) ∧
    32 ≤ (bigValue 7).length ∧
    econtents ([.update [0x12] (.bytes (bigValue 7)), .update [0x55] (.bytes [1])] ++ [.delete [0x12]]) [0x12] = none ∧
    (EMPT.after toyEnv true ([.update [0x12] (.bytes (bigValue 7)), .update [0x55] (.bytes [1])] ++ [.delete [0x12]])).iter =
      [[0x55]] :=
  ⟨evalid_of (by decide +kernel), by decide +kernel, by decide +kernel, by decide +kernel, by decide +kernel⟩

end Props
end Pymt
