import Verif.Model.ProofCodec
import Verif.Lemmas.Rlp
import Verif.Lemmas.MerkleBind

/-!
# The codec of `Proof` (C44, C56)
-/

namespace Pymt

open MTree

/-! ### Lemmas -/

theorem saysMT_types : saysMT mtPoi = true ∧ saysMT mptPoi = false ∧ saysMT mptPoe = false ∧
    saysMPT mtPoi = false := by decide

theorem Proof.binaries_bytes : ∀ l : List Bytes,
    Proof.binaries ((l.map Entry.bytes).map Proof.entryItem) = .ok (l.map Entry.bytes)
  | [] => rfl
  | b :: l => by
    have := Proof.binaries_bytes l
    simp only [List.map_cons, Proof.entryItem, Proof.binaries, this, Except.bind_ok', Except.pure_ok']

theorem Proof.binaries_tuple : ∀ l : List Entry, (∃ t, Entry.tuple t ∈ l) →
    Proof.binaries (l.map Proof.entryItem) = .error .rlpDeserialization
  | [], h => by simp at h
  | .tuple t :: l, _ => rfl
  | .bytes b :: l, h => by
    have := Proof.binaries_tuple l (by simpa using h)
    simp [Proof.entryItem, Proof.binaries, this]

theorem Proof.binaries_inv : ∀ (l : List Item) (es : List Entry), Proof.binaries l = .ok es →
    ∃ bs : List Bytes, es = bs.map Entry.bytes ∧ l = bs.map Item.str
  | [], es, h => by
    simp [Proof.binaries] at h
    exact ⟨[], by simp [h]⟩
  | .list x :: l, es, h => by simp [Proof.binaries] at h
  | .str b :: l, es, h => by
    simp only [Proof.binaries] at h
    cases h1 : Proof.binaries l with
    | error e => simp [h1] at h
    | ok es' =>
      simp [h1] at h
      obtain ⟨bs, e1, e2⟩ := Proof.binaries_inv l es' h1
      exact ⟨b :: bs, by simp [← h, e1], by simp [e2]⟩

theorem Proof.decodeAll_bytes : ∀ l : List Bytes, (∀ e ∈ l, utf8Valid e = true) →
    Proof.decodeAll (l.map Entry.bytes) = .ok l
  | [], _ => rfl
  | b :: l, h => by
    have h1 := h b (by simp)
    have := Proof.decodeAll_bytes l (fun e he => h e (by simp [he]))
    simp only [List.map_cons, Proof.decodeAll] at this ⊢
    simp [this, decodeUtf8, h1]

theorem entries_ne (H : HashFn) : ∀ (n : Nat) (l : List Bytes) (i : Nat) (ps : List (Bytes × Bytes)),
    2 ≤ l.length → l.length ≤ n → i < l.length →
    proofLoop (climb H n l).dropLast i = .ok ps → ps ≠ []
  | 0, l, i, ps, h, hn, _, _ => by omega
  | n + 1, l, i, ps, h, hn, hi, hp => by
    rw [climb_dropLast H n l h, proofLoop] at hp
    split at hp
    · rename_i hs
      have hlen := nextLevel_length H l
      exact entries_ne H n (nextLevel H l) (i / 2) ps (by omega) (by omega) (by omega) hp
    · cases h1 : pyIndex l (if i % 2 = 1 then i - 1 else i + 1) with
      | error e => simp [h1] at hp
      | ok s =>
        cases h2 : proofLoop (climb H n (nextLevel H l)).dropLast (i / 2) with
        | error e => simp [h1, h2] at hp
        | ok rest =>
          simp [h1, h2] at hp
          rw [← hp]
          simp

/-! ### A library that meets the contract of `JsonLib`

Not JSON, but enough to show that the contract can be met: every byte is preceded by 1, every string and the list
are ended by 0. -/

/-- A byte string, ended by 0. -/
def packBytes : Bytes → Bytes
  | [] => [0]
  | x :: xs => 1 :: x :: packBytes xs

/-- A list of byte strings, ended by 0. -/
def packList : List Bytes → Bytes
  | [] => [0]
  | x :: xs => 1 :: (packBytes x ++ packList xs)

/-- Undo `packBytes`; also gives the rest. -/
def unpackBytes : Bytes → Option (Bytes × Bytes)
  | 1 :: x :: rest => (unpackBytes rest).map fun (a, r) => (x :: a, r)
  | 0 :: rest => some ([], rest)
  | _ => none

/-- Undo `packList`. -/
def unpackList : Nat → Bytes → Option (List Bytes)
  | n + 1, 1 :: rest => do
    let (a, r) ← unpackBytes rest
    let l ← unpackList n r
    return a :: l
  | _, [0] => some []
  | _, _ => none

theorem unpackBytes_pack : ∀ (b r : Bytes), unpackBytes (packBytes b ++ r) = some (b, r)
  | [], r => rfl
  | x :: xs, r => by simp [packBytes, unpackBytes, unpackBytes_pack xs r]

theorem packBytes_pos (b : Bytes) : 0 < (packBytes b).length := by cases b <;> simp [packBytes]

theorem unpackList_pack : ∀ (l : List Bytes) (n : Nat), (packList l).length ≤ n →
    unpackList n (packList l) = some l
  | [], n, _ => by cases n <;> rfl
  | x :: xs, 0, h => by simp [packList] at h
  | x :: xs, n + 1, h => by
    have := unpackList_pack xs n (by simp [packList] at h; omega)
    simp [packList, unpackList, unpackBytes_pack, this]

/-- A library that meets the contract. -/
def sampleJson : Proof.JsonLib where
  dumps o := packList (o.type :: o.timestamp :: o.targetKey :: o.rootHash :: o.proof)
  loads s :=
    match unpackList s.length s with
    | some (type :: timestamp :: targetKey :: rootHash :: proof) =>
      .ok { type, timestamp, targetKey, rootHash, proof }
    | _ => .error .valueError
  loads_dumps o _ _ _ _ _ := by simp [unpackList_pack _ _ (Nat.le_refl _)]

namespace Props

/-! ### C44: round trips -/

/-- The claim for RLP: every proof of type MT-POI survives `decode_rlp(encode_rlp(p))`. -/
def C44 : Prop :=
  ∀ p : Proof Entry, p.type = mtPoi → ∃ b, p.encodeRlp = .ok b ∧ (b.length < 2 ^ 64 → Proof.decodeRlp b = .ok p)

/-- The claim for JSON. -/
def C44_json : Prop :=
  ∀ (J : Proof.JsonLib) (p : Proof Entry), p.type = mtPoi → ∃ s, p.encodeJson J = .ok s ∧ Proof.decodeJson J s = .ok p

/-- With byte strings as entries the RLP round trip works (for results below 2^64 bytes, as always in Python). -/
theorem C44_rlp_partial (p : Proof Entry) (l : List Bytes) (ht : p.type = mtPoi) (hl : p.proof = l.map .bytes) :
    ∃ b, p.encodeRlp = .ok b ∧ (b.length < 2 ^ 64 → Proof.decodeRlp b = .ok p) := by
  refine ⟨_, by simp only [Proof.encodeRlp, ht, saysMT_types.1]; rfl, ?_⟩
  intro hlen
  unfold Proof.decodeRlp
  rw [rlpDecode_encode _ hlen]
  simp only [Except.bind_ok']
  rw [hl, Proof.binaries_bytes]
  simp only [Except.bind_ok', Proof.construct]
  cases p
  simp only at ht hl ⊢
  subst ht hl
  rfl

example : ∃ p : Proof Entry, p.type = mtPoi ∧ p.proof = [[1, 2], [], [200]].map .bytes :=
  ⟨{ type := mtPoi, timestamp := [50], targetKey := [255], trieRoot := [97], proof := [[1, 2], [], [200]].map .bytes }, rfl, rfl⟩

/-- With a tuple among the entries, as in the proofs of `MerkleTree`, encoding succeeds and decoding raises. -/
theorem C44_rlp_tuple (p : Proof Entry) (ht : p.type = mtPoi) (hl : ∃ t, Entry.tuple t ∈ p.proof) :
    ∃ b, p.encodeRlp = .ok b ∧ (b.length < 2 ^ 64 → Proof.decodeRlp b = .error .rlpDeserialization) := by
  refine ⟨_, by simp only [Proof.encodeRlp, ht, saysMT_types.1]; rfl, ?_⟩
  intro hlen
  unfold Proof.decodeRlp
  rw [rlpDecode_encode _ hlen]
  simp only [Except.bind_ok']
  rw [Proof.binaries_tuple _ hl]
  rfl

/-- A small proof with a tuple. -/
def tupleProof : Proof Entry :=
  { type := mtPoi, timestamp := [50], targetKey := [1], trieRoot := [97], proof := [.tuple [left, [48, 48]]] }

example : ∃ t, Entry.tuple t ∈ tupleProof.proof := ⟨[left, [48, 48]], by simp [tupleProof]⟩

theorem C44_false : ¬ C44 := by
  intro h
  obtain ⟨b, h1, h2⟩ := h tupleProof rfl
  obtain ⟨b', h1', h2'⟩ := C44_rlp_tuple tupleProof rfl ⟨[left, [48, 48]], by simp [tupleProof]⟩
  rw [h1] at h1'
  cases h1'
  have hb : b.length < 2 ^ 64 := by
    have : tupleProof.encodeRlp.map (fun b => decide (b.length < 2 ^ 64)) = .ok true := by decide +kernel
    rw [h1] at this
    simpa [Except.map] using this
  rw [h2 hb] at h2'
  cases h2' hb

/-- With byte strings as entries, and all of them and the other fields valid UTF-8, the JSON round trip works. -/
theorem C44_json_partial (J : Proof.JsonLib) (p : Proof Entry) (l : List Bytes) (ht : p.type = mtPoi)
    (hl : p.proof = l.map .bytes) (hu : ∀ e ∈ l, utf8Valid e = true) (h1 : utf8Valid p.timestamp = true)
    (h2 : utf8Valid p.targetKey = true) (h3 : utf8Valid p.trieRoot = true) :
    ∃ s, p.encodeJson J = .ok s ∧ Proof.decodeJson J s = .ok p := by
  have h0 : utf8Valid mtPoi = true := by decide
  cases p
  simp only at ht hl h1 h2 h3
  subst ht hl
  rename_i ts key root
  refine ⟨J.dumps { type := mtPoi, timestamp := ts, targetKey := key, rootHash := root, proof := l }, ?_, ?_⟩
  · unfold Proof.encodeJson
    simp only [decodeUtf8, h0, h1, h2, h3, if_true, Except.bind_ok', saysMT_types.1,
      Proof.decodeAll_bytes l hu, Except.pure_ok']
  · unfold Proof.decodeJson
    rw [J.loads_dumps _ h0 h1 h2 h3 hu]
    simp [saysMT_types, Proof.construct, show acceptedType mtPoi = true by decide]

example : ∃ l : List Bytes, l = [[104], [195, 169]] ∧ ∀ e ∈ l, utf8Valid e = true := ⟨_, rfl, by decide⟩

/-- A tuple among the entries: AttributeError. -/
theorem C44_json_tuple (J : Proof.JsonLib) (p : Proof Entry) (t : List Bytes) (rest : List Entry)
    (ht : p.type = mtPoi) (hl : p.proof = .tuple t :: rest) (h1 : utf8Valid p.timestamp = true)
    (h2 : utf8Valid p.targetKey = true) (h3 : utf8Valid p.trieRoot = true) :
    p.encodeJson J = .error .attributeError := by
  have h0 : utf8Valid mtPoi = true := by decide
  unfold Proof.encodeJson
  simp [decodeUtf8, ht, h0, h1, h2, h3, saysMT_types.1, hl, Proof.decodeAll]

/-- A key that is not valid UTF-8, which every hash is likely to be: UnicodeDecodeError. -/
theorem C44_json_key (J : Proof.JsonLib) (p : Proof Entry) (ht : p.type = mtPoi)
    (h1 : utf8Valid p.timestamp = true) (h2 : utf8Valid p.targetKey = false) :
    p.encodeJson J = .error .unicode := by
  have h0 : utf8Valid mtPoi = true := by decide
  unfold Proof.encodeJson
  simp [decodeUtf8, ht, h0, h1, h2]

example : utf8Valid [255] = false ∧ utf8Valid [0xC3, 0x28] = false ∧ utf8Valid [0xED, 0xA0, 0x80] = false := by
  decide

theorem C44_json_false : ¬ C44_json := by
  intro h
  obtain ⟨s, h1, _⟩ := h sampleJson tupleProof rfl
  rw [C44_json_tuple sampleJson tupleProof [left, [48, 48]] [] rfl rfl (by decide) (by decide) (by decide)] at h1
  cases h1

/-- No proof that a `MerkleTree` with two or more leaves makes survives either round trip. -/
theorem C44_own_proofs (H : HashFn) (secure : Bool) (ops : List MOp) (v now : Bytes) (hv : v ∈ held ops)
    (h2 : 2 ≤ (held ops).length) :
    ∃ p, (getPoi H now v (after H secure (ops ++ [.make]))).1 = .ok p ∧
      (∃ b, (merkleProof p).encodeRlp = .ok b ∧
        (b.length < 2 ^ 64 → Proof.decodeRlp b = .error .rlpDeserialization)) ∧
      (∀ J, utf8Valid now = true → utf8Valid v = true → (merkleProof p).encodeJson J = .error .attributeError) := by
  have hne : held ops ≠ [] := List.ne_nil_of_mem hv
  rw [after_make H secure ops hne]
  have hm := List.mem_map_of_mem (f := leafOf H secure) hv
  obtain ⟨ps, h1, _, _⟩ := built_poi H secure ((held ops).map (leafOf H secure)) now v hm
  have hps : ps ≠ [] := by
    obtain ⟨i, hi1, hi2⟩ := idxOf?_some _ _ hm
    have hi := (List.getElem?_eq_some_iff.mp hi2).1
    have hraw : (built H secure ((held ops).map (leafOf H secure))).proofRaw H v = .ok ps := by
      cases hr : (built H secure ((held ops).map (leafOf H secure))).proofRaw H v with
      | error e => simp [getPoi, hr] at h1
      | ok qs =>
        simp [getPoi, hr, built_root H secure _ (show (held ops).map (leafOf H secure) ≠ [] by simpa using hne)] at h1
        rw [h1]
    unfold proofRaw at hraw
    rw [show (built H secure ((held ops).map (leafOf H secure))).leaves = (held ops).map (leafOf H secure) from rfl,
      show (built H secure ((held ops).map (leafOf H secure))).secure = secure from rfl, hi1] at hraw
    simp only at hraw
    rw [built_levels, show (built H secure ((held ops).map (leafOf H secure))).ready = true from rfl] at hraw
    simp only [List.reverse_reverse] at hraw
    exact entries_ne H _ _ i ps (by simpa using h2) (Nat.le_refl _) hi hraw
  obtain ⟨e, es, rfl⟩ := List.exists_cons_of_ne_nil hps
  refine ⟨_, by rw [h1], ?_, ?_⟩
  · exact C44_rlp_tuple _ rfl ⟨[e.1, e.2], by simp [merkleProof]⟩
  · intro J hn hk
    exact C44_json_tuple J _ [e.1, e.2] (es.map fun e => .tuple [e.1, e.2]) rfl rfl hn hk
      (utf8Valid_ascii _ (hexOf_ascii _))

example : ([7] : Bytes) ∈ held [.put [7], .put [8]] ∧ 2 ≤ (held [.put [7], .put [8]]).length := by decide

/-- Proofs of an `MPT` cannot be encoded at all. -/
theorem C44_mpt (J : Proof.JsonLib) (p : Proof Entry) (ht : p.type = mptPoi ∨ p.type = mptPoe) :
    p.encodeRlp = .error .notImplemented ∧
    (p.encodeJson J = .error .notImplemented ∨ p.encodeJson J = .error .unicode) := by
  have hty : saysMT p.type = false ∧ utf8Valid p.type = true := by
    rcases ht with ht | ht <;> rw [ht] <;> decide
  refine ⟨by simp [Proof.encodeRlp, hty.1], ?_⟩
  unfold Proof.encodeJson
  simp only [decodeUtf8, hty.1, hty.2, if_true, Except.bind_ok']
  cases utf8Valid p.timestamp <;> cases utf8Valid p.targetKey <;> cases utf8Valid p.trieRoot <;> simp

/-! ### C56: what `decode_rlp` accepts -/

/-- `decode_rlp` gives back only proofs of an accepted type with byte strings as entries, and accepts one
encoding of each: what it accepted for a Merkle proof is what `encode_rlp` makes of the result. -/
theorem C56_decode (b : Bytes) (p : Proof Entry) (h : Proof.decodeRlp b = .ok p) :
    (p.type = mptPoi ∨ p.type = mptPoe ∨ p.type = mtPoi) ∧ (∃ l : List Bytes, p.proof = l.map .bytes) ∧
      (p.type = mtPoi → p.encodeRlp = .ok b) := by
  unfold Proof.decodeRlp at h
  cases hi : rlpDecode b with
  | error e => simp [hi] at h
  | ok item =>
    simp only [hi, Except.bind_ok'] at h
    split at h
    · rename_i ty ts key root l
      cases hb : Proof.binaries l with
      | error e => simp [hb] at h
      | ok es =>
        simp only [hb, Except.bind_ok', Proof.construct] at h
        split at h
        · rename_i hacc
          cases h
          obtain ⟨bs, e1, e2⟩ := Proof.binaries_inv l es hb
          refine ⟨?_, ⟨bs, e1⟩, ?_⟩
          · simp only [acceptedType, Bool.or_eq_true, decide_eq_true_eq] at hacc
            rcases hacc with (h | h) | h
            · exact .inl h
            · exact .inr (.inl h)
            · exact .inr (.inr h)
          · intro ht
            simp only at ht
            subst ht
            have := encode_rlpDecode hi
            simp only [Proof.encodeRlp, saysMT_types.1]
            rw [← this, e1, e2]
            simp [Proof.entryItem, Function.comp_def]
        · simp at h
    · simp at h

example : (Proof.decodeRlp
    [205, 0x86, 77, 84, 45, 80, 79, 73, 50, 1, 97, 0xC2, 5, 0x80]).map (·.proof) =
    .ok [.bytes [5], .bytes []] := by decide +kernel

end Props
end Pymt
