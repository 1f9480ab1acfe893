import Verif.Lemmas.EmptLoops
import Verif.Props.Roots
import Verif.Spec.ToyEmpt

/-!
# Property C113: `==` of `EMPT` objects
-/

namespace Pymt
namespace Props

/-- The full statement of C113: two `EMPT` objects are equal exactly when their root hashes are, unless a
collision occurred. -/
def C113 : Prop := ∀ (E : Env) (secure secure' : Bool) (ops ops' : List EOp),
  EValid E secure ops (ops'.map EOp.key) → EValid E secure' ops' (ops.map EOp.key) →
  CollFree E (Item.encode (.str []) ::
    (hashed (EMPT.after E secure ops).trie ++ hashed (EMPT.after E secure' ops').trie)) →
  ∃ b, (EMPT.after E secure ops).eqMap E (EMPT.after E secure' ops') = .ok b ∧
    (b = true ↔ (EMPT.after E secure ops).trie.rootHash E = (EMPT.after E secure' ops').trie.rootHash E)

/-- C113 is false: the `secure` flag counts for the root hash but not for `==`. -/
theorem C113_false : ¬ C113 := by
  intro h
  obtain ⟨b, hb, hr⟩ := h toyEnv false true [.update [0x12] (.bytes [1])] [.update [0x12] (.bytes [1])]
    (evalid_of (by decide +kernel)) (evalid_of (by decide +kernel)) (collFree_of (by decide +kernel))
  have h1 : (EMPT.after toyEnv false [.update [0x12] (.bytes [1])]).eqMap toyEnv
      (EMPT.after toyEnv true [.update [0x12] (.bytes [1])]) = .ok true := by decide +kernel
  rw [h1] at hb
  cases hb
  exact absurd (hr.1 rfl) (by decide +kernel)

/-- The other direction fails as well, also with the same flag: two objects with the same encoding, or an object
and the byte string it encodes to, have the same root hash and are not equal. -/
theorem C113_objects : ∃ ops ops' ops'' : List EOp,
    EValid toyEnv false ops (ops'.map EOp.key) ∧ EValid toyEnv false ops' (ops.map EOp.key) ∧
    EValid toyEnv false ops'' (ops.map EOp.key) ∧
    (EMPT.after toyEnv false ops).trie.rootHash toyEnv = (EMPT.after toyEnv false ops').trie.rootHash toyEnv ∧
    (EMPT.after toyEnv false ops).trie.rootHash toyEnv = (EMPT.after toyEnv false ops'').trie.rootHash toyEnv ∧
    (EMPT.after toyEnv false ops).eqMap toyEnv (EMPT.after toyEnv false ops') = .ok false ∧
    (EMPT.after toyEnv false ops).eqMap toyEnv (EMPT.after toyEnv false ops'') = .ok false :=
  ⟨[.update [0x12] (.obj 1 true true [5, 5])], [.update [0x12] (.obj 2 true true [5, 5])],
    [.update [0x12] (.bytes [5, 5])], evalid_of (by decide +kernel), evalid_of (by decide +kernel),
    evalid_of (by decide +kernel), by decide +kernel, by decide +kernel, by decide +kernel, by decide +kernel⟩

/-- C113, what `==` means: for any two histories the comparison returns, and it is True exactly when both
objects have the same keys with values that count as equal.  Neither the `secure` flags nor the order of the
calls matter. -/
theorem C113_contents {E : Env} {secure secure' : Bool} {ops ops' : List EOp}
    (h : EValid E secure ops []) (h' : EValid E secure' ops' []) :
    ∃ b, (EMPT.after E secure ops).eqMap E (EMPT.after E secure' ops') = .ok b ∧
      (b = true ↔ AlikeContents (econtents ops) (econtents ops')) := by
  have hm := h.mirror
  have hm' := h'.mirror
  refine ⟨_, by rw [EMPT.eqMap, h.items, h'.items]; rfl, ?_⟩
  rw [dictOf_nodup hm.nodup, dictOf_nodup hm'.nodup, dictEq_iff hm.nodup hm'.nodup, funext hm.data,
    funext hm'.data]

/-- C113, comparison with a dict: True exactly when the dict has the same keys with values that count as
equal. -/
theorem C113_dict {E : Env} {secure : Bool} {ops : List EOp} {d : Dict Value}
    (h : EValid E secure ops []) (hd : (d.map (·.1)).Nodup) :
    ∃ b, (EMPT.after E secure ops).eqDict E d = .ok b ∧
      (b = true ↔ AlikeContents (econtents ops) (dget d)) := by
  have hm := h.mirror
  refine ⟨_, by rw [EMPT.eqDict, h.items]; rfl, ?_⟩
  rw [dictOf_nodup hm.nodup, dictEq_iff hm.nodup hd, funext hm.data]

theorem alike_bytes {m m' : EContents} (h : ∀ k v, m k = some v → ∃ b, v = .bytes b)
    (h' : ∀ k v, m' k = some v → ∃ b, v = .bytes b) : AlikeContents m m' ↔ m = m' := by
  constructor
  · intro ha
    funext k
    rcases ha k with ⟨h1, h2⟩ | ⟨v, w, h1, h2, h3⟩
    · rw [h1, h2]
    · obtain ⟨x, rfl⟩ := h k v h1
      obtain ⟨y, rfl⟩ := h' k w h2
      rw [h1, h2]
      simp [Value.Alike] at h3
      rw [h3]
  · rintro rfl k
    cases hk : m k with
    | none => exact .inl ⟨rfl, rfl⟩
    | some v =>
      obtain ⟨b, rfl⟩ := h k v hk
      exact .inr ⟨_, _, rfl, rfl, .inl ⟨b, .inl rfl, .inl rfl⟩⟩

/-- C113, in part: with the same `secure` flag and byte strings as values, two objects are equal exactly when
their root hashes are.  Missing: different flags (`C113_false`), objects as values (`C113_objects`). -/
theorem C113_root_partial {E : Env} {secure : Bool} {ops ops' : List EOp}
    (h : EValid E secure ops (ops'.map EOp.key)) (h' : EValid E secure ops' (ops.map EOp.key))
    (hb : ∀ k v, econtents ops k = some v → ∃ b, v = .bytes b)
    (hb' : ∀ k v, econtents ops' k = some v → ∃ b, v = .bytes b)
    (hcoll : CollFree E (Item.encode (.str []) ::
      (hashed (EMPT.after E secure ops).trie ++ hashed (EMPT.after E secure ops').trie))) :
    ∃ b, (EMPT.after E secure ops).eqMap E (EMPT.after E secure ops') = .ok b ∧
      (b = true ↔
        (EMPT.after E secure ops).trie.rootHash E = (EMPT.after E secure ops').trie.rootHash E) := by
  have hm := h.mirror
  have hm' := h'.mirror
  have cut : ∀ {ops : List EOp} {ks : List Bytes}, EValid E secure ops ks → EValid E secure ops [] := by
    intro ops ks h
    exact ⟨h.fits, by simp, h.sizes, h.log, fun hs => (h.keys hs).mono fun a ha =>
      List.mem_append_right _ (by simpa using ha)⟩
  obtain ⟨b, h1, h2⟩ := C113_contents (cut h) (cut h')
  refine ⟨b, h1, h2.trans ((alike_bytes hb hb').trans ?_)⟩
  have hsub : ∀ {ops : List EOp}, ∀ x ∈ (refOps E ops).map Op.key, x ∈ ops.map EOp.key := by
    intro ops x hx
    obtain ⟨op, ho, rfl⟩ := List.mem_map.1 hx
    exact refOps_key ho
  have less : ∀ {o : List Op} {ks ks' : List Bytes}, Valid E secure o ks → (∀ x ∈ ks', x ∈ ks) →
      Valid E secure o ks' := by
    intro o ks ks' h hs
    exact ⟨h.empties, h.fits, fun k hk => h.fitsq k (hs k hk), h.log, fun hx => (h.keys hx).mono fun a ha => by
      rcases List.mem_append.1 ha with ha | ha
      · exact List.mem_append_left _ (hs a ha)
      · exact List.mem_append_right _ ha⟩
  have hv := less (h.valid hm) hsub
  have hv' := less (h'.valid hm') hsub
  rw [hm.trie, hm'.trie] at hcoll ⊢
  constructor
  · intro he
    refine (C06_root hv hv' ?_).1
    funext k
    rw [contents_refOps, contents_refOps, he]
  · intro hr
    have hc := C07_commit hv hv' hcoll hr
    funext k
    have hk := congrFun hc k
    rw [contents_refOps, contents_refOps] at hk
    cases h1 : econtents ops k with
    | none =>
      cases h2 : econtents ops' k with
      | none => rfl
      | some w => simp [h1, h2] at hk
    | some v =>
      cases h2 : econtents ops' k with
      | none => simp [h1, h2] at hk
      | some w =>
        simp only [h1, h2, Option.map_some, Option.some.injEq] at hk
        have d1 := decode_refOf h h1
        have d2 := decode_refOf h' h2
        rw [hk, d2] at d1
        obtain ⟨x, rfl⟩ := hb k v h1
        obtain ⟨y, rfl⟩ := hb' k w h2
        simp only [Value.payload, Except.ok.injEq, DataRef.mk.injEq, true_and] at d1
        rw [d1]

/-- C113, data storages that were tampered with: for any two objects whatever, a comparison that returns has read
every value of both with `get`, which checks it against the trie.  So it raises when one of them is not what the
trie says, also when this does not matter for the answer. -/
theorem C113_checked {E : Env} {s u : EMPT} {b : Bool} (h : s.eqMap E u = .ok b) :
    (∀ k ∈ s.iter, ∃ v, s.get E k = .ok v) ∧ ∀ k ∈ u.iter, ∃ v, u.get E k = .ok v := by
  unfold EMPT.eqMap at h
  cases h1 : s.items E with
  | error e => rw [h1] at h; cases h
  | ok a =>
    cases h2 : u.items E with
    | error e => rw [h1, h2] at h; cases h
    | ok c =>
      refine ⟨fun k hk => ?_, fun k hk => ?_⟩
      · obtain ⟨v, hv, _⟩ := EMPT.items_ok h1 k hk
        exact ⟨v, hv⟩
      · obtain ⟨v, hv, _⟩ := EMPT.items_ok h2 k hk
        exact ⟨v, hv⟩

/-- Two histories that leave equal objects in another order and with other flags; with one value different they
are not equal. -/
example : EValid toyEnv false sampleEOps [] ∧
    EValid toyEnv true [.update [0x99] sampleObj, .update [0x12, 0x56] (.bytes []),
      .update [0x12, 0x34] (.bytes [2, 3])] [] ∧
    (EMPT.after toyEnv false sampleEOps).eqMap toyEnv (EMPT.after toyEnv true [.update [0x99] sampleObj,
      .update [0x12, 0x56] (.bytes []), .update [0x12, 0x34] (.bytes [2, 3])]) = .ok true ∧
    (EMPT.after toyEnv false sampleEOps).eqMap toyEnv (EMPT.after toyEnv true [.update [0x99] sampleObj,
      .update [0x12, 0x56] (.bytes [0]), .update [0x12, 0x34] (.bytes [2, 3])]) = .ok false ∧
    (EMPT.after toyEnv false sampleEOps).eqDict toyEnv [([0x12, 0x56], .bytearray []),
      ([0x12, 0x34], .bytes [2, 3]), ([0x99], sampleObj)] = .ok true ∧
    (EMPT.after toyEnv false sampleEOps).eqDict toyEnv [([0x12, 0x56], .bytes [])] = .ok false :=
  ⟨evalid_of (by decide +kernel), evalid_of (by decide +kernel), by decide +kernel, by decide +kernel,
    by decide +kernel, by decide +kernel⟩

/-- The assumptions of `C113_root_partial` hold for equal and for different objects. -/
example : ∃ ops ops' ops'' : List EOp, ops ≠ ops' ∧
    EValid toyEnv false ops (ops'.map EOp.key) ∧ EValid toyEnv false ops' (ops.map EOp.key) ∧
    EValid toyEnv false ops (ops''.map EOp.key) ∧ EValid toyEnv false ops'' (ops.map EOp.key) ∧
    CollFree toyEnv (Item.encode (.str []) ::
      (hashed (EMPT.after toyEnv false ops).trie ++ hashed (EMPT.after toyEnv false ops').trie)) ∧
    CollFree toyEnv (Item.encode (.str []) ::
      (hashed (EMPT.after toyEnv false ops).trie ++ hashed (EMPT.after toyEnv false ops'').trie)) ∧
    (EMPT.after toyEnv false ops).eqMap toyEnv (EMPT.after toyEnv false ops') = .ok true ∧
    (EMPT.after toyEnv false ops).eqMap toyEnv (EMPT.after toyEnv false ops'') = .ok false :=
  ⟨[.update [0x12] (.bytes [1]), .update [0x13] (.bytes [2])],
    [.update [0x13] (.bytes [2]), .update [0x12] (.bytes [7]), .update [0x12] (.bytes [1])],
    [.update [0x12] (.bytes [1]), .update [0x13] (.bytes [3])], by decide,
    evalid_of (by decide +kernel), evalid_of (by decide +kernel), evalid_of (by decide +kernel),
    evalid_of (by decide +kernel), collFree_of (by decide +kernel), collFree_of (by decide +kernel),
    by decide +kernel, by decide +kernel⟩

/-- A tampered value makes the comparison raise, although the sizes differ. -/
example : (EMPT.mk (EMPT.after toyEnv false sampleEOps).trie
      (dset (EMPT.after toyEnv false sampleEOps).data [0x12, 0x34] (.bytes [6]))).eqMap toyEnv
    (EMPT.after toyEnv false []) = .error .invalidReference := by decide +kernel

end Props
end Pymt
