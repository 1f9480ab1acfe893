import Verif.Lemmas.Closed

/-!
# Properties C36, C37: nibble paths and nodes

The meaning of a path is its list of nibbles, `NibblePath.nibs`; a path is valid (`NibblePath.WF`) when
its offset is not beyond its data.
-/

namespace Pymt
namespace Props

/-! ### C36: nibble paths -/

/-- The nibbles of a path are what `at` reads. -/
theorem C36_at {p : NibblePath} (h : p.WF) :
    p.len = .ok p.nibs.length ∧ ∀ i (hi : i < p.nibs.length), p.nibbleAt i = .ok (p.nibs[i]).val :=
  ⟨NibblePath.len_spec h, fun _ hi => NibblePath.at_get hi⟩

/-- C36, codec: encoding is the hex-prefix encoding of the Yellow Paper, and decoding gives the nibbles
and the flag back. -/
theorem C36_codec {p : NibblePath} (h : p.WF) (leaf : Bool) :
    ∃ b, p.encode leaf = .ok b ∧ b = hp leaf p.nibs ∧
      ∃ q, NibblePath.decodeWithType b = .ok (q, leaf) ∧ q.WF ∧ q.nibs = p.nibs := by
  obtain ⟨q, hq⟩ := NibblePath.decodeWithType_spec leaf p.nibs
  exact ⟨_, NibblePath.encode_spec h leaf, rfl, q, hq⟩

/-- C36, encoding is injective on nibbles and flags. -/
theorem C36_injective {p q : NibblePath} {leaf leaf' : Bool} {b : Bytes}
    (h1 : p.encode leaf = .ok b) (h2 : q.encode leaf' = .ok b) : leaf = leaf' ∧ p.nibs = q.nibs := by
  obtain ⟨_, rfl⟩ := NibblePath.encode_wf h1
  obtain ⟨_, h⟩ := NibblePath.encode_wf h2
  exact hp_inj h

/-- C36, operations: they agree with equality, prefix, longest common prefix, concatenation and drop. -/
theorem C36_operations {p q : NibblePath} (h1 : p.WF) (h2 : q.WF) :
    p.eq q = .ok (decide (p.nibs = q.nibs)) ∧
    p.startsWith q = .ok (decide (q.nibs <+: p.nibs)) ∧
    (∃ r, p.commonPrefix q = .ok r ∧ r.WF ∧ r.nibs <+: p.nibs ∧ r.nibs <+: q.nibs ∧
      ∀ s, s <+: p.nibs → s <+: q.nibs → s <+: r.nibs) ∧
    (∃ r, p.combine q = .ok r ∧ r.WF ∧ r.nibs = p.nibs ++ q.nibs) ∧
    (∀ n, n ≤ p.nibs.length → (p.consume n).WF ∧ (p.consume n).nibs = p.nibs.drop n) := by
  refine ⟨NibblePath.eq_spec h1 h2, NibblePath.startsWith_spec h1 h2, ?_, NibblePath.combine_spec h1 h2,
    fun n hn => ⟨NibblePath.consume_WF h1 hn, NibblePath.consume_nibs p n⟩⟩
  obtain ⟨r, hr, hw, hn⟩ := NibblePath.commonPrefix_spec h1 h2
  refine ⟨r, hr, hw, hn ▸ lcp_prefix_left _ _, hn ▸ lcp_prefix_right _ _, fun s hs hs' => ?_⟩
  rw [hn]
  clear hr hw hn
  generalize p.nibs = a at *
  generalize q.nibs = b at *
  induction s generalizing a b with
  | nil => simp
  | cons x s ih =>
    obtain ⟨a', rfl⟩ := hs
    obtain ⟨b', rfl⟩ := hs'
    simp only [List.cons_append, lcp, if_true, List.cons_prefix_cons, true_and]
    exact ih _ (List.prefix_append _ _) _ (List.prefix_append _ _)

example : (⟨[0x12, 0x34], 1⟩ : NibblePath).WF ∧ (⟨[0x12, 0x34], 1⟩ : NibblePath).nibs = [2, 3, 4] ∧
    (⟨[0x23, 0x50], 0⟩ : NibblePath).WF ∧
    (⟨[0x12, 0x34], 1⟩ : NibblePath).encode true = .ok [0x32, 0x34] ∧
    ((⟨[0x12, 0x34], 1⟩ : NibblePath).commonPrefix ⟨[0x23, 0x50], 0⟩).map (·.nibs) = .ok [2, 3] := by
  refine ⟨by unfold NibblePath.WF; decide, by decide, by unfold NibblePath.WF; decide, by decide, by decide⟩

/-! ### C37: nodes -/

/-- A reference as nodes hold them: none, a digest, or a node shorter than 32 bytes. -/
def ValidRef (r : Bytes) : Prop := r = [] ∨ r.length = 32 ∨ (r.length < 32 ∧ ∃ n : Node, n.encode = .ok r)

/-- A valid node: valid path, valid references, 16 of them in a branch. -/
def ValidNode : Node → Prop
  | .leaf p _ => p.WF
  | .ext p r => p.WF ∧ ValidRef r
  | .branch bs _ => bs.length = 16 ∧ ∀ r ∈ bs, ValidRef r

/-- Same kind, same nibbles, same value, same references. -/
def SameNode : Node → Node → Prop
  | .leaf p d, .leaf q d' => p.nibs = q.nibs ∧ d = d'
  | .ext p r, .ext q r' => p.nibs = q.nibs ∧ r = r'
  | .branch bs d, .branch bs' d' => bs = bs' ∧ d = d'
  | _, _ => False

theorem encode_list {n : Node} {b : Bytes} (h : n.encode = .ok b) : ∃ l, b = Item.encode (.list l) := by
  cases n with
  | leaf p d =>
    rw [Node.encode] at h
    cases hp : p.encode true with
    | error e => rw [hp] at h; simp at h
    | ok x => rw [hp] at h; simp at h; exact ⟨_, h.symm⟩
  | ext p r =>
    rw [Node.encode] at h
    cases hx : prepareForEncoding r with
    | error e => rw [hx] at h; simp at h
    | ok y =>
      cases hp : p.encode false with
      | error e => rw [hx, hp] at h; simp at h
      | ok x => rw [hx, hp] at h; simp at h; exact ⟨_, h.symm⟩
  | branch bs d =>
    rw [Node.encode] at h
    cases hx : prepareAll bs with
    | error e => rw [hx] at h; simp at h
    | ok y => rw [hx] at h; simp at h; exact ⟨_, h.symm⟩

theorem validRef_prepare {r : Bytes} (h : ValidRef r) :
    ∃ x, prepareForEncoding r = .ok x ∧ prepareForUsage x = r := by
  rcases h with rfl | h | ⟨h, n, hn⟩
  · exact ⟨.str [], rfl, rfl⟩
  · exact ⟨.str r, by simp [prepareForEncoding, h], rfl⟩
  · obtain ⟨l, rfl⟩ := encode_list hn
    refine ⟨.list l, ?_, rfl⟩
    have hpos := Item.encode_length_pos (.list l)
    rw [prepareForEncoding, if_pos ⟨hpos, h⟩, rlpDecode_encode]
    omega

theorem validRefs_prepare {bs : List Bytes} (h : ∀ r ∈ bs, ValidRef r) :
    ∃ xs, prepareAll bs = .ok xs ∧ xs.map prepareForUsage = bs := by
  induction bs with
  | nil => exact ⟨[], rfl, rfl⟩
  | cons r bs ih =>
    obtain ⟨xs, h1, h2⟩ := ih fun r hr => h r (List.mem_cons_of_mem _ hr)
    obtain ⟨x, h3, h4⟩ := validRef_prepare (h r List.mem_cons_self)
    exact ⟨x :: xs, by simp [prepareAll, h1, h3], by simp [h2, h4]⟩

/-- C37: every valid node can be encoded, and decoding gives the same node back (RLP cannot represent
2^64 bytes or more). -/
theorem C37_codec {n : Node} (h : ValidNode n) :
    ∃ b, n.encode = .ok b ∧ (b.length < 2 ^ 64 → ∃ n', Node.decode b = .ok n' ∧ SameNode n' n) := by
  cases n with
  | leaf p d =>
    obtain ⟨q, h1, _, h2⟩ := NibblePath.decodeWithType_spec true p.nibs
    refine ⟨_, by rw [Node.encode, NibblePath.encode_spec h]; rfl, fun hs => ⟨.leaf q d, ?_, h2, rfl⟩⟩
    unfold Node.decode
    rw [rlpDecode_encode _ hs]
    simp [h1, Node.asBytes]
  | ext p r =>
    obtain ⟨q, h1, _, h2⟩ := NibblePath.decodeWithType_spec false p.nibs
    obtain ⟨x, h3, h4⟩ := validRef_prepare h.2
    refine ⟨_, by rw [Node.encode, h3, NibblePath.encode_spec h.1]; rfl,
      fun hs => ⟨.ext q r, ?_, h2, rfl⟩⟩
    unfold Node.decode
    rw [rlpDecode_encode _ hs]
    simp [h1, h4]
  | branch bs d =>
    obtain ⟨xs, h1, h2⟩ := validRefs_prepare h.2
    have h16 : xs.length = 16 := by rw [← h.1, ← h2, List.length_map]
    refine ⟨_, by rw [Node.encode, h1]; rfl, fun hs => ⟨.branch bs d, ?_, rfl, rfl⟩⟩
    unfold Node.decode
    rw [rlpDecode_encode _ hs]
    simp [h16, h2, Node.asBytes, h.1]

/-- C37: different nodes have different encodings. -/
theorem C37_injective {n m : Node} (hn : ValidNode n) (hm : ValidNode m) {b : Bytes}
    (h1 : n.encode = .ok b) (h2 : m.encode = .ok b) (hs : b.length < 2 ^ 64) : SameNode n m := by
  obtain ⟨b1, e1, d1⟩ := C37_codec hn
  obtain ⟨b2, e2, d2⟩ := C37_codec hm
  rw [h1] at e1
  rw [h2] at e2
  cases e1
  cases e2
  obtain ⟨n1, g1, s1⟩ := d1 hs
  obtain ⟨n2, g2, s2⟩ := d2 hs
  rw [g1] at g2
  cases g2
  cases n <;> cases m <;> cases n1 <;> simp_all [SameNode]

/-- A branch with a digest and an embedded leaf. -/
example : ValidNode (.branch (List.replicate 14 [] ++
    [List.replicate 32 7, [0xC2, 0x31, 0x05]]) [1, 2]) := by
  refine ⟨by decide, fun r hr => ?_⟩
  simp only [List.mem_append, List.mem_replicate, List.mem_cons, List.not_mem_nil, or_false] at hr
  rcases hr with ⟨_, rfl⟩ | rfl | rfl
  · exact .inl rfl
  · exact .inr (.inl (by decide))
  · exact .inr (.inr ⟨by decide, .leaf ⟨[0x01], 1⟩ [5], by decide +kernel⟩)

end Props
end Pymt
