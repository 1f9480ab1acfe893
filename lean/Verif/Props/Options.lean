import Verif.Lemmas.Decoding
import Verif.Lemmas.Lookup
import Verif.Lemmas.Merkle
import Verif.Model.Options
import Verif.Model.Iterate
import Verif.Spec.Stop
import Verif.Props.Map

/-!
# Properties C71-C74: optional arguments and iteration
-/

namespace Pymt
namespace Props

/-! ### C71: nodes without their data -/

/-- The node with its value (not its references) replaced by the marker `b"1"`. -/
def marked : Node → Node
  | .leaf p _ => .leaf p [0x31]
  | .ext p r => .ext p r
  | .branch bs _ => .branch bs [0x31]

/-- The full statement of C71: nodes encoded without data can be decoded without data, and decoding a
complete node without data keeps whether there is a value. -/
def C71 : Prop :=
  (∀ (n : Node) (w : Bytes), n.encodeBare = .ok w → ∃ n', Node.decodeBare w = .ok n') ∧
  (∀ (v : Bytes) (bs : List Bytes) (d : Bytes), Node.decode v = .ok (.branch bs d) →
    ∃ d', Node.decodeBare v = .ok (.branch bs d') ∧ (d' = [] ↔ d = []))

/-- The first half of C71 is false, for every node: a leaf or extension has one item, a branch sixteen, and
`Node.decode` asserts two or seventeen. -/
theorem C71_encode_false (n : Node) (w : Bytes) (hn : ∀ bs d, n = .branch bs d → bs.length = 16)
    (h : n.encodeBare = .ok w) (hw : w.length < 2 ^ 64) :
    Node.decodeBare w = .error .assertion ∧ Node.decode w = .error .assertion := by
  have key : ∀ l : List Item, l.length = 1 ∨ l.length = 16 → w = Item.encode (.list l) →
      Node.decodeBare w = .error .assertion ∧ Node.decode w = .error .assertion := by
    intro l hl hwl
    have hr : rlpDecode w = .ok (.list l) := by rw [hwl]; exact rlpDecode_encode _ (by rw [← hwl]; exact hw)
    have h17 : ¬ l.length = 17 := by omega
    rw [Node.decodeBare, Node.decode, hr]
    simp only [Except.bind_ok', h17, if_false]
    match l, hl with
    | [], hl => simp at hl
    | [_], _ => exact ⟨rfl, rfl⟩
    | [_, _], hl => simp at hl
    | _ :: _ :: _ :: _, _ => exact ⟨rfl, rfl⟩
  have hall : ∀ (bs : List Bytes) (is : List Item), prepareAll bs = .ok is → is.length = bs.length := by
    intro bs
    induction bs with
    | nil => intro is h; simp [prepareAll] at h; subst h; rfl
    | cons b bs ih =>
      intro is h
      rw [prepareAll] at h
      cases h1 : prepareForEncoding b with
      | error e => rw [h1] at h; simp at h
      | ok i =>
        cases h2 : prepareAll bs with
        | error e => rw [h1, h2] at h; simp at h
        | ok js =>
          rw [h1, h2] at h
          simp at h
          subst h
          simp [ih js h2]
  cases n with
  | leaf p d =>
    rw [Node.encodeBare] at h
    cases hp : p.encode true with
    | error e => rw [hp] at h; simp at h
    | ok b => rw [hp] at h; simp at h; exact key _ (.inl rfl) h.symm
  | ext p r =>
    rw [Node.encodeBare] at h
    cases hr : prepareForEncoding r with
    | error e => rw [hr] at h; simp at h
    | ok i =>
      cases hp : p.encode false with
      | error e => rw [hr, hp] at h; simp at h
      | ok b => rw [hr, hp] at h; simp at h; exact key _ (.inl rfl) h.symm
  | branch bs d =>
    rw [Node.encodeBare] at h
    cases hr : prepareAll bs with
    | error e => rw [hr] at h; simp at h
    | ok is =>
      rw [hr] at h
      simp at h
      exact key is (.inr (by rw [hall bs is hr, hn bs d rfl])) h.symm

/-- A leaf, an extension and a branch to which `C71_encode_false` applies. -/
example : ∃ w, (Node.leaf ⟨[0x12], 0⟩ [5]).encodeBare = .ok w ∧ w.length < 2 ^ 64 :=
  ⟨[0xc3, 0x82, 0x20, 0x12], by decide +kernel, by decide⟩
example : ∃ w, (Node.ext ⟨[0x12], 1⟩ (List.replicate 32 7)).encodeBare = .ok w ∧ w.length < 2 ^ 64 :=
  ⟨[0xc1, 0x12], by decide +kernel, by decide⟩
example : ∃ w, (Node.branch (List.replicate 16 []) [5]).encodeBare = .ok w ∧ w.length < 2 ^ 64 :=
  ⟨0xd0 :: List.replicate 16 0x80, by decide +kernel, by decide⟩

/-- The branch without references and without a value. -/
def noValue : Bytes := 0xd1 :: List.replicate 17 0x80

/-- The second half of C71 is false as well: a branch without a value gets one. -/
theorem C71_value_false : Node.decode noValue = .ok (.branch (List.replicate 16 []) []) ∧
    Node.decodeBare noValue = .ok (.branch (List.replicate 16 []) [0x31]) := by
  constructor <;> decide +kernel

theorem C71_false : ¬ C71 := by
  intro h
  obtain ⟨d', h1, h2⟩ := h.2 noValue _ _ C71_value_false.1
  rw [C71_value_false.2] at h1
  simp only [Except.ok.injEq, Node.branch.injEq, true_and] at h1
  subst h1
  simp at h2

/-- C71 in part: what `Node.decode` accepts is also accepted without data, with the same path and the same
references; the value is replaced by the marker.  Missing: `C71_encode_false`, `C71_value_false`. -/
theorem C71_decode_partial {v : Bytes} {n : Node} (h : Node.decode v = .ok n) :
    Node.decodeBare v = .ok (marked n) := by
  obtain ⟨l, hl, hn⟩ := Node.decode_inv h
  rcases hn with ⟨c, p, d, hc, rfl⟩ | ⟨c, p, x, hc, rfl⟩ | ⟨rs, d, h16, rfl⟩
  · obtain ⟨r, hr, _, h'⟩ := Node.decode_leaf hl hc
    rw [h'] at h
    cases h
    rw [Node.decodeBare, hl]
    simp [hr, marked, Node.marker]
  · obtain ⟨r, hr, _, h'⟩ := Node.decode_ext hl hc
    rw [h'] at h
    cases h
    rw [Node.decodeBare, hl]
    simp [hr, marked]
  · rw [Node.decode_branch h16 hl] at h
    cases h
    rw [Node.decodeBare, hl]
    simp only [Except.bind_ok', List.length_append, h16, List.length_cons, List.length_nil, if_true]
    rw [List.take_left' h16]
    rfl

example : Node.decode [0xc2, 0x31, 0x05] = .ok (.leaf ⟨[0x31], 1⟩ [0x05]) := by decide +kernel

/-- Decoding without data accepts more: a leaf whose value is a list. -/
theorem C71_more : Node.decode [0xc2, 0x31, 0xc0] = .error .typeError ∧
    Node.decodeBare [0xc2, 0x31, 0xc0] = .ok (.leaf ⟨[0x31], 1⟩ [0x31]) := by
  constructor <;> decide +kernel

/-! ### C72: `contains` with `hash_key=False` -/

/-- C72 outside secure mode and with the default: the flag has no effect. -/
theorem C72_flag (E : Env) (t : MPT) (k : Bytes) :
    t.containsWith E k true = t.contains E k ∧
    (t.secure = false → t.containsWith E k false = t.contains E k) := by
  unfold MPT.containsWith MPT.contains MPT.keyOf
  refine ⟨by simp only [Bool.and_true]; rfl, fun h => ?_⟩
  simp only [h, Bool.false_and, Bool.false_eq_true, if_false]
  rfl

/-- C72: with `hash_key=False` a secure trie says for every byte string, of any length, whether it is the
hash of a present key. -/
theorem C72_hashed {E : Env} {ops : List Op} {x : Bytes} (h : Valid E true ops [])
    (hx : Fits E false x) :
    ∃ b, (MPT.after E true ops).containsWith E x false = .ok b ∧
      (b = true ↔ ∃ k, contents ops k ≠ none ∧ E.keccak k = x) := by
  have hinv := h.inv
  have heff : ∀ e, eff E true ops e ≠ none ↔ ∃ k, contents ops k ≠ none ∧ E.keccak k = e := by
    intro e
    rw [eff_present h]
    constructor
    · rintro ⟨k, h1, h2⟩; exact ⟨k, h1, h2.symm⟩
    · rintro ⟨k, h1, h2⟩; exact ⟨k, h1, h2.symm⟩
  have hinv' : Inv E { MPT.after E true ops with secure := false } (eff E true ops) := by
    obtain ⟨a, h1, h2, h3, h4⟩ := hinv
    exact ⟨a, ⟨h1.shape, h1.stored, h1.good, h1.root⟩, h2, h3, h4⟩
  have he : (MPT.after E true ops).containsWith E x false =
      ({ MPT.after E true ops with secure := false } : MPT).contains E x := by
    unfold MPT.containsWith MPT.contains MPT.keyOf
    simp only [Bool.and_false, Bool.false_eq_true, if_false]
    rfl
  have h1 := hinv'.contains_true_iff h.log hx
  have hlen : ∀ e, eff E true ops e ≠ none → e.length = 32 := by
    intro e hh
    obtain ⟨k, _, rfl⟩ := (heff e).1 hh
    exact E.keccak_len k
  have h2 : ({ MPT.after E true ops with secure := false } : MPT).contains E x = .ok true ↔
      ∃ k, contents ops k ≠ none ∧ E.keccak k = x := by
    rw [h1, ← heff]
    simp only [MPT.keyOf, Bool.false_eq_true, if_false]
    refine ⟨?_, .inl⟩
    rintro (h | ⟨k', i, _, ⟨v, _, hv⟩, ⟨k'', hne, hpre, hk''⟩, _⟩)
    · exact h
    · exact absurd (hpre.eq_of_length (by rw [hlen k' (by rw [hv]; simp), hlen k'' hk''])).symm hne
  rw [he]
  rcases hinv'.contains_total h.log hx with hc | hc
  · exact ⟨true, hc, by rw [← h2, hc]; simp⟩
  · exact ⟨false, hc, by rw [← h2, hc]; simp⟩

/-- C72: asking for the hash with `hash_key=False` is asking for the key. -/
theorem C72_same (E : Env) (t : MPT) (k : Bytes) (h : t.secure = true) :
    t.containsWith E (E.keccak k) false = t.contains E k := by
  unfold MPT.containsWith MPT.contains MPT.keyOf
  simp only [h, Bool.and_false, Bool.false_eq_true, if_false, if_true]
  rfl

example : Valid toyEnv true secureOps [] ∧ Fits toyEnv false (toyEnv.keccak [0x12]) :=
  ⟨valid_of (by decide +kernel), by decide +kernel⟩
example : (MPT.after toyEnv true secureOps).containsWith toyEnv (toyEnv.keccak [0x12]) false = .ok true ∧
    (MPT.after toyEnv true secureOps).containsWith toyEnv [0x12] false = .ok false := by
  constructor <;> decide +kernel

/-! ### C73: hashing a list -/

/-- The full statement of C73: different lists have different hashes, unless the hash function itself is
broken on the byte strings involved. -/
def C73 : Prop := ∀ (E : Env) (xs ys : List Bytes), CollFree E [xs.flatten, ys.flatten] →
  keccakHashList E xs false = keccakHashList E ys false → xs = ys

theorem feed_foldl (xs : List Bytes) : ∀ b, (xs.foldl Hasher.feed ⟨b⟩).fed = b ++ xs.flatten := by
  induction xs with
  | nil => intro b; simp
  | cons x xs ih => intro b; rw [List.foldl_cons, Hasher.feed, ih]; simp

/-- C73: the hash of a list is the hash of its concatenation, in both output formats. -/
theorem C73_concat (E : Env) (xs : List Bytes) (hex : Bool) :
    keccakHashList E xs hex = keccakHash E xs.flatten hex := by
  unfold keccakHashList keccakHash
  simp only [feed_foldl, Hasher.feed]

/-- C73 is false: the boundaries of the items are not part of the hash. -/
theorem C73_false : ¬ C73 := by
  intro h
  have := h toyEnv [[1], [2]] [[1, 2]] (collFree_of (by decide +kernel)) (by rw [C73_concat, C73_concat]; rfl)
  simp at this

/-- C73 in part: lists with items of the same lengths, in both output formats.  Missing: `C73_false`. -/
theorem C73_lengths_partial {E : Env} {xs ys : List Bytes} {hex : Bool}
    (hc : CollFree E [xs.flatten, ys.flatten]) (hl : xs.map List.length = ys.map List.length)
    (h : keccakHashList E xs hex = keccakHashList E ys hex) : xs = ys := by
  have hflat : xs.flatten = ys.flatten := by
    rw [C73_concat, C73_concat] at h
    have : E.keccak xs.flatten = E.keccak ys.flatten := by
      cases hex with
      | false => simpa [keccakHash, Hasher.feed] using h
      | true => exact hexOf_inj (by simpa [keccakHash, Hasher.feed] using h)
    exact hc _ (by simp) _ (by simp) this
  clear h hc
  induction xs generalizing ys with
  | nil => cases ys with
    | nil => rfl
    | cons y ys => simp at hl
  | cons x xs ih => cases ys with
    | nil => simp at hl
    | cons y ys =>
      simp only [List.map_cons, List.cons.injEq] at hl
      simp only [List.flatten_cons] at hflat
      obtain ⟨h1, h2⟩ := List.append_inj hflat hl.1
      rw [h1, ih hl.2 h2]

example : CollFree toyEnv [[[1], [2, 3]].flatten, [[4], [5, 6]].flatten] := collFree_of (by decide +kernel)

/-! ### C74: iterating over a proof -/

/-- The full statement of C74: loops over one proof do not disturb each other. -/
def C74 : Prop := ∀ (o : ProofObj) (r : Nat), 6 ≤ r →
  ∃ l o', ProofObj.pairs r o = .ok (l, o') ∧
    l.flatten = o.fields.items.flatMap fun x => o.fields.items.map fun y => (x, y)

theorem loop_quiet {β : Type} (body : FieldName × Field → ProofObj → Py (β × ProofObj))
    (f : FieldName × Field → β) (p : Proof Entry) (hb : ∀ x c, body x ⟨p, c⟩ = .ok (f x, ⟨p, c⟩))
    (data : List (FieldName × Field)) : ∀ (k r n : Nat), data.length = n + k → k < r →
      ProofObj.loop body r ⟨p, some (data, n)⟩ = .ok ((data.drop n).map f, ⟨p, some (data, data.length)⟩) := by
  intro k
  induction k with
  | zero =>
    intro r n hn hr
    cases r with
    | zero => omega
    | succ r =>
      have hnone : data[n]? = none := List.getElem?_eq_none (by omega)
      have hd : data.drop n = [] := List.drop_eq_nil_of_le (by omega)
      have : n = data.length := by omega
      rw [ProofObj.loop, ProofObj.next]
      simp only [hnone, Except.bind_ok', Except.pure_ok', hd, List.map_nil]
      rw [← this]
  | succ k ih =>
    intro r n hn hr
    cases r with
    | zero => omega
    | succ r =>
      have hlt : n < data.length := by omega
      have hsome : data[n]? = some data[n] := List.getElem?_eq_getElem hlt
      rw [ProofObj.loop, ProofObj.next]
      simp only [hsome, Except.bind_ok', hb, ih r (n + 1) (by omega) (by omega), Except.pure_ok']
      rw [List.drop_eq_getElem_cons hlt]
      rfl

/-- C74 in part: a loop whose body does not iterate over the proof itself gets the five fields in order,
whatever was done with the object before. -/
theorem C74_loop_partial {β : Type} (body : FieldName × Field → ProofObj → Py (β × ProofObj))
    (f : FieldName × Field → β) (o : ProofObj)
    (hb : ∀ x c, body x ⟨o.fields, c⟩ = .ok (f x, ⟨o.fields, c⟩)) (r : Nat) (hr : 6 ≤ r) :
    ∃ o', ProofObj.forEach body r o = .ok (o.fields.items.map f, o') ∧ o'.fields = o.fields :=
  ⟨_, loop_quiet body f o.fields hb o.fields.items 5 r 0 rfl (by omega), rfl⟩

/-- C74 in part: `list(proof)`. -/
theorem C74_list_partial (o : ProofObj) (r : Nat) (hr : 6 ≤ r) :
    ∃ o', ProofObj.toList r o = .ok (o.fields.items, o') ∧ o'.fields = o.fields := by
  obtain ⟨o', h, h'⟩ := C74_loop_partial (fun x o => .ok (x, o)) id o (fun _ _ => rfl) r hr
  exact ⟨o', by rw [List.map_id] at h; exact h, h'⟩

/-- C74, what nested loops really do, for every proof: the outer loop ends after its first round. -/
theorem C74_nested (o : ProofObj) (r : Nat) (hr : 6 ≤ r) :
    ∃ o', ProofObj.pairs r o =
      .ok ([o.fields.items.map fun y => ((.proofType, .bytes o.fields.type), y)], o') := by
  obtain ⟨r, rfl⟩ : ∃ s, r = s + 2 := ⟨r - 2, by omega⟩
  have hin : ∀ (x : FieldName × Field) c, ProofObj.forEach (fun y o => .ok ((x, y), o)) (r + 2) ⟨o.fields, c⟩ =
      .ok (o.fields.items.map fun y => (x, y), ⟨o.fields, some (o.fields.items, 5)⟩) := fun x c =>
    loop_quiet (fun y o => .ok ((x, y), o)) (fun y => (x, y)) o.fields (fun _ _ => rfl) o.fields.items 5
      (r + 2) 0 rfl (by omega)
  refine ⟨⟨o.fields, some (o.fields.items, 5)⟩, ?_⟩
  unfold ProofObj.pairs
  rw [ProofObj.forEach, ProofObj.iter, ProofObj.loop, ProofObj.next]
  have h0 : o.fields.items[0]? = some (.proofType, .bytes o.fields.type) := rfl
  have h5 : o.fields.items[5]? = none := rfl
  simp only [h0, Except.bind_ok', hin, ProofObj.loop, ProofObj.next, h5, Except.pure_ok']

theorem C74_false : ¬ C74 := by
  intro h
  obtain ⟨l, o', h1, h2⟩ := h ⟨⟨mtPoi, [], [], [], []⟩, none⟩ 6 (by decide)
  obtain ⟨o'', h3⟩ := C74_nested ⟨⟨mtPoi, [], [], [], []⟩, none⟩ 6 (by decide)
  rw [h3] at h1
  simp only [Except.ok.injEq, Prod.mk.injEq] at h1
  rw [← h1.1] at h2
  have := congrArg List.length h2
  simp [Proof.items] at this

end Props
end Pymt
