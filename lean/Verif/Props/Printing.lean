import Verif.Model.Printing
import Verif.Lemmas.Equality
import Verif.Props.Equality
import Verif.Props.Keys
import Verif.Props.Merkle

/-!
# What proofs and trees say about themselves (C159–C162)
-/

namespace Pymt.Props

/-! ### C159: the type of a proof -/

/-- The claim: a proof is accepted only for what its type says. -/
def C159 : Prop :=
  (∀ (E : Env) (t : MPT) (p : Proof Bytes), t.verifyPoi E p = .ok true → p.type = mptPoi) ∧
  (∀ (E : Env) (t : MPT) (p : Proof Bytes), t.verifyPoe E p = .ok true → p.type = mptPoe) ∧
  (∀ (H : HashFn) (t : MTree) (p : Proof (Bytes × Bytes)), (MTree.verifyPoi H p t).1 = .ok true → p.type = mtPoi)

/-- **C159** is false: a `MerkleTree` takes a proof of inclusion that calls itself a proof of exclusion for an MPT. -/
theorem C159_false : ¬ C159 := by
  intro h
  have := h.2.2 toyHash ⟨false, [[1], [2]], none, false⟩
    ⟨mptPoe, [], [1], hexOf (toyHash.hash [1, 2]), [(MTree.right, hexOf [2])]⟩ (by decide +kernel)
  exact absurd this (by decide)

/-- **C159** (part) Tries look at the type first, whatever the trie and the proof hold: with another type they raise TypeError. -/
theorem C159_trie_partial (E : Env) (t : MPT) (p : Proof Bytes) :
    (p.type ≠ mptPoi → t.verifyPoi E p = .error .typeError) ∧ (p.type ≠ mptPoe → t.verifyPoe E p = .error .typeError) := by
  constructor <;> intro h
  · unfold MPT.verifyPoi; rw [if_pos h]
  · unfold MPT.verifyPoe; rw [if_pos h]

/-- **C159** (part) No proof is accepted by one trie as a proof of inclusion and by another, or the same, as one of exclusion. -/
theorem C159_apart_partial (E : Env) (t u : MPT) (p : Proof Bytes) (b : Bool) (h : t.verifyPoi E p = .ok b) :
    u.verifyPoe E p = .error .typeError := by
  refine (C159_trie_partial E u p).2 fun hp => ?_
  rw [(C159_trie_partial E t p).1 (by rw [hp]; decide)] at h
  exact nomatch h

/-- **C159** (part) A `MerkleTree` looks at neither type nor timestamp: the outcome is the same for all of them. -/
theorem C159_merkle_partial (H : HashFn) (t : MTree) (p : Proof (Bytes × Bytes)) (ty ts : Bytes) :
    MTree.verifyPoi H { p with type := ty, timestamp := ts } t = MTree.verifyPoi H p t := rfl

/-- A trie that accepts a proof of inclusion. -/
def typedProof : Proof Bytes := ((MPT.after toyEnv false [.update [0x12] (bigValue 1)]).getPoi toyEnv [] [0x12]).toOption.getD ⟨[], [], [], [], []⟩

example : (MPT.after toyEnv false [.update [0x12] (bigValue 1)]).verifyPoi toyEnv typedProof = .ok true ∧
    (MPT.after toyEnv false [.update [0x12] (bigValue 1)]).verifyPoi toyEnv { typedProof with type := mptPoe } = .error .typeError ∧
    (MPT.after toyEnv false [.update [0x12] (bigValue 1)]).verifyPoe toyEnv typedProof = .error .typeError := by decide +kernel

/-! ### C160: the text of a proof -/

/-- **C160** `repr` of a proof shows everything: proofs with the same text are the same in type, timestamp, key, root and
entries. -/
theorem C160_repr (p q : Proof Entry) : p.repr = q.repr ↔ p = q := by
  refine ⟨fun h => ?_, fun h => by rw [h]⟩
  unfold Proof.repr at h
  have h := List.append_cancel_left h
  obtain ⟨e1, h⟩ := delimited_bytes _ _ _ _ h
  have h := List.append_cancel_left h
  obtain ⟨e2, h⟩ := delimited_bytes _ _ _ _ h
  have h := List.append_cancel_left h
  obtain ⟨e3, h⟩ := delimited_bytes _ _ _ _ h
  have h := List.append_cancel_left h
  obtain ⟨e4, h⟩ := delimited_bytes _ _ _ _ h
  have h := List.append_cancel_left h
  obtain ⟨e5, _⟩ := delimited_tuple delimited_entry reprEntry_head _ _ _ _ h
  cases p; cases q
  simp_all

/-- **C160** `==` says of two proofs that they are equal exactly if they print the same, unless keccak-256 collides on the texts
that `==` hashes. -/
theorem C160_eq (E : Env) (p q : Proof Entry) (hc : E.keccak p.dictRepr = E.keccak q.dictRepr → p.dictRepr = q.dictRepr) :
    ∃ e, p.eq E q = .ok e ∧ (e = true ↔ p.repr = q.repr) := by
  obtain ⟨_, e, h1, h2⟩ := C60_eq E p q hc
  exact ⟨e, h1, h2.trans (C160_repr p q).symm⟩

/-- Printable text only: whatever bytes key, root and entries hold, the text consists of printable ASCII characters, so that it
can be written to any log, on one line. -/
def Printable (s : Bytes) : Prop := ∀ c ∈ s, 32 ≤ c ∧ c < 127

theorem printable_append {s t : Bytes} (hs : Printable s) (ht : Printable t) : Printable (s ++ t) := fun c hc =>
  (List.mem_append.1 hc).elim (hs c) (ht c)

theorem printable_reprByte (q : UInt8) (hq : q = 39 ∨ q = 34) (c : UInt8) : Printable (reprByte q c) := by
  have : ∀ q : UInt8, q = 39 ∨ q = 34 → ∀ n : Fin 256, ∀ x ∈ reprByte q (UInt8.ofNat n.1), 32 ≤ x ∧ x < 127 := by
    intro q hq
    rcases hq with rfl | rfl <;> decide +kernel
  have h := this q hq ⟨c.toNat, c.toNat_lt⟩
  rw [UInt8.ofNat_toNat] at h
  exact h

theorem printable_reprBytes (b : Bytes) : Printable (reprBytes b) := by
  unfold reprBytes
  have main : ∀ q : UInt8, q = 39 ∨ q = 34 → Printable (98 :: q :: (b.flatMap (reprByte q) ++ [q])) := by
    intro q hq c hc
    have hq' : 32 ≤ q ∧ q < 127 := by rcases hq with rfl | rfl <;> decide
    rcases List.mem_cons.1 hc with rfl | hc
    · decide
    rcases List.mem_cons.1 hc with rfl | hc
    · exact hq'
    rcases List.mem_append.1 hc with hc | hc
    · obtain ⟨x, _, hx⟩ := List.mem_flatMap.1 hc
      exact printable_reprByte q hq x c hx
    · rw [List.mem_singleton] at hc
      subst hc
      exact hq'
  split
  · exact main 34 (.inr rfl)
  · exact main 39 (.inl rfl)

theorem printable_cons {c : UInt8} {s : Bytes} (hc : 32 ≤ c ∧ c < 127) (hs : Printable s) : Printable (c :: s) := fun x hx =>
  (List.mem_cons.1 hx).elim (fun e => e ▸ hc) (hs x)

theorem printable_rest {α : Type} {f : α → Bytes} (hf : ∀ a, Printable (f a)) : ∀ l, Printable (reprRest f l)
  | [] => printable_cons (by decide) fun _ h => absurd h List.not_mem_nil
  | x :: xs => printable_cons (by decide) (printable_cons (by decide) (printable_append (hf x) (printable_rest hf xs)))

theorem printable_tuple {α : Type} {f : α → Bytes} (hf : ∀ a, Printable (f a)) : ∀ l, Printable (reprTuple f l)
  | [] => printable_cons (by decide) (printable_cons (by decide) fun _ h => absurd h List.not_mem_nil)
  | [x] => printable_cons (by decide) (printable_append (hf x) (by unfold Printable; decide))
  | x :: y :: ys => printable_cons (by decide) (printable_append (hf x) (printable_rest hf _))

/-- **C160** The text of a proof has only printable ASCII characters. -/
theorem C160_printable (p : Proof Entry) : Printable p.repr := by
  have he : ∀ e, Printable (reprEntry e) := by
    intro e
    cases e with
    | bytes b => exact printable_reprBytes b
    | tuple l => exact printable_tuple printable_reprBytes l
  unfold Proof.repr
  refine printable_append (by unfold Printable Proof.sType; decide) (printable_append (printable_reprBytes _)
    (printable_append (by unfold Printable Proof.sTime; decide) (printable_append (printable_reprBytes _)
    (printable_append (by unfold Printable Proof.sKey; decide) (printable_append (printable_reprBytes _)
    (printable_append (by unfold Printable Proof.sRoot; decide) (printable_append (printable_reprBytes _)
    (printable_append (by unfold Printable Proof.sProof; decide) (printable_append (printable_tuple he _)
    (by unfold Printable; decide))))))))))

/-- Quotes, line ends and bytes that are no ASCII. -/
example : Proof.repr ⟨mtPoi, [50], [39, 10, 200], [1], [.tuple [[34, 39], []]]⟩ ≠
    Proof.repr ⟨mtPoi, [50], [39, 10, 200], [1], [.tuple [[34, 39]]]⟩ := by decide

/-! ### C161: the text of a Merkle tree -/

/-- The claim: Merkle trees that print the same have the same leaves. -/
def C161 : Prop :=
  ∀ (f : Bytes → Bytes) (ar ar' : Nat → Nat → Bool) (t u : MTree), Delimited f → t.str f ar = u.str f ar' → t.leaves = u.leaves

/-- **C161** is false: before `make_tree` every tree prints `Tree not ready`. -/
theorem C161_false : ¬ C161 := by
  intro h
  have := h reprBytes (fun _ _ => true) (fun _ _ => true) ⟨false, [[1]], none, false⟩ ⟨false, [[2]], none, false⟩ delimited_bytes rfl
  exact absurd this (by decide)

theorem reprMore_inj {α : Type} {f : α → Bytes} (hf : Delimited f) : ∀ (a b : List α) (r r' : Bytes),
    reprMore f a ++ r = reprMore f b ++ r' → a = b ∧ r = r'
  | [], [], r, r', h => by simpa [reprMore] using h
  | [], y :: ys, r, r', h => by simp [reprMore] at h
  | x :: xs, [], r, r', h => by simp [reprMore] at h
  | x :: xs, y :: ys, r, r', h => by
    simp only [reprMore, List.cons_append, List.append_assoc, List.cons.injEq, true_and] at h
    obtain ⟨rfl, h'⟩ := hf _ _ _ _ h
    obtain ⟨rfl, rfl⟩ := reprMore_inj hf xs ys r r' h'
    exact ⟨rfl, rfl⟩

theorem delimited_list {α : Type} {f : α → Bytes} (hf : Delimited f) (hh : ∀ a, ∃ x xs, f a = x :: xs ∧ x ≠ 93) :
    Delimited (reprList f) := by
  intro a b r r' h
  match a, b with
  | [], [] => simpa [reprList] using h
  | [], y :: ys =>
    obtain ⟨x, xs, e, hx⟩ := hh y
    simp [reprList, e] at h
    exact absurd h.1.symm hx
  | y :: ys, [] =>
    obtain ⟨x, xs, e, hx⟩ := hh y
    simp [reprList, e] at h
    exact absurd h.1 hx
  | x :: xs, y :: ys =>
    simp only [reprList, List.cons_append, List.append_assoc, List.cons.injEq, true_and] at h
    obtain ⟨rfl, h'⟩ := hf _ _ _ _ h
    obtain ⟨rfl, rfl⟩ := reprMore_inj hf xs ys r r' h'
    exact ⟨rfl, rfl⟩

theorem reprList_head {α : Type} (f : α → Bytes) : ∀ l, ∃ xs, reprList f l = 91 :: xs
  | [] => ⟨_, rfl⟩
  | _ :: _ => ⟨_, rfl⟩

theorem nodeText_head (f : Bytes → Bytes) (x : Bool × Bytes) : ∃ c s, MTree.nodeText f x = c :: s ∧ c ≠ 93 := by
  obtain ⟨_ | _, b⟩ := x
  · exact ⟨_, _, rfl, by decide⟩
  · exact ⟨_, _, rfl, by decide⟩

theorem delimited_node {f : Bytes → Bytes} (hf : Delimited f) : Delimited (MTree.nodeText f) := by
  have hq : ∀ b, ∃ q s, reprBytes b = 98 :: q :: s ∧ q ≠ 121 := by
    intro b
    unfold reprBytes
    split
    · exact ⟨34, _, rfl, by decide⟩
    · exact ⟨39, _, rfl, by decide⟩
  rintro ⟨_ | _, a⟩ ⟨_ | _, b⟩ r r' h
  · obtain ⟨rfl, rfl⟩ := delimited_bytes a b r r' h
    exact ⟨rfl, rfl⟩
  · obtain ⟨q, s, e, hne⟩ := hq a
    simp [MTree.nodeText, e] at h
    exact absurd h.1 hne
  · obtain ⟨q, s, e, hne⟩ := hq b
    simp [MTree.nodeText, e] at h
    exact absurd h.1.symm hne
  · simp only [MTree.nodeText, List.append_assoc] at h
    obtain ⟨rfl, h'⟩ := hf _ _ _ _ (List.append_cancel_left h)
    exact ⟨rfl, by simpa using h'⟩

theorem mapIdx_snd {α β : Type} (g : Nat → α → β) (p : β → α) (hp : ∀ i a, p (g i a) = a) (l : List α) : (l.mapIdx g).map p = l := by
  apply List.ext_getElem?
  intro i
  simp [List.getElem?_map, List.getElem?_mapIdx, Function.comp_def, hp]

/-- **C161** (part) A tree that has been made, with at least one leaf, shows all of its levels: no other tree prints like it,
unless it is as ready and has the same levels, and so the same leaves and the same root. -/
theorem C161_partial (f : Bytes → Bytes) (hf : Delimited f) (ar ar' : Nat → Nat → Bool) (t u : MTree) (ls : List (List Bytes))
    (ht : t.ready = true) (hl : t.levels = some ls) (h : t.str f ar = u.str f ar') :
    u.ready = true ∧ u.levels = some ls ∧ u.leaves = t.leaves ∧ u.rootRaw = t.rootRaw := by
  have hd := delimited_list (delimited_list (delimited_node hf) (nodeText_head f)) fun a => by
    obtain ⟨xs, e⟩ := reprList_head (MTree.nodeText f) a
    exact ⟨91, xs, e, by decide⟩
  have key : u.ready = true ∧ u.levels = some ls := by
    unfold MTree.str at h
    rw [if_pos ht, hl] at h
    obtain ⟨xs, e⟩ := reprList_head (reprList (MTree.nodeText f)) (ls.mapIdx fun i l => l.mapIdx fun j b => (ar i j, b))
    cases hu : u.ready with
    | false =>
      rw [hu] at h
      simp [e, MTree.notReadyText] at h
    | true =>
      rw [hu, if_pos rfl] at h
      cases hv : u.levels with
      | none => rw [hv] at h; simp [e] at h
      | some ls' =>
        rw [hv] at h
        refine ⟨rfl, congrArg some ?_⟩
        obtain ⟨e1, _⟩ := hd _ _ [] [] (by simpa using h)
        have e2 := congrArg (List.map fun l : List (Bool × Bytes) => l.map Prod.snd) e1
        rw [mapIdx_snd _ _ (fun i l => mapIdx_snd _ _ (fun _ _ => rfl) l), mapIdx_snd _ _ (fun i l => mapIdx_snd _ _ (fun _ _ => rfl) l)] at e2
        exact e2.symm
  refine ⟨key.1, key.2, ?_, ?_⟩
  · have h1 := key.2
    unfold MTree.levels at h1 hl
    cases hu : u.upper with
    | none => rw [hu] at h1; exact nomatch h1
    | some a =>
      cases ht' : t.upper with
      | none => rw [ht'] at hl; exact nomatch hl
      | some b =>
        rw [hu] at h1
        rw [ht'] at hl
        have := (Option.some.inj h1).trans (Option.some.inj hl).symm
        exact (List.append_inj_right' this rfl |> List.cons.inj).1
  · unfold MTree.rootRaw
    rw [key.1, key.2, ht, hl]

/-- **C161** (part) The three things a tree may print: `Tree not ready`, `None` for a tree that was made without a leaf, and its
levels; they begin differently. -/
theorem C161_cases_partial (f : Bytes → Bytes) (ar : Nat → Nat → Bool) (t : MTree) :
    (t.str f ar = MTree.notReadyText ↔ t.ready = false) ∧
    (t.str f ar = [78, 111, 110, 101] ↔ t.ready = true ∧ t.levels = none) ∧
    ((∃ s, t.str f ar = 91 :: s) ↔ t.ready = true ∧ ∃ ls, t.levels = some ls) := by
  unfold MTree.str
  cases hr : t.ready with
  | false => simp [MTree.notReadyText]
  | true =>
    cases hl : t.levels with
    | none => simp [MTree.notReadyText]
    | some ls =>
      obtain ⟨xs, e⟩ := reprList_head (reprList (MTree.nodeText f)) (ls.mapIdx fun i l => l.mapIdx fun j b => (ar i j, b))
      simp [e, MTree.notReadyText]

/-- A tree that was made: its text, and the text after one more leaf, which shows the new leaf below the old root. -/
def printedTree : MTree := (MTree.make toyHash ⟨false, [[1], [2], [3]], none, false⟩).2

example : printedTree.ready = true ∧ printedTree.levels ≠ none ∧
    (MTree.put toyHash [4] printedTree).2.str reprBytes (fun _ _ => false) ≠ printedTree.str reprBytes (fun _ _ => false) ∧
    (MTree.put toyHash [4] printedTree).2.rootRaw = printedTree.rootRaw := by decide +kernel

/-! ### C162: loops over a trie -/

/-- The claim: `list(trie)` gives the keys of a trie. -/
def C162 : Prop :=
  ∀ (E : Env) (secure : Bool) (ops : List Op) (keys : List Bytes), Valid E secure ops keys →
    ∃ n l, (MPT.after E secure ops).listing E n [] = some (.ok l) ∧ ∀ k ∈ keys, contents ops k ≠ none → k ∈ l

/-- What a loop over a trie asks for first. -/
theorem getAny_other {E : Env} {secure : Bool} {ops : List Op} {k : Bytes} (h : Valid E secure ops [k]) (hk : contents ops k ≠ none) :
    (MPT.after E secure ops).getAny E .other = .error .typeError := by
  have he := h.eff_key (k := k) (by simp)
  have hfit := fits_nibs (h.fit (k := k) (by simp))
  obtain ⟨a, h1, h2, h3, h4⟩ := h.inv
  have hne : a ≠ .empty := by
    rintro rfl
    have := h3 ((MPT.after E secure ops).keyOf E k)
    rw [he] at this
    exact hk this.symm
  have hrf := h1.rootFalsy hne
  obtain ⟨n, hn, _⟩ := MPT.root_node h1 hne
  obtain ⟨f, hf⟩ : ∃ f, E.limit = f + 1 := ⟨E.limit - 1, by omega⟩
  by_cases hs : (MPT.after E secure ops).secure = true
  · simp [MPT.getAny, MPT.getAny.getBad, MPT.badPath, hrf, hs]
  · simp [MPT.getAny, MPT.getAny.getBad, MPT.badPath, hrf, hs, hf, MPT.getAuxBad, hn, BadPath.len]

/-- **C162** (part, what there is instead) A loop over a trie that has a key raises TypeError before its first round. -/
theorem C162_raises_partial {E : Env} {secure : Bool} {ops : List Op} {k : Bytes} (h : Valid E secure ops [k])
    (hk : contents ops k ≠ none) (n : Nat) (got : List Bytes) :
    (MPT.after E secure ops).listing E (n + 1) got = some (.error .typeError) := by
  unfold MPT.listing
  rw [getAny_other h hk]

/-- **C162** (part) Not even for a trie without keys is there a loop of no rounds: over a new trie it raises KeyError, or TypeError
in secure mode, and over a trie whose last key was deleted ValueError. -/
theorem C162_empty_partial (E : Env) (hl : 0 < E.limit) (n : Nat) (got : List Bytes) (t : MPT) :
    (MPT.new E false).listing E (n + 1) got = some (.error .keyError) ∧
    (MPT.new E true).listing E (n + 1) got = some (.error .typeError) ∧
    (t.root = none → t.listing E (n + 1) got = some (.error .valueError)) := by
  obtain ⟨f, hf⟩ : ∃ f, E.limit = f + 1 := ⟨E.limit - 1, by omega⟩
  have hne := T.emptyHash_ne_nil E
  have h32 : (emptyHash E).length = 32 := E.keccak_len _
  refine ⟨?_, ?_, fun ht => ?_⟩
  · simp [MPT.listing, MPT.new, MPT.init, MPT.getAny, MPT.getAny.getBad, MPT.rootFalsy, MPT.badPath, hf, MPT.getAuxBad, MPT.getNode, hne, h32, dgetItem, dget, Store.empty]
  · simp [MPT.listing, MPT.new, MPT.init, MPT.getAny, MPT.getAny.getBad, MPT.rootFalsy, MPT.badPath, hne]
  · simp [MPT.listing, MPT.getAny, MPT.getAny.getBad, MPT.rootFalsy, ht]

/-- **C162** is false. -/
theorem C162_false : ¬ C162 := by
  intro h
  have hv : Valid toyEnv false [.update [0x12] [1]] [[0x12]] := valid_of (by decide +kernel)
  obtain ⟨n, l, h1, _⟩ := h toyEnv false [.update [0x12] [1]] [[0x12]] hv
  cases n with
  | zero => exact nomatch h1
  | succ n =>
    rw [C162_raises_partial hv (by decide) n []] at h1
    exact nomatch h1

example : Valid toyEnv false [.update [0x12] [1]] [[0x12]] ∧ contents [.update [0x12] [1]] [0x12] ≠ none ∧ 0 < toyEnv.limit ∧
    (MPT.after toyEnv false [.update [0x12] [1], .delete [0x12]]).root = none :=
  ⟨valid_of (by decide +kernel), by decide, by decide, by decide +kernel⟩

end Pymt.Props
