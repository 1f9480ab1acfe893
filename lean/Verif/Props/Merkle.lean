import Verif.Lemmas.MerkleBind

/-!
# Properties of `MerkleTree` (C38–C43, C54, C55)

`H` is the hash function chosen in the constructor; `held ops` are the values put since the last reset.
-/

namespace Pymt.Props

open MTree

/-- A small hash function for the examples. -/
def toyHash : HashFn where
  hash b := [UInt8.ofNat b.length, b.foldl (fun a x => 31 * a + x) 7]
  size := 2
  hash_len _ := rfl

/-- Four values, one of them twice, put in with a reset and a query for the root in between. -/
def sampleOps : List MOp :=
  [.put [9], .root, .reset, .put [1, 2], .put [3], .put [], .root, .put [3], .put [5, 5, 5]]

example : held sampleOps = [[1, 2], [3], [], [3], [5, 5, 5]] := by decide

/-! ### C38: with `secure=False` the proof of every value verifies -/

theorem C38_verifies (H : HashFn) (ops : List MOp) (v now : Bytes) (hv : v ∈ held ops) :
    ∃ p, getPoi H now v (after H false (ops ++ [.make])) = (.ok p, after H false (ops ++ [.make])) ∧
      p.targetKey = v ∧ p.type = mtPoi ∧
      verifyPoi H p (after H false (ops ++ [.make])) = (.ok true, after H false (ops ++ [.make])) := by
  have hne : held ops ≠ [] := List.ne_nil_of_mem hv
  rw [after_make H false ops hne]
  obtain ⟨ps, h1, h2, h3⟩ := built_poi H false ((held ops).map (leafOf H false)) now v
    (List.mem_map_of_mem hv)
  refine ⟨_, h1, rfl, rfl, ?_⟩
  rw [built_verify H false _ (by simpa using hne) _ _ _ _ h2]
  rw [show leafOf H false v = v from rfl] at h3
  rw [verifyRaw_eq H ps v _ _ h3]
  simp

example : ([3] : Bytes) ∈ held sampleOps := by decide
example : (getPoi toyHash [] [3] (after toyHash false (sampleOps ++ [.make]))).1.map (·.proof.length) =
    .ok 3 := by decide +kernel
/-- The proof of the last, odd leaf skips the levels where it has no sibling. -/
example : (getPoi toyHash [] [5, 5, 5] (after toyHash false (sampleOps ++ [.make]))).1.map (·.proof.length) =
    .ok 1 := by decide +kernel

/-! ### C39: in the default mode proofs are rejected -/

/-- The claim: proofs verify in the default mode `secure=True`. -/
def C39 : Prop :=
  ∀ (H : HashFn) (ops : List MOp) (v now : Bytes), v ∈ held ops →
    ∃ p, (getPoi H now v (after H true (ops ++ [.make]))).1 = .ok p ∧
      (verifyPoi H p (after H true (ops ++ [.make]))).1 = .ok true

theorem C39_false : ¬ C39 := by
  intro h
  obtain ⟨p, h1, h2⟩ := h toyHash [.put [1]] [1] [] (by decide)
  have hp : (getPoi toyHash [] [1] (after toyHash true ([.put [1]] ++ [.make]))).1 =
      .ok { type := mtPoi, timestamp := [], targetKey := [1], trieRoot := hexOf (toyHash.hash [1]), proof := [] } := by
    decide +kernel
  rw [hp] at h1
  cases h1
  revert h2
  decide +kernel

/-- It fails for every tree and every value in it: the proof is made for the hashed value but checked from the
raw one, so it is accepted only if the hash function collides or the value is its own hash. -/
theorem C39_rejected (H : HashFn) (ops : List MOp) (v now : Bytes) (hv : v ∈ held ops) (hfix : H.hash v ≠ v) :
    ∃ p, (getPoi H now v (after H true (ops ++ [.make]))).1 = .ok p ∧
      (H.CollFree (proofHashed H p.proof v ++ proofHashed H p.proof (H.hash v)) →
        (verifyPoi H p (after H true (ops ++ [.make]))).1 = .ok false) := by
  have hne : held ops ≠ [] := List.ne_nil_of_mem hv
  rw [after_make H true ops hne]
  obtain ⟨ps, h1, h2, h3⟩ := built_poi H true ((held ops).map (leafOf H true)) now v
    (List.mem_map_of_mem hv)
  refine ⟨_, by rw [h1], ?_⟩
  intro hc
  rw [built_verify H true _ (by simpa using hne) _ _ _ _ h2]
  rw [show leafOf H true v = H.hash v from rfl] at h3
  obtain ⟨h, hh⟩ := foldProof_total H ps h2 v
  rw [verifyRaw_eq H ps v _ _ hh]
  have : h ≠ rfcRoot H ((held ops).map (leafOf H true)) := by
    intro e
    rw [e] at hh
    exact hfix (foldProof_inj H ps v (H.hash v) _ hc hh h3).symm
  simp [this]

example : ([3] : Bytes) ∈ held sampleOps ∧ toyHash.hash [3] ≠ [3] := by decide
/-- The proof of `[3]`, whose check hashes strings that do not collide. -/
example : ∃ p, (getPoi toyHash [] [3] (after toyHash true (sampleOps ++ [.make]))).1 = .ok p ∧
    toyHash.CollFree (proofHashed toyHash p.proof [3] ++ proofHashed toyHash p.proof (toyHash.hash [3])) := by
  refine ⟨{ type := mtPoi, timestamp := [], targetKey := [3], trieRoot := hexOf (rfcRoot toyHash ((held sampleOps).map toyHash.hash)), proof := [(left, hexOf (toyHash.hash [1, 2])), (right, hexOf (toyHash.hash (toyHash.hash [] ++ toyHash.hash [3]))), (right, hexOf (toyHash.hash [5, 5, 5]))] }, by decide +kernel, ?_⟩
  unfold HashFn.CollFree
  decide +kernel

/-- What does work in the default mode: the same proof with the hash of the value as `target_key`. -/
theorem C39_hashed_target_partial (H : HashFn) (ops : List MOp) (v now : Bytes) (hv : v ∈ held ops) :
    ∃ p, (getPoi H now v (after H true (ops ++ [.make]))).1 = .ok p ∧
      (verifyPoi H { p with targetKey := H.hash v } (after H true (ops ++ [.make]))).1 = .ok true := by
  have hne : held ops ≠ [] := List.ne_nil_of_mem hv
  rw [after_make H true ops hne]
  obtain ⟨ps, h1, h2, h3⟩ := built_poi H true ((held ops).map (leafOf H true)) now v
    (List.mem_map_of_mem hv)
  refine ⟨_, by rw [h1], ?_⟩
  rw [built_verify H true _ (by simpa using hne) _ _ _ _ h2]
  rw [show leafOf H true v = H.hash v from rfl] at h3
  rw [verifyRaw_eq H ps _ _ _ h3]
  simp

/-! ### C40: what an accepted proof establishes -/

/-- The claim: the key of an accepted proof was put into the tree, unless the hash function collides. -/
def C40 : Prop :=
  ∀ (H : HashFn) (secure : Bool) (ops : List MOp) (p : Proof (Bytes × Bytes)), held ops ≠ [] →
    (verifyPoi H p (after H secure (ops ++ [.make]))).1 = .ok true →
    H.CollFree (held ops ++ treeStrings H ((held ops).map (leafOf H secure)) ++ proofHashed H p.proof p.targetKey) →
    p.targetKey ∈ held ops

/-- The root itself, with an empty proof, is accepted by every tree. -/
theorem C40_forgery (H : HashFn) (secure : Bool) (ops : List MOp) (h : held ops ≠ []) (ty now : Bytes) :
    (verifyPoi H { type := ty, timestamp := now, targetKey := rfcRoot H ((held ops).map (leafOf H secure)), trieRoot := hexOf (rfcRoot H ((held ops).map (leafOf H secure))), proof := [] }
      (after H secure (ops ++ [.make]))).1 = .ok true := by
  rw [after_make H secure ops h, built_verify H secure _ (by simpa using h) _ _ _ _ (by simp [Entries])]
  simp [verifyRaw]

/-- The boundary between a value and its sibling is not protected: every other way to cut the same string in two
is accepted as well. -/
theorem C40_split (H : HashFn) (secure : Bool) (v w x y ty now : Bytes)
    (h : x ++ y = leafOf H secure v ++ leafOf H secure w) :
    (verifyPoi H { type := ty, timestamp := now, targetKey := x, trieRoot := hexOf (H.hash (x ++ y)), proof := [(right, hexOf y)] }
      (after H secure (putAndMake [v, w]))).1 = .ok true := by
  rw [after_putAndMake H secure [v, w] (by simp)]
  have hr : rfcRoot H ([v, w].map (leafOf H secure)) = H.hash (x ++ y) := by
    rw [h]; rfl
  rw [← hr, built_verify H secure _ (by simp) _ _ _ _
    (by intro p hp; simp at hp; exact ⟨y, .inr hp⟩)]
  have hf : foldProof H [(right, hexOf y)] x = .ok (H.hash (x ++ y)) := by
    rw [foldProof_right]; rfl
  rw [verifyRaw_eq H _ _ _ _ hf, hr]
  simp

example : ([7] : Bytes) ++ [8, 9, 10] = leafOf toyHash false [7, 8] ++ leafOf toyHash false [9, 10] := by decide

theorem C40_false : ¬ C40 := by
  intro h
  have := h toyHash false [.put [7, 8], .put [9, 10]]
    { type := mtPoi, timestamp := [], targetKey := [7], trieRoot := hexOf (toyHash.hash [7, 8, 9, 10]), proof := [(right, hexOf [8, 9, 10])] }
    (by decide) (by decide +kernel) (by unfold HashFn.CollFree; decide +kernel)
  revert this
  decide

/-- What holds: an accepted proof names the root of this very tree. -/
theorem C40_root (H : HashFn) (secure : Bool) (ops : List MOp) (p : Proof (Bytes × Bytes)) (h : held ops ≠ [])
    (ha : (verifyPoi H p (after H secure (ops ++ [.make]))).1 = .ok true) :
    p.trieRoot = hexOf (rfcRoot H ((held ops).map (leafOf H secure))) := by
  rw [after_make H secure ops h] at ha
  exact (accepted H secure _ (by simpa using h) p ha).1

/-- What holds in the default mode, for values shorter than a digest: an accepted `target_key` of digest length
is the value of a node of the tree, at a depth equal to the number of entries of the proof.  Missing from the
claim: the node need not be a leaf (`C40_forgery`), and keys of other lengths are not covered (`C40_split`). -/
theorem C40_node_partial (H : HashFn) (ops : List MOp) (p : Proof (Bytes × Bytes)) (h : held ops ≠ [])
    (hs : ∀ v ∈ held ops, v.length < H.size) (hk : p.targetKey.length = H.size)
    (hc : H.CollFree (held ops ++ treeStrings H ((held ops).map H.hash) ++ proofHashed H p.proof p.targetKey))
    (ha : (verifyPoi H p (after H true (ops ++ [.make]))).1 = .ok true) :
    p.targetKey ∈ rfcNodesAt H p.proof.length ((held ops).map H.hash) := by
  rw [after_make H true ops h] at ha
  have hf := (accepted H true _ (by simpa using h) p ha).2
  exact foldProof_node H (held ops) h hs p.proof p.targetKey hk hc hf

/-- In a tree with 2^k values, a proof with k entries establishes that its `target_key` is the hash of one of the
values. -/
theorem C40_full_partial (H : HashFn) (ops : List MOp) (p : Proof (Bytes × Bytes)) (k : Nat)
    (hlen : (held ops).length = 2 ^ k) (hk' : p.proof.length = k)
    (hs : ∀ v ∈ held ops, v.length < H.size) (hk : p.targetKey.length = H.size)
    (hc : H.CollFree (held ops ++ treeStrings H ((held ops).map H.hash) ++ proofHashed H p.proof p.targetKey))
    (ha : (verifyPoi H p (after H true (ops ++ [.make]))).1 = .ok true) :
    ∃ v ∈ held ops, p.targetKey = H.hash v := by
  have hne : held ops ≠ [] := List.length_pos_iff.mp (by rw [hlen]; exact Nat.two_pow_pos k)
  have := C40_node_partial H ops p hne hs hk hc ha
  rw [hk', nodesAt_full H k _ (by simpa using hlen)] at this
  obtain ⟨v, hv, e⟩ := List.mem_map.mp this
  exact ⟨v, hv, e.symm⟩

/-- Four values and a proof with two entries that meet the hypotheses. -/
def fullOps : List MOp := [.put [1], .put [2], .put [], .put [4]]

/-- A proof for the third value of `fullOps`. -/
def fullProof : Proof (Bytes × Bytes) :=
  { type := mtPoi, timestamp := [], targetKey := toyHash.hash [],
    trieRoot := hexOf (rfcRoot toyHash ((held fullOps).map toyHash.hash)),
    proof := [(right, hexOf (toyHash.hash [4])), (left, hexOf (toyHash.hash (toyHash.hash [1] ++ toyHash.hash [2])))] }

example : (held fullOps).length = 2 ^ 2 ∧ fullProof.proof.length = 2 ∧
    (∀ v ∈ held fullOps, v.length < toyHash.size) ∧ fullProof.targetKey.length = toyHash.size ∧
    toyHash.CollFree (held fullOps ++ treeStrings toyHash ((held fullOps).map toyHash.hash) ++
      proofHashed toyHash fullProof.proof fullProof.targetKey) ∧
    (verifyPoi toyHash fullProof (after toyHash true (fullOps ++ [.make]))).1 = .ok true := by
  unfold HashFn.CollFree
  decide +kernel

/-! ### C41: the root is that of the leaves at the last build -/

/-- The claim: `get_merkle_root()` is the root of the values put so far. -/
def C41 : Prop :=
  ∀ (H : HashFn) (secure : Bool) (ops : List MOp), held ops ≠ [] →
    (root H (after H secure ops)).1 = .ok (hexOf (rfcRoot H ((held ops).map (leafOf H secure))))

/-- Values put after a build are ignored until the next `make_tree`. -/
theorem C41_stale (H : HashFn) (secure : Bool) (ops more : List MOp) (h : held ops ≠ [])
    (hm : ∀ op ∈ more, op = .root ∨ ∃ v, op = .put v) :
    (root H (after H secure (ops ++ [.make] ++ more))).1 =
      .ok (hexOf (rfcRoot H ((held ops).map (leafOf H secure)))) := by
  obtain ⟨l, hl⟩ := after_stale H secure ops more h hm
  rw [hl, root_apply, stale_root H secure _ l (by simpa using h)]
  simp [stale]

theorem C41_false : ¬ C41 := by
  intro h
  have := h toyHash true [.put [1], .make, .put [2]] (by decide)
  revert this
  decide +kernel

example : held sampleOps ≠ [] ∧ ∀ op ∈ ([.put [4], .root, .put [6]] : List MOp), op = .root ∨ ∃ v, op = .put v := by
  refine ⟨by decide, ?_⟩
  intro op hop
  simp at hop
  rcases hop with rfl | rfl | rfl <;> simp

/-- A tree that was just built has the root of all its values. -/
theorem C41_made_partial (H : HashFn) (secure : Bool) (ops : List MOp) (h : held ops ≠ []) :
    (root H (after H secure (ops ++ [.make]))).1 =
      .ok (hexOf (rfcRoot H ((held ops).map (leafOf H secure)))) := by
  have := C41_stale H secure ops [] h (by simp)
  simpa using this

/-- So has a tree that was not built since it was made or reset. -/
theorem C41_first_partial (H : HashFn) (secure : Bool) (ops : List MOp) (vs : List Bytes) (h : vs ≠ [])
    (hr : ops = [] ∨ ∃ ops', ops = ops' ++ [.reset]) :
    (root H (after H secure (ops ++ vs.map .put))).1 =
      .ok (hexOf (rfcRoot H (vs.map (leafOf H secure)))) := by
  obtain ⟨hrun, hheld⟩ : (after H secure ops) = new secure ∧ held ops = [] := by
    rcases hr with rfl | ⟨ops', rfl⟩
    · exact ⟨rfl, rfl⟩
    · refine ⟨?_, by rw [held_append]⟩
      have := (after_fields H secure ops').1
      unfold after at this ⊢
      rw [run_snoc]
      show MTree.mk _ _ _ _ = _
      rw [this]
      rfl
  have e : after H secure (ops ++ vs.map .put) = { new secure with leaves := vs.map (leafOf H secure) } := by
    unfold after at hrun ⊢
    rw [run_append, hrun, run_puts]
    simp [new]
  rw [e, root_apply, make_eq H _ (by simpa using h)]
  have := stale_root H secure (vs.map (leafOf H secure)) [] (by simpa using h)
  rw [stale_nil] at this
  simp [new, this]

/-- After the root of an empty tree was asked for (which raises), putting values does not help: asking again
raises ValueError until `make_tree` is called. -/
theorem C41_stuck (H : HashFn) (secure : Bool) (ops : List MOp) (op : MOp) (vs : List Bytes) (h : held ops = [])
    (ho : op = .root ∨ op = .make) :
    (root H (after H secure (ops ++ [op] ++ vs.map .put))).1 = .error .valueError := by
  have hup := after_upper H secure ops h
  have hl : (after H secure ops).leaves = [] := by rw [(after_fields H secure ops).2, h]; rfl
  have e : (after H secure (ops ++ [op])).upper = none ∧ (after H secure (ops ++ [op])).ready = true := by
    unfold after at hup hl ⊢
    rw [run_snoc]
    rcases ho with rfl | rfl
    · show (root H _).2.upper = none ∧ (root H _).2.ready = true
      rw [root_apply]
      split
      · rename_i hr; exact ⟨hup, hr⟩
      · simp [make, hl, hup]
    · simp [exec, make, hl, hup]
  have e2 : (after H secure (ops ++ [op] ++ vs.map .put)).upper = none ∧
      (after H secure (ops ++ [op] ++ vs.map .put)).ready = true := by
    unfold after at e ⊢
    rw [run_append, run_puts]
    exact e
  rw [root_apply, if_pos e2.2]
  simp only [rootRaw, levels, e2.1, e2.2, Option.map_none]

example : held [.put [1], .reset] = [] := by decide

/-! ### C42: the root has the shape of RFC 6962 -/

/-- `splitPoint n` is the largest power of two below `n`. -/
theorem C42_split (n : Nat) (h : 2 ≤ n) :
    (∃ e, splitPoint n = 2 ^ e) ∧ splitPoint n < n ∧ ∀ e, 2 ^ e < n → 2 ^ e ≤ splitPoint n := by
  obtain ⟨⟨a, ha⟩, h1, h2⟩ := splitPoint_spec n h
  refine ⟨⟨a, ha⟩, h1, ?_⟩
  intro e he
  rw [ha] at h2 ⊢
  have : 2 ^ e < 2 ^ (a + 1) := by rw [Nat.pow_succ]; omega
  have := (Nat.pow_lt_pow_iff_right (by omega)).mp this
  exact Nat.pow_le_pow_right (by omega) (by omega)

/-- `rfcRoot` is the recursive definition. -/
theorem C42_recursive (H : HashFn) :
    (∀ a, rfcRoot H [a] = a) ∧
    (∀ l : List Bytes, 2 ≤ l.length → rfcRoot H l =
      H.hash (rfcRoot H (l.take (splitPoint l.length)) ++ rfcRoot H (l.drop (splitPoint l.length)))) :=
  ⟨fun a => rfcRoot_one H a, fun l h => rfcRoot_split H l h⟩

/-- The root the code computes level by level is the recursive one. -/
theorem C42_shape (H : HashFn) (secure : Bool) (vs : List Bytes) (h : vs ≠ []) :
    (root H (after H secure (putAndMake vs))).1 =
      .ok (hexOf (rfcRoot H (vs.map (if secure then H.hash else id)))) := by
  rw [after_putAndMake H secure vs h, built_root H secure _ (by simpa using h)]
  have : leafOf H secure = if secure then H.hash else id := by
    funext v; cases secure <;> rfl
  rw [this]

example : splitPoint 7 = 4 ∧ splitPoint 8 = 4 ∧ splitPoint 9 = 8 ∧ splitPoint 2 = 1 := by decide
example (a b c : Bytes) (H : HashFn) : rfcRoot H [a, b, c] = H.hash (H.hash (a ++ b) ++ c) := rfl

/-! ### C43: the root binds the leaves -/

/-- Two trees with the same number of leaves, all of digest length, and the same root have the same leaves. -/
theorem C43_binding (H : HashFn) (s s' : Bool) (ops ops' : List MOp) (hn : held ops ≠ [])
    (hlen : (held ops).length = (held ops').length)
    (hd : ∀ v ∈ held ops, (leafOf H s v).length = H.size)
    (hd' : ∀ v ∈ held ops', (leafOf H s' v).length = H.size)
    (hc : H.CollFree (treeStrings H ((held ops).map (leafOf H s)) ++ treeStrings H ((held ops').map (leafOf H s'))))
    (hr : (root H (after H s (ops ++ [.make]))).1 = (root H (after H s' (ops' ++ [.make]))).1) :
    (after H s (ops ++ [.make])).leaves = (after H s' (ops' ++ [.make])).leaves := by
  have hn' : held ops' ≠ [] := List.length_pos_iff.mp (by rw [← hlen]; exact List.length_pos_iff.mpr hn)
  rw [C41_made_partial H s ops hn, C41_made_partial H s' ops' hn'] at hr
  have hr := hexOf_inj (Except.ok.inj hr)
  rw [after_make H s ops hn, after_make H s' ops' hn']
  exact bind_same H _ ((held ops).map _) ((held ops').map _) (Nat.le_refl _) (by simpa using hlen)
    (by intro x hx; obtain ⟨v, hv, rfl⟩ := List.mem_map.mp hx; exact hd v hv)
    (by intro x hx; obtain ⟨v, hv, rfl⟩ := List.mem_map.mp hx; exact hd' v hv) hc hr

/-- Two histories that meet all hypotheses; the second gives the tree the same values in another way. -/
example : held sampleOps ≠ [] ∧ (held sampleOps).length = (held ((held sampleOps).map .put)).length ∧
    (∀ v ∈ held sampleOps, (leafOf toyHash true v).length = toyHash.size) ∧
    toyHash.CollFree (treeStrings toyHash ((held sampleOps).map (leafOf toyHash true)) ++
      treeStrings toyHash ((held ((held sampleOps).map .put)).map (leafOf toyHash true))) ∧
    (root toyHash (after toyHash true (sampleOps ++ [.make]))).1 =
      (root toyHash (after toyHash true ((held sampleOps).map .put ++ [.make]))).1 := by
  unfold HashFn.CollFree
  decide +kernel

/-- In the default mode the root binds the values themselves, and their number, provided that no value is as
long as two digests. -/
theorem C43_values (H : HashFn) (ops ops' : List MOp) (hn : held ops ≠ []) (hn' : held ops' ≠ [])
    (hd : ∀ v ∈ held ops, v.length ≠ 2 * H.size) (hd' : ∀ v ∈ held ops', v.length ≠ 2 * H.size)
    (hc : H.CollFree (held ops ++ treeStrings H ((held ops).map H.hash) ++
      (held ops' ++ treeStrings H ((held ops').map H.hash))))
    (hr : (root H (after H true (ops ++ [.make]))).1 = (root H (after H true (ops' ++ [.make]))).1) :
    held ops = held ops' := by
  rw [C41_made_partial H true ops hn, C41_made_partial H true ops' hn'] at hr
  exact bind_values H _ _ _ (Nat.le_refl _) hn hn' hd hd' hc (hexOf_inj (Except.ok.inj hr))

example : (∀ v ∈ held sampleOps, v.length ≠ 2 * toyHash.size) ∧ (∀ v ∈ held fullOps, v.length ≠ 2 * toyHash.size) ∧
    toyHash.CollFree (held sampleOps ++ treeStrings toyHash ((held sampleOps).map toyHash.hash) ++
      (held fullOps ++ treeStrings toyHash ((held fullOps).map toyHash.hash))) := by
  unfold HashFn.CollFree
  decide +kernel

/-- The condition on the length is needed: a value made of two digests stands for a subtree. -/
theorem C43_confusion (H : HashFn) (a b : Bytes) :
    (root H (after H true (putAndMake [H.hash a ++ H.hash b]))).1 =
      (root H (after H true (putAndMake [a, b]))).1 := by
  rw [C42_shape H true _ (by simp), C42_shape H true _ (by simp)]
  rfl

/-! ### C54: reading leaves back -/

/-- `get_count()` is the number of values put since the last reset, `get(i)` the hexadecimal form of the i-th
leaf, counted from the end for negative `i`; other indices raise IndexError. -/
theorem C54_get (H : HashFn) (secure : Bool) (ops : List MOp) :
    (after H secure ops).count = (held ops).length ∧
    (∀ (i : Nat) (v : Bytes), (held ops)[i]? = some v →
      (after H secure ops).get i = .ok (hexOf (if secure then H.hash v else v)) ∧
      (after H secure ops).get ((i : Int) - (held ops).length) = .ok (hexOf (if secure then H.hash v else v))) ∧
    (∀ i : Int, (held ops).length ≤ i ∨ i < -((held ops).length : Int) →
      (after H secure ops).get i = .error .indexError) := by
  have hl := (after_fields H secure ops).2
  refine ⟨by simp [count, hl], ?_, ?_⟩
  · intro i v hv
    have hi : i < (held ops).length := (List.getElem?_eq_some_iff.mp hv).1
    have hx : ((held ops).map (leafOf H secure))[i]? = some (leafOf H secure v) := by simp [hv]
    have hlf : leafOf H secure v = if secure then H.hash v else v := rfl
    constructor
    · simp only [MTree.get, pyIndexInt, hl]
      rw [if_pos (by omega)]
      simp only [Int.toNat_natCast, pyIndex, hx, hlf, Except.bind_ok', Except.pure_ok']
    · simp only [MTree.get, pyIndexInt, hl, List.length_map]
      rw [if_neg (by omega), if_pos (by omega)]
      have : ((held ops).length + ((i : Int) - (held ops).length)).toNat = i := by omega
      rw [this]
      simp only [pyIndex, hx, hlf, Except.bind_ok', Except.pure_ok']
  · intro i hi
    simp only [MTree.get, pyIndexInt, hl, List.length_map]
    rcases hi with hi | hi
    · rw [if_pos (by omega)]
      have : ((held ops).map (leafOf H secure))[i.toNat]? = none := by
        rw [List.getElem?_eq_none_iff, List.length_map]; omega
      simp only [pyIndex, this, Except.bind_error']
    · rw [if_neg (by omega), if_neg (by omega)]
      rfl

example : (held sampleOps)[4]? = some [5, 5, 5] := by decide

/-! ### C55: checking a proof gives an answer -/

/-- The claim: `verify_proof_of_inclusion` answers True or False for every proof object. -/
def C55 : Prop :=
  ∀ (H : HashFn) (secure : Bool) (ops : List MOp) (p : Proof (Bytes × Bytes)), held ops ≠ [] →
    ∃ b, (verifyPoi H p (after H secure (ops ++ [.make]))).1 = .ok b

/-- A proof whose first entry names a side other than left and right: KeyError. -/
theorem C55_false : ¬ C55 := by
  intro h
  obtain ⟨b, hb⟩ := h toyHash true [.put [1]]
    { type := mtPoi, timestamp := [], targetKey := [1], trieRoot := [], proof := [([117, 112], [])] } (by decide)
  have : (verifyPoi toyHash
    { type := mtPoi, timestamp := [], targetKey := [1], trieRoot := [], proof := [([117, 112], [])] }
    (after toyHash true ([.put [1]] ++ [.make]))).1 = .error .keyError := by decide +kernel
  rw [this] at hb
  cases hb

/-- A root that is not hexadecimal: ValueError, although the same error in an entry is answered by False. -/
theorem C55_root (H : HashFn) (t : MTree) (ty now k r : Bytes) (hu : utf8Valid r = true)
    (hr : fromHex r = .error .valueError) :
    (verifyPoi H { type := ty, timestamp := now, targetKey := k, trieRoot := r, proof := [] } t).1 =
      .error .valueError := by
  simp [verifyPoi, decodeEntries, decodeUtf8, hu, hr]

example : utf8Valid [122, 122] = true ∧ fromHex [122, 122] = .error .valueError := by decide

/-- An answer is given when the entries name a side and all strings are hexadecimal; on a tree with values that
was built. -/
theorem C55_total_partial (H : HashFn) (secure : Bool) (ops : List MOp) (p : Proof (Bytes × Bytes))
    (h : held ops ≠ [])
    (he : ∀ e ∈ p.proof, (e.1 = left ∨ e.1 = right) ∧ utf8Valid e.2 = true ∧ ∃ s, fromHex e.2 = .ok s)
    (hu : utf8Valid p.trieRoot = true) (hr : ∃ r, fromHex p.trieRoot = .ok r) :
    ∃ b, verifyPoi H p (after H secure (ops ++ [.make])) = (.ok b, after H secure (ops ++ [.make])) := by
  rw [after_make H secure ops h]
  obtain ⟨r, hr⟩ := hr
  obtain ⟨x, hx⟩ := foldProof_total' H p.proof he p.targetKey
  unfold verifyPoi
  simp only [decodeEntries_valid p.proof he, M.bind_apply, M.lift_apply, decodeUtf8, hu, if_true, hr,
    verifyRaw_eq H p.proof p.targetKey r x hx]
  cases x == r
  · exact ⟨false, by simp⟩
  · exact ⟨hexOf (rfcRoot H ((held ops).map (leafOf H secure))) == p.trieRoot,
      by simp [built_root H secure _ (show (held ops).map (leafOf H secure) ≠ [] by simpa using h)]⟩

example : ∀ e ∈ fullProof.proof, (e.1 = left ∨ e.1 = right) ∧ utf8Valid e.2 = true ∧ ∃ s, fromHex e.2 = .ok s := by
  intro e he
  simp [fullProof] at he
  rcases he with rfl | rfl
  · exact ⟨by decide, by decide, _, fromHex_hexOf _⟩
  · exact ⟨by decide, by decide, _, fromHex_hexOf _⟩

end Pymt.Props
