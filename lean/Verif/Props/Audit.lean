import Verif.Lemmas.Audit
import Verif.Props.Merkle

/-!
# Proofs of `MerkleTree`: audit paths, their length, and trees extended after `make_tree` (C78, C79)
-/

namespace Pymt.Props

open MTree

/-! ### C78: proofs are RFC 6962 audit paths, of logarithmic length -/

/-- The defining equations of the audit path, RFC 6962, section 2.1.1. -/
theorem C78_recursive (H : HashFn) :
    (∀ a, rfcPath H [a] 0 = []) ∧
    (∀ (l : List Bytes) (m : Nat), 2 ≤ l.length → m < splitPoint l.length →
      rfcPath H l m = rfcPath H (l.take (splitPoint l.length)) m ++
        [(right, hexOf (rfcRoot H (l.drop (splitPoint l.length))))]) ∧
    (∀ (l : List Bytes) (m : Nat), 2 ≤ l.length → splitPoint l.length ≤ m →
      rfcPath H l m = rfcPath H (l.drop (splitPoint l.length)) (m - splitPoint l.length) ++
        [(left, hexOf (rfcRoot H (l.take (splitPoint l.length))))]) :=
  ⟨fun a => rfl, fun l m h hm => by rw [rfcPath_split H l m h, if_pos hm],
    fun l m h hm => by rw [rfcPath_split H l m h, if_neg (by omega)]⟩

/-- After `make_tree`, the proof of a value consists of the audit path of its first occurrence. -/
theorem C78_path (H : HashFn) (secure : Bool) (ops : List MOp) (v now : Bytes) (i : Nat)
    (hi : ((held ops).map (leafOf H secure))[i]? = some (leafOf H secure v))
    (hf : ∀ j < i, ((held ops).map (leafOf H secure))[j]? ≠ some (leafOf H secure v)) :
    getPoi H now v (after H secure (ops ++ [.make])) =
      (.ok { type := mtPoi, timestamp := now, targetKey := v, trieRoot := hexOf (rfcRoot H ((held ops).map (leafOf H secure))), proof := rfcPath H ((held ops).map (leafOf H secure)) i },
        after H secure (ops ++ [.make])) := by
  have hne : held ops ≠ [] := by
    intro h
    rw [h] at hi
    simp at hi
  rw [after_make H secure ops hne]
  exact built_audit H secure _ now v i hi hf

/-- The value `[3]` was put in twice; its first place is 1. -/
example : ((held sampleOps).map (leafOf toyHash true))[1]? = some (leafOf toyHash true [3]) ∧
    ∀ j < 1, ((held sampleOps).map (leafOf toyHash true))[j]? ≠ some (leafOf toyHash true [3]) := by decide +kernel

/-- A proof from a tree of at most `2 ^ k` values has at most `k` entries. -/
theorem C78_length (H : HashFn) (secure : Bool) (ops : List MOp) (v now : Bytes) (k : Nat) (p : Proof (Bytes × Bytes))
    (hk : (held ops).length ≤ 2 ^ k)
    (hp : (getPoi H now v (after H secure (ops ++ [.make]))).1 = .ok p) : p.proof.length ≤ k := by
  by_cases hv : leafOf H secure v ∈ (held ops).map (leafOf H secure)
  · obtain ⟨i, _, h2, h3⟩ := idxOf?_first _ _ hv
    rw [C78_path H secure ops v now i h2 h3] at hp
    cases hp
    exact rfcPath_length_le H k _ i (by rw [List.length_map]; exact hk)
  · exfalso
    have hl : ((after H secure (ops ++ [.make])).proofRaw H v) = .error .valueError := by
      obtain ⟨h1, h2⟩ := after_fields H secure (ops ++ [.make])
      have h2' : held (ops ++ [.make]) = held ops := held_append ops .make
      unfold proofRaw
      rw [h1, h2, h2']
      have : List.idxOf? (leafOf H secure v) ((held ops).map (leafOf H secure)) = none := by
        rw [List.idxOf?_eq_none_iff]; exact hv
      rw [this]
    unfold getPoi at hp
    simp [hl] at hp

/-- The bound is met: with more than `2 ^ k` and at most `2 ^ (k + 1)` values, the proofs of the first `2 ^ k` have
exactly `k + 1` entries. -/
theorem C78_reached (H : HashFn) (secure : Bool) (ops : List MOp) (v now : Bytes) (k i : Nat)
    (hk : 2 ^ k < (held ops).length) (hk' : (held ops).length ≤ 2 ^ (k + 1)) (hik : i < 2 ^ k)
    (hi : ((held ops).map (leafOf H secure))[i]? = some (leafOf H secure v))
    (hf : ∀ j < i, ((held ops).map (leafOf H secure))[j]? ≠ some (leafOf H secure v)) :
    ∃ p, (getPoi H now v (after H secure (ops ++ [.make]))).1 = .ok p ∧ p.proof.length = k + 1 := by
  refine ⟨_, by rw [C78_path H secure ops v now i hi hf], ?_⟩
  exact rfcPath_length_left H _ i k hik (by rw [List.length_map]; exact hk)
    (by rw [List.length_map]; rw [Nat.pow_succ] at hk'; omega)

example : 2 ^ 2 < (held sampleOps).length ∧ (held sampleOps).length ≤ 2 ^ (2 + 1) := by decide
example : (getPoi toyHash [] [3] (after toyHash true (sampleOps ++ [.make]))).1.map (·.proof.length) =
    .ok 3 := by decide +kernel

/-! ### C79: proofs of a tree that was extended after `make_tree` -/

/-- The claim: whenever a tree gives a proof for one of its values, it accepts that proof. -/
def C79 : Prop :=
  ∀ (H : HashFn) (ops : List MOp) (v now : Bytes) (p : Proof (Bytes × Bytes)), v ∈ held ops →
    (getPoi H now v (after H false ops)).1 = .ok p → (verifyPoi H p (after H false ops)).1 = .ok true

theorem C79_false : ¬ C79 := by
  intro h
  have hp : (getPoi toyHash [] [3] (after toyHash false [.put [1], .put [2], .put [3], .make, .put [4]])).1 =
      .ok { type := mtPoi, timestamp := [], targetKey := [3], trieRoot := hexOf (rfcRoot toyHash [[1], [2], [3]]), proof := [(right, hexOf [4]), (left, hexOf (toyHash.hash [1, 2]))] } := by
    decide +kernel
  have := h toyHash [.put [1], .put [2], .put [3], .make, .put [4]] [3] [] _ (by decide) hp
  revert this
  decide +kernel

/-- Values put in after `make_tree` leave the proofs of the earlier ones as they were, and these are still
accepted, if the number of earlier values was even or one, or if the value also occurs before the last place. -/
theorem C79_old_partial (H : HashFn) (ops : List MOp) (vs : List Bytes) (v now : Bytes) (hv : v ∈ held ops)
    (hl : (held ops).length % 2 = 0 ∨ (held ops).length = 1 ∨ v ∈ (held ops).dropLast) :
    ∃ p, (getPoi H now v (after H false (ops ++ [.make] ++ vs.map .put))).1 = .ok p ∧
      (getPoi H now v (after H false (ops ++ [.make]))).1 = .ok p ∧
      (verifyPoi H p (after H false (ops ++ [.make] ++ vs.map .put))).1 = .ok true := by
  have hne : held ops ≠ [] := List.ne_nil_of_mem hv
  have hid : ∀ l : List Bytes, l.map (leafOf H false) = l := fun l => List.map_id'' (fun _ => rfl) l
  obtain ⟨i, _, h2, h3⟩ := idxOf?_first (held ops) v hv
  have hi : i < (held ops).length := (List.getElem?_eq_some_iff.mp h2).1
  have hold := stale_old H false (held ops) vs now v i h2 h3
  have hproof : (if (held ops).length = 1 then [] else
      stepAt (held ops ++ vs) i ++ rfcPath H (nextLevel H (held ops)) (i / 2)) = rfcPath H (held ops) i := by
    by_cases h1 : (held ops).length = 1
    · rw [if_pos h1, rfcPath_short H _ _ (by omega)]
    · rw [if_neg h1, rfcPath_next H _ (held ops) i (Nat.le_refl _) (by omega) hi, stepAt_append _ _ _ hi]
      rcases hl with h | h | h
      · exact .inr (.inr h)
      · exact absurd h h1
      · refine .inr (.inl ?_)
        obtain ⟨j, hj⟩ := List.getElem?_of_mem h
        have hjl : j < (held ops).dropLast.length := (List.getElem?_eq_some_iff.mp hj).1
        rw [List.length_dropLast] at hjl
        by_cases hji : j < i
        · refine absurd ?_ (h3 j hji)
          rw [List.getElem?_dropLast, if_pos hjl] at hj
          exact hj
        · omega
  rw [hproof] at hold
  rw [after_extended H false ops vs hne, after_make H false ops hne, hid, hid]
  refine ⟨_, by rw [hold], by rw [built_audit H false (held ops) now v i h2 h3], ?_⟩
  rw [stale_verify H false _ _ hne _ _ _ _ (entries_path H _ i hi),
    verifyRaw_eq H _ v _ _ (fold_path H _ i v h2)]
  simp

example : ([3] : Bytes) ∈ held sampleOps ∧ [3] ∈ (held sampleOps).dropLast ∧
    (held sampleOps).length % 2 = 1 := by decide

/-- The exception: the last of an odd number of values, followed by a value `w` put in later.  Its proof gets an
entry too many, and is rejected unless the hash function collides or `v` is the hash of `v ++ w`. -/
theorem C79_last (H : HashFn) (ops : List MOp) (vs : List Bytes) (v w now : Bytes) (l : List Bytes)
    (hh : held ops = l ++ [v]) (hodd : l.length % 2 = 0) (hl : l ≠ []) (hv : v ∉ l) (hw : H.hash (v ++ w) ≠ v) :
    ∃ p q, (getPoi H now v (after H false (ops ++ [.make]))).1 = .ok q ∧
      (getPoi H now v (after H false (ops ++ [.make] ++ (w :: vs).map .put))).1 = .ok p ∧
      p.proof = (right, hexOf w) :: q.proof ∧
      (H.CollFree (proofHashed H q.proof v ++ proofHashed H q.proof (H.hash (v ++ w))) →
        (verifyPoi H p (after H false (ops ++ [.make] ++ (w :: vs).map .put))).1 = .ok false) := by
  have hne : held ops ≠ [] := by rw [hh]; simp
  have hid : ∀ l : List Bytes, l.map (leafOf H false) = l := fun l => List.map_id'' (fun _ => rfl) l
  have hlen := List.length_pos_iff.mpr hl
  have h2 : (l ++ [v])[l.length]? = some v := by simp
  have h3 : ∀ j < l.length, (l ++ [v])[j]? ≠ some v := fun j hj h => by
    rw [List.getElem?_append_left hj] at h
    exact hv (List.mem_of_getElem? h)
  have hi : l.length < (l ++ [v]).length := by simp
  have hold := stale_old H false (l ++ [v]) (w :: vs) now v l.length h2 h3
  have hstep : stepAt (l ++ [v]) l.length = [] := by
    unfold stepAt
    rw [if_pos (by simp; omega)]
  have hpath := rfcPath_next H _ (l ++ [v]) l.length (Nat.le_refl _) (by simp; omega) hi
  rw [hstep, List.nil_append] at hpath
  have hstep' : stepAt (l ++ [v] ++ w :: vs) l.length = [(right, hexOf w)] := by
    unfold stepAt
    rw [if_neg (by simp), if_neg (by omega)]
    simp
  rw [if_neg (by simp; omega), hstep', ← hpath] at hold
  rw [after_extended H false ops (w :: vs) hne, after_make H false ops hne, hid, hid, hh]
  refine ⟨_, _, by rw [built_audit H false (l ++ [v]) now v l.length h2 h3], by rw [hold], rfl, ?_⟩
  intro hc
  have he : Entries ([(right, hexOf w)] ++ rfcPath H (l ++ [v]) l.length) := by
    intro p hp
    rcases List.mem_cons.mp hp with rfl | hp
    · exact ⟨w, .inr rfl⟩
    · exact entries_path H _ _ hi p hp
  rw [stale_verify H false _ _ (by simp) _ _ _ _ he]
  obtain ⟨h, hf⟩ := foldProof_total H _ (entries_path H _ _ hi) (H.hash (v ++ w))
  rw [verifyRaw_eq H _ v _ h (by rw [List.singleton_append, foldProof_right]; exact hf)]
  have : h ≠ rfcRoot H (l ++ [v]) := by
    intro e
    rw [e] at hf
    exact hw (foldProof_inj H _ v (H.hash (v ++ w)) _ hc (fold_path H _ _ v h2) hf).symm
  simp [this]

example : held sampleOps = [[1, 2], [3], [], [3]] ++ [[5, 5, 5]] ∧
    toyHash.hash ([5, 5, 5] ++ [7]) ≠ [5, 5, 5] := by decide
example : (getPoi toyHash [] [5, 5, 5] (after toyHash false (sampleOps ++ [.make] ++ [[7]].map .put))).1.map
    (·.proof.length) = .ok 2 := by decide +kernel

/-- Of the values put in later, all but the first three have no proof: `get_proof_of_inclusion` raises IndexError
(in trees of three or more values). -/
theorem C79_new (H : HashFn) (secure : Bool) (ops : List MOp) (vs : List Bytes) (v now : Bytes) (j : Nat)
    (hl : 3 ≤ (held ops).length) (hj : 3 ≤ j)
    (hi : (vs.map (leafOf H secure))[j]? = some (leafOf H secure v))
    (hn : leafOf H secure v ∉ (held ops ++ vs.take j).map (leafOf H secure)) :
    getPoi H now v (after H secure (ops ++ [.make] ++ vs.map .put)) =
      (.error .indexError, after H secure (ops ++ [.make] ++ vs.map .put)) := by
  have hne : held ops ≠ [] := by intro h; rw [h] at hl; simp at hl
  rw [after_extended H secure ops vs hne]
  rw [List.map_append, List.mem_append, not_or] at hn
  refine stale_new H secure _ _ now v j (by rw [List.length_map]; exact hl) hj hi hn.1 ?_
  intro k hk h
  apply hn.2
  rw [List.map_take]
  refine List.mem_of_getElem? (i := k) ?_
  rw [List.getElem?_take_of_lt hk]
  exact h

example : ([[6], [7], [8], [9]].map (leafOf toyHash true))[3]? = some (leafOf toyHash true [9]) ∧
    leafOf toyHash true [9] ∉ (held sampleOps ++ [[6], [7], [8], [9]].take 3).map (leafOf toyHash true) := by
  decide +kernel

/-- The first value `v` put in after an odd number (three or more) of others, the last of them `u`: its proof says
that it is the right neighbour of `u`, and goes on as the path of `u`. -/
theorem C79_next (H : HashFn) (secure : Bool) (ops : List MOp) (vs l : List Bytes) (u v now : Bytes)
    (hh : held ops = l ++ [u]) (hodd : l.length % 2 = 0) (hl : l ≠ [])
    (hn : leafOf H secure v ∉ (held ops).map (leafOf H secure)) :
    getPoi H now v (after H secure (ops ++ [.make] ++ (v :: vs).map .put)) =
      (.ok { type := mtPoi, timestamp := now, targetKey := v, trieRoot := hexOf (rfcRoot H ((held ops).map (leafOf H secure))), proof := (left, hexOf (leafOf H secure u)) :: rfcPath H ((held ops).map (leafOf H secure)) l.length },
        after H secure (ops ++ [.make] ++ (v :: vs).map .put)) := by
  have hne : held ops ≠ [] := by rw [hh]; simp
  have hlen := List.length_pos_iff.mpr hl
  rw [after_extended H secure ops (v :: vs) hne]
  rw [stale_later H secure _ _ now v 0 (by simpa using hne) (by simp) hn (by simp)]
  have hm : (held ops).map (leafOf H secure) = l.map (leafOf H secure) ++ [leafOf H secure u] := by rw [hh]; simp
  have hL : ((held ops).map (leafOf H secure)).length = l.length + 1 := by rw [hm]; simp
  rw [stale_upper H _ _ (by omega), Nat.add_zero, proofLoop_step _ _ _ (by rw [List.length_append]; simp),
    proofLoop_path H _ _ _ (by rw [nextLevel_length]; omega) (by rw [nextLevel_length]; omega),
    rfcPath_next H _ _ l.length (Nat.le_refl _) (by omega) (by omega)]
  have h1 : stepAt ((held ops).map (leafOf H secure)) l.length = [] := by
    unfold stepAt
    rw [if_pos (by omega)]
  have h2 : stepAt ((held ops).map (leafOf H secure) ++ (v :: vs).map (leafOf H secure))
      ((held ops).map (leafOf H secure)).length = [(left, hexOf (leafOf H secure u))] := by
    unfold stepAt
    have c : ¬ (((held ops).map (leafOf H secure)).length =
        ((held ops).map (leafOf H secure) ++ (v :: vs).map (leafOf H secure)).length - 1 ∧
        ((held ops).map (leafOf H secure) ++ (v :: vs).map (leafOf H secure)).length % 2 = 1) := by
      rw [List.length_append, List.length_map (as := v :: vs), List.length_cons]; omega
    rw [if_neg c, if_pos (by omega), hm]
    simp
  rw [h1, h2, show ((held ops).map (leafOf H secure)).length / 2 = l.length / 2 by omega]
  rfl

example : held sampleOps = [[1, 2], [3], [], [3]] ++ [[5, 5, 5]] ∧
    leafOf toyHash true [7] ∉ (held sampleOps).map (leafOf toyHash true) := by decide +kernel

/-- The values put in as numbers 1 and 2 (counted from 0) after an odd number `n`, or 0 and 1 after an even number,
three or more: no proof (IndexError) if `⌈n/2⌉` is even.  Otherwise the proof names the neighbour, then the subtree
of the last one or two old values as left sibling, and goes on as the path of the last old value. -/
theorem C79_later (H : HashFn) (secure : Bool) (ops : List MOp) (vs : List Bytes) (v now : Bytes) (j : Nat)
    (L : List Bytes) (hL : L = (held ops).map (leafOf H secure))
    (hl : 3 ≤ L.length) (hj : (L.length + j) / 2 = (L.length + 1) / 2)
    (hi : (vs.map (leafOf H secure))[j]? = some (leafOf H secure v))
    (hn : leafOf H secure v ∉ (held ops ++ vs.take j).map (leafOf H secure)) :
    getPoi H now v (after H secure (ops ++ [.make] ++ vs.map .put)) =
      (if (L.length + 1) / 2 % 2 = 0 then .error .indexError
        else .ok { type := mtPoi, timestamp := now, targetKey := v, trieRoot := hexOf (rfcRoot H L), proof := (if (L.length + j) % 2 = 1 then ((L ++ vs.map (leafOf H secure))[L.length + j - 1]?.map fun s => (left, hexOf s)).toList else ((L ++ vs.map (leafOf H secure))[L.length + j + 1]?.map fun s => (right, hexOf s)).toList) ++ (left, hexOf (rfcRoot H (L.drop (2 * ((L.length - 1) / 2))))) :: (rfcPath H L (L.length - 1)).drop ((L.length + 1) % 2) },
        after H secure (ops ++ [.make] ++ vs.map .put)) := by
  have hne : held ops ≠ [] := by rintro h; rw [hL, h] at hl; simp at hl
  rw [List.map_append, List.mem_append, not_or] at hn
  have hjl : j < (vs.map (leafOf H secure)).length := (List.getElem?_eq_some_iff.mp hi).1
  rw [after_extended H secure ops vs hne, ← hL]
  rw [stale_later H secure L _ now v j (by rintro rfl; simp at hl) hi (by rw [hL]; exact hn.1) (fun k hk h => by
    apply hn.2
    rw [List.map_take]
    refine List.mem_of_getElem? (i := k) ?_
    rw [List.getElem?_take_of_lt hk]
    exact h)]
  have hnl := nextLevel_length H L
  rw [stale_upper H _ _ (by omega), proofLoop_step _ _ _ (by rw [List.length_append]; omega),
    show (L.length + j) / 2 = (nextLevel H L).length by omega,
    proofLoop_past H _ _ (by omega) (by omega), hnl]
  by_cases he : (L.length + 1) / 2 % 2 = 0
  · rw [if_pos he, if_pos he]; rfl
  · rw [if_neg he, if_neg he]
    have hpath := rfcPath_next H _ L (L.length - 1) (Nat.le_refl _) (by omega) (by omega)
    have hdrop : (rfcPath H L (L.length - 1)).drop ((L.length + 1) % 2) =
        rfcPath H (nextLevel H L) ((L.length + 1) / 2 - 1) := by
      rw [hpath, show (L.length - 1) / 2 = (L.length + 1) / 2 - 1 by omega]
      unfold stepAt
      by_cases ho : L.length % 2 = 1
      · rw [if_pos ⟨rfl, ho⟩, show (L.length + 1) % 2 = 0 by omega]; rfl
      · rw [if_neg (by omega), if_pos (by omega), show (L.length + 1) % 2 = 1 by omega,
          List.getElem?_eq_getElem (show L.length - 1 - 1 < L.length by omega)]
        rfl
    have hlast : (nextLevel H L).getLast? = some (rfcRoot H (L.drop (2 * ((L.length - 1) / 2)))) := by
      have hs : nextLevel H L = nextLevel H (L.take (2 * ((L.length - 1) / 2))) ++
          nextLevel H (L.drop (2 * ((L.length - 1) / 2))) := by
        rw [← nextLevel_append H _ _ (by rw [List.length_take]; omega), List.take_append_drop]
      have hd : (L.drop (2 * ((L.length - 1) / 2))).length = 1 ∨ (L.drop (2 * ((L.length - 1) / 2))).length = 2 := by
        rw [List.length_drop]; omega
      rw [hs]
      rcases hd with h | h
      · obtain ⟨x, hx⟩ := List.length_eq_one_iff.mp h
        rw [hx, nextLevel_one, rfcRoot_one]; simp
      · obtain ⟨a, b, hx⟩ : ∃ a b, L.drop (2 * ((L.length - 1) / 2)) = [a, b] := by
          match L.drop (2 * ((L.length - 1) / 2)), h with
          | [a, b], _ => exact ⟨a, b, rfl⟩
        rw [hx, nextLevel_cons, nextLevel_nil, rfcRoot_split H [a, b] (by simp)]
        simp [splitPoint, rfcRoot_one]
        rfl
    have hstep : stepAt (L ++ vs.map (leafOf H secure)) (L.length + j) =
        (if (L.length + j) % 2 = 1 then ((L ++ vs.map (leafOf H secure))[L.length + j - 1]?.map fun s => (left, hexOf s)).toList else ((L ++ vs.map (leafOf H secure))[L.length + j + 1]?.map fun s => (right, hexOf s)).toList) := by
      unfold stepAt
      split
      · rename_i c
        rw [if_neg (by omega), List.getElem?_eq_none_iff.mpr (by omega)]; rfl
      · rfl
    rw [hlast, hdrop, hstep]
    rfl

/-- Five values, then `7`, `8`: `8` is number 1 after an odd number with `⌈5/2⌉` odd. -/
example : ((held sampleOps).map (leafOf toyHash true)).length = 5 ∧
    (([[7], [8]] : List Bytes).map (leafOf toyHash true))[1]? = some (leafOf toyHash true [8]) ∧
    leafOf toyHash true [8] ∉ (held sampleOps ++ ([[7], [8]] : List Bytes).take 1).map (leafOf toyHash true) ∧
    (getPoi toyHash [] [8] (after toyHash true (sampleOps ++ [.make] ++ [[7], [8]].map .put))).1.map (·.proof.length) =
      .ok 2 := by
  decide +kernel

/-- After a single value, later ones get the empty proof; after two, the neighbour only. -/
theorem C79_small (H : HashFn) (secure : Bool) (ops : List MOp) (vs : List Bytes) (v now : Bytes) (j : Nat)
    (L : List Bytes) (hL : L = (held ops).map (leafOf H secure)) (hl : L.length = 1 ∨ L.length = 2)
    (hi : (vs.map (leafOf H secure))[j]? = some (leafOf H secure v))
    (hn : leafOf H secure v ∉ (held ops ++ vs.take j).map (leafOf H secure)) :
    getPoi H now v (after H secure (ops ++ [.make] ++ vs.map .put)) =
      (.ok { type := mtPoi, timestamp := now, targetKey := v, trieRoot := hexOf (rfcRoot H L), proof := if L.length = 1 then [] else if j % 2 = 1 then ((vs.map (leafOf H secure))[j - 1]?.map fun s => (left, hexOf s)).toList else ((vs.map (leafOf H secure))[j + 1]?.map fun s => (right, hexOf s)).toList },
        after H secure (ops ++ [.make] ++ vs.map .put)) := by
  have hne : held ops ≠ [] := by rintro h; rw [hL, h] at hl; simp at hl
  rw [List.map_append, List.mem_append, not_or] at hn
  have hjl : j < (vs.map (leafOf H secure)).length := (List.getElem?_eq_some_iff.mp hi).1
  rw [after_extended H secure ops vs hne, ← hL]
  rw [stale_later H secure L _ now v j (by rintro rfl; simp at hl) hi (by rw [hL]; exact hn.1) (fun k hk h => by
    apply hn.2
    rw [List.map_take]
    refine List.mem_of_getElem? (i := k) ?_
    rw [List.getElem?_take_of_lt hk]
    exact h)]
  rcases hl with h1 | h2
  · obtain ⟨x, hx⟩ := List.length_eq_one_iff.mp h1
    rw [if_pos h1, hx]
    simp [climb, proofLoop, Except.map]
  · obtain ⟨a, b, hx⟩ : ∃ a b, L = [a, b] := by
      match L, h2 with
      | [a, b], _ => exact ⟨a, b, rfl⟩
    rw [if_neg (by omega), stale_upper H _ _ (by omega), proofLoop_step _ _ _ (by rw [List.length_append]; omega), hx,
      nextLevel_cons, nextLevel_nil]
    have hstep : stepAt ([a, b] ++ vs.map (leafOf H secure)) ([a, b].length + j) =
        (if j % 2 = 1 then ((vs.map (leafOf H secure))[j - 1]?.map fun s => (left, hexOf s)).toList else ((vs.map (leafOf H secure))[j + 1]?.map fun s => (right, hexOf s)).toList) := by
      unfold stepAt
      have e : [a, b].length = 2 := rfl
      rw [List.length_append, e]
      split
      · rw [if_neg (by omega), List.getElem?_eq_none_iff.mpr (by omega)]; rfl
      · by_cases ho : j % 2 = 1
        · rw [if_pos (by omega), if_pos ho, List.getElem?_append_right (by simp; omega), e,
            show 2 + j - 1 - 2 = j - 1 by omega]
        · rw [if_neg (by omega), if_neg ho, List.getElem?_append_right (by simp; omega), e,
            show 2 + j + 1 - 2 = j + 1 by omega]
    rw [hstep]
    simp [climb, proofLoop, Except.map]

example : let ops : List MOp := [.put [1], .put [2]]
    ((held ops).map (leafOf toyHash false)).length = 2 ∧
    (getPoi toyHash [] [9] (after toyHash false (ops ++ [.make] ++ [[6], [7], [8], [9]].map .put))).1.map (·.proof) =
      .ok [(left, hexOf [8])] := by decide +kernel

/-- A proof made for a value put in later is rejected by the tree, unless hashes collide or `x`, the subtree of the
last one or two old values, is itself the hash of `x ++ w` for one `w`, made of the value and a neighbour. -/
theorem C79_rejected (H : HashFn) (ops : List MOp) (vs : List Bytes) (v now : Bytes) (x : Bytes)
    (p : Proof (Bytes × Bytes)) (hl : 3 ≤ (held ops).length) (hv : v ∉ held ops) (hvs : v ∈ vs)
    (hx : x = rfcRoot H ((held ops).drop (2 * (((held ops).length - 1) / 2))))
    (hp : (getPoi H now v (after H false (ops ++ [.make] ++ vs.map .put))).1 = .ok p) :
    ∃ w q, (w = v ∨ ∃ s ∈ vs, w = H.hash (v ++ s) ∨ w = H.hash (s ++ v)) ∧ q <:+ p.proof ∧
      (H.hash (x ++ w) ≠ x → H.CollFree (proofHashed H q x ++ proofHashed H q (H.hash (x ++ w))) →
        (verifyPoi H p (after H false (ops ++ [.make] ++ vs.map .put))).1 = .ok false) := by
  have hne : held ops ≠ [] := by rintro h; rw [h] at hl; simp at hl
  have hid : ∀ l : List Bytes, l.map (leafOf H false) = l := fun l => List.map_id'' (fun _ => rfl) l
  obtain ⟨j, _, h2, h3⟩ := idxOf?_first vs v hvs
  have hjl : j < vs.length := (List.getElem?_eq_some_iff.mp h2).1
  have hnot : v ∉ held ops ++ vs.take j := by
    rw [List.mem_append, not_or]
    refine ⟨hv, fun hm => ?_⟩
    obtain ⟨k, hk⟩ := List.getElem?_of_mem hm
    have hkl : k < j := by
      have := (List.getElem?_eq_some_iff.mp hk).1
      rw [List.length_take] at this; omega
    rw [List.getElem?_take_of_lt hkl] at hk
    exact h3 k hkl hk
  -- what is common to both cases
  have key : ∀ (pre q : List (Bytes × Bytes)) (w : Bytes), Entries pre → Entries q →
      foldProof H q x = .ok (rfcRoot H (held ops)) →
      (∀ r, foldProof H (pre ++ r) v = foldProof H r w) →
      H.hash (x ++ w) ≠ x → H.CollFree (proofHashed H q x ++ proofHashed H q (H.hash (x ++ w))) →
      (verifyPoi H { type := mtPoi, timestamp := now, targetKey := v, trieRoot := hexOf (rfcRoot H (held ops)), proof := pre ++ (left, hexOf x) :: q } (after H false (ops ++ [.make] ++ vs.map .put))).1 = .ok false := by
    intro pre q w hpre hq hf hw hne' hc
    have he : Entries (pre ++ (left, hexOf x) :: q) := by
      intro e h
      rcases List.mem_append.mp h with h | h
      · exact hpre e h
      · rcases List.mem_cons.mp h with rfl | h
        · exact ⟨x, .inl rfl⟩
        · exact hq e h
    rw [after_extended H false ops vs hne, hid, hid, stale_verify H false _ _ hne _ _ _ _ he]
    obtain ⟨h, hf'⟩ := foldProof_total H q hq (H.hash (x ++ w))
    rw [verifyRaw_eq H _ v _ h (by rw [hw, foldProof_left]; exact hf')]
    have : h ≠ rfcRoot H (held ops) := by
      intro e
      rw [e] at hf'
      exact hne' (foldProof_inj H _ x (H.hash (x ++ w)) _ hc hf hf').symm
    simp [this]
  have hlast : ∃ y, (held ops)[(held ops).length - 1]? = some y := ⟨_, List.getElem?_eq_getElem (by omega)⟩
  obtain ⟨y, hy⟩ := hlast
  have hq : Entries ((rfcPath H (held ops) ((held ops).length - 1)).drop (((held ops).length + 1) % 2)) :=
    fun e h => entries_path H _ _ (by omega) e (List.mem_of_mem_drop h)
  -- the path above `x`
  have hf : foldProof H ((rfcPath H (held ops) ((held ops).length - 1)).drop (((held ops).length + 1) % 2)) x =
      .ok (rfcRoot H (held ops)) := by
    have h0 := fold_path H (held ops) ((held ops).length - 1) y hy
    by_cases ho : (held ops).length % 2 = 1
    · rw [show ((held ops).length + 1) % 2 = 0 by omega, List.drop_zero]
      have : (held ops).drop (2 * (((held ops).length - 1) / 2)) = [y] := by
        rw [show 2 * (((held ops).length - 1) / 2) = (held ops).length - 1 by omega,
          List.drop_eq_getElem_cons (by omega), (List.getElem?_eq_some_iff.mp hy).2,
          List.drop_of_length_le (by omega)]
      rw [hx, this, rfcRoot_one]
      exact h0
    · obtain ⟨z, hz⟩ : ∃ z, (held ops)[(held ops).length - 2]? = some z := ⟨_, List.getElem?_eq_getElem (by omega)⟩
      have : (held ops).drop (2 * (((held ops).length - 1) / 2)) = [z, y] := by
        rw [show 2 * (((held ops).length - 1) / 2) = (held ops).length - 2 by omega,
          List.drop_eq_getElem_cons (by omega), (List.getElem?_eq_some_iff.mp hz).2,
          show (held ops).length - 2 + 1 = (held ops).length - 1 by omega,
          List.drop_eq_getElem_cons (by omega), (List.getElem?_eq_some_iff.mp hy).2,
          List.drop_of_length_le (by omega)]
      have hxz : x = H.hash (z ++ y) := by
        rw [hx, this, rfcRoot_split H [z, y] (by simp)]
        simp [splitPoint, rfcRoot_one]
        rfl
      have hst : stepAt (held ops) ((held ops).length - 1) = [(left, hexOf z)] := by
        unfold stepAt
        rw [if_neg (by omega), if_pos (by omega), show (held ops).length - 1 - 1 = (held ops).length - 2 by omega, hz]
        rfl
      rw [rfcPath_next H _ _ _ (Nat.le_refl _) (by omega) (by omega), hst] at h0 ⊢
      rw [List.singleton_append, foldProof_left, ← hxz] at h0
      rw [show ((held ops).length + 1) % 2 = 1 by omega]
      exact h0
  by_cases hcase : ((held ops).length + j) / 2 = ((held ops).length + 1) / 2
  · -- one place after the end of the next level
    have hg := C79_later H false ops vs v now j (held ops) (hid _).symm hl hcase (by rw [hid]; exact h2)
      (by rw [hid]; exact hnot)
    rw [hg] at hp
    by_cases hev : ((held ops).length + 1) / 2 % 2 = 0
    · rw [if_pos hev] at hp; simp at hp
    · rw [if_neg hev, hid, ← hx] at hp
      simp only [Except.ok.injEq] at hp
      by_cases ho : ((held ops).length + j) % 2 = 1
      · -- the left neighbour
        have hj0 : 0 < j := by omega
        obtain ⟨s, hs⟩ : ∃ s, vs[j - 1]? = some s := ⟨_, List.getElem?_eq_getElem (by omega)⟩
        have hs' : (held ops ++ vs)[(held ops).length + j - 1]? = some s := by
          rw [List.getElem?_append_right (by omega), show (held ops).length + j - 1 - (held ops).length = j - 1 by omega]
          exact hs
        rw [if_pos ho, hs'] at hp
        subst hp
        refine ⟨H.hash (s ++ v), _, .inr ⟨s, List.mem_of_getElem? hs, .inr rfl⟩,
          (List.suffix_cons _ _).trans (List.suffix_append _ _), ?_⟩
        exact key [(left, hexOf s)] _ _ (by intro e h; simp at h; exact ⟨s, .inl h⟩) hq hf (fun r => foldProof_left H s v r)
      · rw [if_neg ho] at hp
        cases hs : (held ops ++ vs)[(held ops).length + j + 1]? with
        | none =>
          rw [hs] at hp
          subst hp
          refine ⟨v, _, .inl rfl, (List.suffix_cons _ _).trans (List.suffix_append _ _), ?_⟩
          exact key [] _ _ (by intro e h; simp at h) hq hf (fun r => rfl)
        | some s =>
          rw [hs] at hp
          subst hp
          have hs' : vs[j + 1]? = some s := by
            rw [List.getElem?_append_right (by omega), show (held ops).length + j + 1 - (held ops).length = j + 1 by omega] at hs
            exact hs
          refine ⟨H.hash (v ++ s), _, .inr ⟨s, List.mem_of_getElem? hs', .inl rfl⟩,
            (List.suffix_cons _ _).trans (List.suffix_append _ _), ?_⟩
          exact key [(right, hexOf s)] _ _ (by intro e h; simp at h; exact ⟨s, .inr h⟩) hq hf
            (fun r => foldProof_right H s v r)
  · by_cases hj : 3 ≤ j
    · have hg := C79_new H false ops vs v now j hl hj (by rw [hid]; exact h2) (by rw [hid]; exact hnot)
      rw [hg] at hp
      simp at hp
    · by_cases hj0 : j = 0
      · -- the first one, after an odd number
        subst hj0
        have ho : (held ops).length % 2 = 1 := by omega
        obtain ⟨ws, rfl⟩ : ∃ ws, vs = v :: ws := by
          cases vs with
          | nil => simp at hvs
          | cons a ws => simp at h2; exact ⟨ws, by rw [h2]⟩
        have hsplit : held ops = (held ops).dropLast ++ [y] := by
          have h9 := List.dropLast_concat_getLast hne
          rw [List.getLast_eq_getElem, (List.getElem?_eq_some_iff.mp hy).2] at h9
          exact h9.symm
        have hg := C79_next H false ops ws (held ops).dropLast y v now hsplit (by rw [List.length_dropLast]; omega)
          (by intro h; have := congrArg List.length h; rw [List.length_dropLast] at this; simp at this; omega)
          (by rw [hid]; exact hv)
        rw [hg, hid] at hp
        simp only [Except.ok.injEq] at hp
        subst hp
        have hxy : x = y := by
          rw [hx, show 2 * (((held ops).length - 1) / 2) = (held ops).length - 1 by omega,
            List.drop_eq_getElem_cons (by omega), (List.getElem?_eq_some_iff.mp hy).2,
            List.drop_of_length_le (by omega), rfcRoot_one]
        have hq' := hq
        have hf' := hf
        rw [show ((held ops).length + 1) % 2 = 0 by omega, List.drop_zero] at hq' hf'
        refine ⟨v, rfcPath H (held ops) ((held ops).length - 1), .inl rfl, ?_, ?_⟩
        · rw [List.length_dropLast]; exact List.suffix_cons _ _
        · intro h4 h5
          have := key [] _ _ (by intro e h; simp at h) hq' hf' (fun r => rfl) h4 h5
          rw [List.length_dropLast, show leafOf H false y = x from hxy.symm]
          exact this
      · -- `j = 2` after an even number
        have hj' : ((held ops).length + 1) / 2 < ((held ops).length + j) / 2 := by omega
        exfalso
        rw [after_extended H false ops vs hne, hid, hid, stale_later H false _ _ now v j hne h2 hv h3] at hp
        have hnl := nextLevel_length H (held ops)
        obtain ⟨n, hnn⟩ : ∃ n, (held ops).length - 1 = n + 1 := ⟨(held ops).length - 2, by omega⟩
        rw [stale_upper H _ _ (by omega), proofLoop_step _ _ _ (by rw [List.length_append]; omega), hnn,
          climb_dropLast H n _ (by omega), proofLoop_beyond _ _ _ (by omega)] at hp
        simp [Except.map] at hp

/-- After five values, `7`; the conditions hold and the proof is rejected. -/
example : let x := rfcRoot toyHash ((held sampleOps).drop (2 * (((held sampleOps).length - 1) / 2)))
    3 ≤ (held sampleOps).length ∧ [7] ∉ held sampleOps ∧ x = [5, 5, 5] ∧ toyHash.hash (x ++ [7]) ≠ x ∧
    (getPoi toyHash [] [7] (after toyHash false (sampleOps ++ [.make] ++ [[7]].map .put))).1.map (·.proof.length) =
      .ok 2 := by decide +kernel

/-- Without any `make_tree` (or request for the root) there are no proofs at all. -/
theorem C79_early (H : HashFn) (secure : Bool) (ops : List MOp) (vs : List Bytes) (v now : Bytes)
    (hr : ops = [] ∨ ∃ ops', ops = ops' ++ [.reset]) :
    getPoi H now v (after H secure (ops ++ vs.map .put)) =
      (.error .valueError, after H secure (ops ++ vs.map .put)) := by
  have hready : (after H secure (ops ++ vs.map .put)).ready = false := by
    unfold after
    rw [run_append, run_puts]
    rcases hr with rfl | ⟨ops', rfl⟩
    · rfl
    · show (run H (ops' ++ [.reset]) (new secure)).ready = false
      rw [run_snoc]; rfl
  unfold getPoi
  simp [proofRaw_unready H _ v hready]

example : held ([.put [9], .root, .reset] ++ [[1], [2]].map .put) = [[1], [2]] := by decide

end Pymt.Props
