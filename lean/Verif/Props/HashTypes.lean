import Verif.Lemmas.HashTypes
import Verif.Lemmas.MerkleThreads
import Verif.Props.Equality

/-!
# The hash function of a Merkle tree (C171, C172)
-/

namespace Pymt
namespace Props

open MTree

/-- Some functions with digests of the right lengths, for the examples. -/
def toyHashlib : Hashlib where
  fn k := { hash := fun b => List.replicate k.size (b.foldl (fun a x => 31 * a + x) 7), size := k.size,
            hash_len := fun b => by simp }
  size_eq _ := rfl

/-! ### C171: which names of hash functions are accepted -/

/-- The claim: the two documented names, `sha256` and `sha3`, are accepted. -/
def C171 : Prop :=
  ∀ (L : Hashlib) (secure : Bool), newOf L secure [115, 104, 97, 50, 53, 54] ≠ none ∧ newOf L secure [115, 104, 97, 51] ≠ none

/-- With `hash_type="sha3"` the constructor raises. -/
theorem C171_sha3 (L : Hashlib) (secure : Bool) : newOf L secure [115, 104, 97, 51] = none := by
  have h : HashType.parse [115, 104, 97, 51] = none := by decide
  simp [newOf, h]

theorem C171_false : ¬ C171 := fun h => (h toyHashlib true).2 (C171_sha3 _ _)

/-- A text is accepted exactly if it is one of nine names, up to the case of letters.  The tree then is empty, has
the given mode, and hashes with the function of that name.  Missing from the claim: `sha3` is not one of the names. -/
theorem C171_partial (L : Hashlib) (secure : Bool) (text : Bytes) (r : HashFn × MTree) :
    newOf L secure text = some r ↔
      ∃ name k, (name, k) ∈ acceptedNames ∧ SameUpToCase text (asciiOf name) ∧
        r = (L.fn k, { secure := secure, leaves := [], upper := none, ready := false }) := by
  have key : ∀ k, HashType.parse text = some k ↔ ∃ name, (name, k) ∈ acceptedNames ∧ SameUpToCase text (asciiOf name) := by
    intro k
    have hl : ∀ name k, (name, k) ∈ acceptedNames → (SameUpToCase text (asciiOf name) ↔ asciiOf name = HashType.lower text) := by
      intro name k h
      refine (lower_iff _ _ ?_).symm
      have : ∀ e ∈ acceptedNames, ∀ n ∈ asciiOf e.1, ¬ (65 ≤ n.toNat ∧ n.toNat ≤ 90) := by decide
      exact this _ h
    unfold HashType.parse
    generalize HashType.lower text = w at hl
    constructor
    · intro h
      obtain ⟨e, he, rfl⟩ := Option.map_eq_some_iff.mp h
      have hm := List.mem_of_find?_eq_some he
      have hw : e.1 = w := by simpa using List.find?_some he
      have : ∀ e ∈ HashType.names, ∃ a ∈ acceptedNames, asciiOf a.1 = e.1 ∧ a.2 = e.2 := by decide
      obtain ⟨⟨name, k⟩, h1, h2, h3⟩ := this e hm
      refine ⟨name, h3 ▸ h1, (hl name k h1).mpr (h2.trans hw)⟩
    · rintro ⟨name, h1, h2⟩
      rw [hl name k h1] at h2
      subst h2
      have : ∀ a ∈ acceptedNames, (HashType.names.find? fun e => e.1 == asciiOf a.1).map (·.2) = some a.2 := by decide
      exact this _ h1
  unfold newOf
  rw [Option.map_eq_some_iff]
  constructor
  · rintro ⟨k, hk, rfl⟩
    obtain ⟨name, h1, h2⟩ := (key k).mp hk
    exact ⟨name, k, h1, h2, rfl⟩
  · rintro ⟨name, k, h1, h2, rfl⟩
    exact ⟨k, (key k).mpr ⟨name, h1, h2⟩, rfl⟩

/-- `SHA3_256` and `Md5` are accepted, `sha3`, `sha1` and `sha256 ` (with a space) are not. -/
example : SameUpToCase (asciiOf ['S', 'H', 'A', '3', '_', '2', '5', '6']) (asciiOf ['s', 'h', 'a', '3', '_', '2', '5', '6']) ∧
    (newOf toyHashlib true (asciiOf ['S', 'H', 'A', '3', '_', '2', '5', '6'])).map (·.1.size) = some 32 ∧
    (newOf toyHashlib true (asciiOf ['M', 'd', '5'])).map (·.1.size) = some 16 ∧
    (newOf toyHashlib true (asciiOf ['s', 'h', 'a', '3'])).isNone ∧ (newOf toyHashlib true (asciiOf ['s', 'h', 'a', '1'])).isNone ∧
    (newOf toyHashlib true (asciiOf ['s', 'h', 'a', '2', '5', '6', ' '])).isNone := by decide

/-! ### C172: trees with different hash functions -/

/-- The claim: a tree accepts no proof made by a tree with another hash function, and is not equal to it. -/
def C172 : Prop :=
  ∀ (L : Hashlib) (k k' : HashType) (s s' : Bool) (ops ops' : List MOp), k ≠ k' → held ops ≠ [] → held ops' ≠ [] →
    (∀ now v p, (getPoi (L.fn k) now v (after (L.fn k) s (ops ++ [.make]))).1 = .ok p →
      (verifyPoi (L.fn k') p (after (L.fn k') s' (ops' ++ [.make]))).1 ≠ .ok true) ∧
    (eqOf (L.fn k) (L.fn k') (after (L.fn k) s (ops ++ [.make])) (after (L.fn k') s' (ops' ++ [.make]))).1 ≠ .ok true

/-- With `secure=False` the root of a single value is the value, whatever the function. -/
theorem C172_single (H H' : HashFn) (v now : Bytes) (hv : v ≠ []) :
    (∃ p, (getPoi H now v (after H false [.put v, .make])).1 = .ok p ∧
      (verifyPoi H' p (after H' false [.put v, .make])).1 = .ok true) ∧
    (eqOf H H' (after H false [.put v, .make]) (after H' false [.put v, .make])).1 = .ok true := by
  have e := after_make H false [.put v] (by simp [held])
  have e' := after_make H' false [.put v] (by simp [held])
  have hl : leafOf H false = leafOf H' false := rfl
  constructor
  · obtain ⟨p, h1, h2, h3, h4⟩ := C38_verifies H [.put v] v now (by simp [held])
    obtain ⟨p', h1', h2', h3', h4'⟩ := C38_verifies H' [.put v] v now (by simp [held])
    refine ⟨p, congrArg (·.1) h1, ?_⟩
    have : p = p' := by
      have a := congrArg (·.1) h1
      have b := congrArg (·.1) h1'
      have raw : ∀ G : HashFn, (after G false ([.put v] ++ [.make])).proofRaw G v = .ok [] := by
        intro G
        have i : ([v] : List Bytes).idxOf? v = some 0 := by simp [List.idxOf?_cons]
        show (match ([v] : List Bytes).idxOf? v with | none => _ | some index => _) = _
        rw [i]
        rfl
      have c : (getPoi H now v (after H false ([.put v] ++ [.make]))).1 = (getPoi H' now v (after H' false ([.put v] ++ [.make]))).1 := by
        rw [MProg.getPoi_eq, MProg.getPoi_eq, raw, raw]
        rfl
      exact Except.ok.inj (a.symm.trans (c.trans b))
    rw [this]
    exact congrArg (·.1) h4'
  · have b := built_root H false ((held [.put v]).map (leafOf H false)) (by simp [held])
    have b' := built_root H' false ((held [.put v]).map (leafOf H' false)) (by simp [held])
    show (eqOf H H' (after H false ([.put v] ++ [.make])) (after H' false ([.put v] ++ [.make]))).1 = _
    rw [e, e']
    unfold eqOf MTree.hash
    have r : rfcRoot H ((held [.put v]).map (leafOf H false)) = v := rfl
    have r' : rfcRoot H' ((held [.put v]).map (leafOf H' false)) = v := rfl
    rw [r] at b
    rw [r'] at b'
    simp only [M.bind_apply, M.lift_apply, b, b', parseInt16_hexOf v hv]
    simp

example : ([1, 2] : Bytes) ≠ [] := by decide

theorem C172_false : ¬ C172 := by
  intro h
  exact (h toyHashlib .sha256 .md5 false false [.put [1]] [.put [1]] (by decide) (by decide) (by decide)).2
    (C172_single _ _ [1] [] (by decide)).2

/-- Whatever the two hash functions: a tree accepts a proof of another tree only if the roots are the same; and `==`
tells, of roots that are not empty, whether they are the same number, that is, the same but for leading zeros. -/
theorem C172_roots (H H' : HashFn) (s s' : Bool) (ops ops' : List MOp) (hn : held ops ≠ []) (hn' : held ops' ≠ [])
    (r r' : Bytes) (hr : (root H (after H s (ops ++ [.make]))).1 = .ok (hexOf r))
    (hr' : (root H' (after H' s' (ops' ++ [.make]))).1 = .ok (hexOf r')) :
    (∀ now v p, (getPoi H now v (after H s (ops ++ [.make]))).1 = .ok p →
      (verifyPoi H' p (after H' s' (ops' ++ [.make]))).1 = .ok true → r = r') ∧
    (r ≠ [] → r' ≠ [] → ∃ e, (eqOf H H' (after H s (ops ++ [.make])) (after H' s' (ops' ++ [.make]))) =
        (.ok e, after H s (ops ++ [.make]), after H' s' (ops' ++ [.make])) ∧
      (e = true ↔ List.replicate (r'.length - r.length) 0 ++ r = List.replicate (r.length - r'.length) 0 ++ r')) := by
  rw [after_make H s ops hn] at *
  rw [after_make H' s' ops' hn'] at *
  have hb := built_root H s ((held ops).map (leafOf H s)) (by simpa using hn)
  have hb' := built_root H' s' ((held ops').map (leafOf H' s')) (by simpa using hn')
  rw [hb] at hr
  rw [hb'] at hr'
  have e1 := hexOf_inj (Except.ok.inj hr)
  have e2 := hexOf_inj (Except.ok.inj hr')
  constructor
  · intro now v p hp ha
    have h1 := (accepted H' s' _ (by simpa using hn') p ha).1
    rw [MProg.getPoi_eq, hb] at hp
    split at hp
    · cases hp
    · have := Except.ok.inj hp
      subst this
      exact e1.symm.trans ((hexOf_inj h1).trans e2)
  · intro hne hne'
    refine ⟨((beVal 0 r : Nat) : Int) == ((beVal 0 r' : Nat) : Int), ?_, ?_⟩
    · unfold eqOf MTree.hash
      simp only [M.bind_apply, M.lift_apply, hb, hb', e1, e2, parseInt16_hexOf r hne, parseInt16_hexOf r' hne']
    · rw [beq_iff_eq]
      constructor
      · intro h
        refine beVal_inj ?_ ?_
        · simp; omega
        · rw [beVal_zeros, beVal_zeros]
          exact Int.ofNat.inj h
      · intro h
        have := congrArg (beVal 0) h
        rw [beVal_zeros, beVal_zeros] at this
        rw [this]

/-- Digests of different lengths, and each tree has two values or hashes its values: no proof of the one is accepted by
the other, and `==` is true only if the longer root is the shorter one after zeros.  Missing from the claim: single
values with `secure=False` (`C172_single`), and functions with digests of the same length (`C172_apart_partial`). -/
theorem C172_partial (L : Hashlib) (k k' : HashType) (s s' : Bool) (ops ops' : List MOp) (hk : k.size < k'.size)
    (hn : s = true ∧ held ops ≠ [] ∨ 2 ≤ (held ops).length) (hn' : s' = true ∧ held ops' ≠ [] ∨ 2 ≤ (held ops').length) :
    (∀ now v p, (getPoi (L.fn k) now v (after (L.fn k) s (ops ++ [.make]))).1 = .ok p →
      (verifyPoi (L.fn k') p (after (L.fn k') s' (ops' ++ [.make]))).1 ≠ .ok true) ∧
    (∀ now v p, (getPoi (L.fn k') now v (after (L.fn k') s' (ops' ++ [.make]))).1 = .ok p →
      (verifyPoi (L.fn k) p (after (L.fn k) s (ops ++ [.make]))).1 ≠ .ok true) ∧
    ∃ r r', (root (L.fn k) (after (L.fn k) s (ops ++ [.make]))).1 = .ok (hexOf r) ∧
      (root (L.fn k') (after (L.fn k') s' (ops' ++ [.make]))).1 = .ok (hexOf r') ∧ r.length = k.size ∧ r'.length = k'.size ∧
      ∃ e, (eqOf (L.fn k) (L.fn k') (after (L.fn k) s (ops ++ [.make])) (after (L.fn k') s' (ops' ++ [.make]))).1 = .ok e ∧
        (e = true ↔ r' = List.replicate (k'.size - k.size) 0 ++ r) := by
  have ne : ∀ {s : Bool} {l : List Bytes}, s = true ∧ l ≠ [] ∨ 2 ≤ l.length → l ≠ [] := by
    rintro s l (⟨_, h⟩ | h) rfl
    · exact h rfl
    · simp at h
  have hp : 0 < k.size := by cases k <;> decide
  have l1 := root_size (L.fn k) s _ hn
  have l2 := root_size (L.fn k') s' _ hn'
  rw [L.size_eq] at l1 l2
  have r1 := C41_made_partial (L.fn k) s ops (ne hn)
  have r2 := C41_made_partial (L.fn k') s' ops' (ne hn')
  generalize rfcRoot (L.fn k) _ = r at l1 r1
  generalize rfcRoot (L.fn k') _ = r' at l2 r2
  have hd : r ≠ r' := by rintro rfl; omega
  have z : r ≠ [] := by rintro rfl; simp at l1; omega
  have z' : r' ≠ [] := by rintro rfl; simp at l2; omega
  have c := C172_roots _ _ s s' ops ops' (ne hn) (ne hn') r r' r1 r2
  have c' := C172_roots _ _ s' s ops' ops (ne hn') (ne hn) r' r r2 r1
  refine ⟨fun now v p h h' => hd (c.1 now v p h h'), fun now v p h h' => hd (c'.1 now v p h h').symm, r, r', r1, r2, l1, l2, ?_⟩
  obtain ⟨e, h1, h2⟩ := c.2 z z'
  refine ⟨e, congrArg (·.1) h1, ?_⟩
  rw [h2, l1, l2, show k.size - k'.size = 0 by omega, eq_comm]
  simp

example : HashType.md5.size < HashType.sha256.size ∧ 2 ≤ (held sampleOps).length ∧ held fullOps ≠ [] := by decide
/-- Two trees with the same values. -/
example : (getPoi (toyHashlib.fn .md5) [] [3] (after (toyHashlib.fn .md5) false (sampleOps ++ [.make]))).1.isOk = true ∧
    (eqOf (toyHashlib.fn .md5) (toyHashlib.fn .sha256) (after (toyHashlib.fn .md5) false (sampleOps ++ [.make]))
      (after (toyHashlib.fn .sha256) false (sampleOps ++ [.make]))).1 = .ok false := by decide +kernel

/-- The same for any two hash functions of which no digest of a string hashed for the first tree is the digest of a string
hashed for the second: no proof of the one is accepted by the other, and if the digests have the same length, `==` is false.
Missing from the claim: single values with `secure=False` (`C172_single`). -/
theorem C172_apart_partial (H H' : HashFn) (s s' : Bool) (ops ops' : List MOp)
    (hn : s = true ∧ held ops ≠ [] ∨ 2 ≤ (held ops).length) (hn' : s' = true ∧ held ops' ≠ [] ∨ 2 ≤ (held ops').length)
    (hc : ∀ x ∈ held ops ++ treeStrings H ((held ops).map (leafOf H s)),
      ∀ y ∈ held ops' ++ treeStrings H' ((held ops').map (leafOf H' s')), H.hash x ≠ H'.hash y) :
    (∀ now v p, (getPoi H now v (after H s (ops ++ [.make]))).1 = .ok p →
      (verifyPoi H' p (after H' s' (ops' ++ [.make]))).1 ≠ .ok true) ∧
    (∀ now v p, (getPoi H' now v (after H' s' (ops' ++ [.make]))).1 = .ok p →
      (verifyPoi H p (after H s (ops ++ [.make]))).1 ≠ .ok true) ∧
    (0 < H.size → H.size = H'.size →
      (eqOf H H' (after H s (ops ++ [.make])) (after H' s' (ops' ++ [.make]))).1 = .ok false) := by
  have ne : ∀ {s : Bool} {l : List Bytes}, s = true ∧ l ≠ [] ∨ 2 ≤ l.length → l ≠ [] := by
    rintro s l (⟨_, h⟩ | h) rfl
    · exact h rfl
    · simp at h
  have l1 := root_size H s _ hn
  have l2 := root_size H' s' _ hn'
  obtain ⟨x, hx, ex⟩ := root_digest H s _ hn
  obtain ⟨y, hy, ey⟩ := root_digest H' s' _ hn'
  have r1 := C41_made_partial H s ops (ne hn)
  have r2 := C41_made_partial H' s' ops' (ne hn')
  have hd := hc x hx y hy
  rw [← ex, ← ey] at hd
  generalize rfcRoot H _ = r at l1 r1 hd
  generalize rfcRoot H' _ = r' at l2 r2 hd
  have c := C172_roots _ _ s s' ops ops' (ne hn) (ne hn') r r' r1 r2
  have c' := C172_roots _ _ s' s ops' ops (ne hn') (ne hn) r' r r2 r1
  refine ⟨fun now v p h h' => hd (c.1 now v p h h'), fun now v p h h' => hd (c'.1 now v p h h').symm, fun h0 hs => ?_⟩
  have z : r ≠ [] := by rintro rfl; simp at l1; omega
  have z' : r' ≠ [] := by rintro rfl; simp at l2; omega
  obtain ⟨e, h1, h2⟩ := c.2 z z'
  rw [h1]
  cases e with
  | false => rfl
  | true =>
    have := h2.mp rfl
    rw [l1, l2, hs, Nat.sub_self] at this
    exact absurd this hd

/-- Another hash function with digests of two bytes. -/
def otherHash : HashFn where
  hash b := [255 - UInt8.ofNat b.length, b.foldl (fun a x => 31 * a + x) 7]
  size := 2
  hash_len _ := rfl

example : (∀ x ∈ held sampleOps ++ treeStrings toyHash ((held sampleOps).map (leafOf toyHash true)),
      ∀ y ∈ held sampleOps ++ treeStrings otherHash ((held sampleOps).map (leafOf otherHash true)),
        toyHash.hash x ≠ otherHash.hash y) ∧ toyHash.size = otherHash.size ∧ 2 ≤ (held sampleOps).length := by decide +kernel

end Props
end Pymt
