import Verif.Lemmas.Equality
import Verif.Lemmas.EqualityReal
import Verif.Props.Merkle
import Verif.Spec.Toy

/-!
# `==` and `hash` of tries, proofs and Merkle trees (C26, C60, C61)
-/

namespace Pymt
namespace Props

open MTree

/-! ### C26: tries -/

/-- The claim, with the real hash: `hash(t)` returns, and `t == u` tells whether the roots agree. -/
def C26 : Prop :=
  ∀ t u : MPT, t.root ≠ none → u.root ≠ none →
    (∃ n, t.hash realEnv = .ok n) ∧ ∃ e, t.eq realEnv u = .ok e ∧ (e = true ↔ t.root = u.root)

/-- `hash(MPT())` and `MPT() == t` raise ValueError. -/
theorem C26_fresh (store : Store) (secure : Bool) (u : MPT) :
    (MPT.init realEnv store none secure).hash realEnv = .error .valueError ∧
    (MPT.init realEnv store none secure).eq realEnv u = .error .valueError := by
  have h : (MPT.init realEnv store none secure).hash realEnv = .error .valueError := fresh_hash
  exact ⟨h, by simp [MPT.eq, h]⟩

theorem C26_false : ¬ C26 := by
  intro h
  obtain ⟨n, hn⟩ := (h (MPT.init realEnv Store.empty none false) (MPT.init realEnv Store.empty none false)
    (by simp [MPT.init]) (by simp [MPT.init])).1
  rw [(C26_fresh Store.empty false (MPT.init realEnv Store.empty none false)).1] at hn
  cases hn

/-- `int(digest, 16)` reads the 32 raw bytes of the digest as text.  So both raise ValueError as soon as one of
them is none of the 33 bytes that can occur in a hexadecimal number: white space, `+ - _ x X`, digits. -/
theorem C26_raises (E : Env) (t u : MPT) (r : Bytes) (hr : t.root = some r) (c : UInt8) (hc : c ∈ E.keccak r)
    (hbad : c ∉ [9, 10, 11, 12, 13, 32, 43, 45, 95, 120, 88, 48, 49, 50, 51, 52, 53, 54, 55, 56, 57,
      97, 98, 99, 100, 101, 102, 65, 66, 67, 68, 69, 70]) :
    t.hash E = .error .valueError ∧ t.eq E u = .error .valueError := by
  have h : t.hash E = .error .valueError := by
    unfold MPT.hash
    rw [hr]
    simp only
    cases hp : parseInt16 (E.keccak r) with
    | ok n =>
      have hb := parseInt16_bytes hp c hc
      have : ∀ n < 256, intByte (UInt8.ofNat n) = true → UInt8.ofNat n ∈
        ([9, 10, 11, 12, 13, 32, 43, 45, 95, 120, 88, 48, 49, 50, 51, 52, 53, 54, 55, 56, 57,
          97, 98, 99, 100, 101, 102, 65, 66, 67, 68, 69, 70] : List UInt8) := by decide +kernel
      have hm := this c.toNat c.toNat_lt (by simpa using hb)
      simp only [UInt8.ofNat_toNat] at hm
      exact absurd hm hbad
    | error e =>
      unfold parseInt16 at hp
      simp only at hp
      split at hp
      · cases hp; rfl
      · split at hp
        · cases hp; rfl
        · split at hp
          · cases hp; rfl
          · split at hp
            · cases hp
            · cases hp; rfl
  exact ⟨h, by simp [MPT.eq, h]⟩

example : (33 : UInt8) ∈ (List.replicate 32 33) ∧ (33 : UInt8) ∉ ([9, 10, 11, 12, 13, 32, 43, 45, 95, 120, 88, 48, 49,
    50, 51, 52, 53, 54, 55, 56, 57, 97, 98, 99, 100, 101, 102, 65, 66, 67, 68, 69, 70] : List UInt8) := by decide

/-- A trie whose last key was deleted has the root `None`: TypeError. -/
theorem C26_emptied (E : Env) (t u : MPT) (h : t.root = none) :
    t.hash E = .error .typeError ∧ t.eq E u = .error .typeError := by
  have h : t.hash E = .error .typeError := by simp [MPT.hash, h]
  exact ⟨h, by simp [MPT.eq, h]⟩

/-- What is left of the claim: if neither hash raises, the comparison returns, and it returns True when the roots
agree. -/
theorem C26_same_partial (E : Env) (t u : MPT) (m n : Int) (ht : t.hash E = .ok m) (hu : u.hash E = .ok n) :
    ∃ e, t.eq E u = .ok e ∧ (t.root = u.root → e = true) := by
  refine ⟨m == n, by simp [MPT.eq, ht, hu], ?_⟩
  intro h
  unfold MPT.hash at ht hu
  rw [h] at ht
  rw [ht] at hu
  cases hu
  simp

/-- A hash with two digests that read as the same number, for the next theorem. -/
def paddedEnv : Env where
  keccak b := if b = [] then List.replicate 32 48 else 32 :: List.replicate 31 48
  keccak_len b := by split <;> rfl
  limit := 100

example : ({ store := Store.empty, root := some [], secure := false } : MPT).hash paddedEnv = .ok 0 := by decide

/-- The other direction fails even then: different roots with different digests can compare equal. -/
theorem C26_conflate : ∃ (E : Env) (t u : MPT) (a b : Bytes), t.root = some a ∧ u.root = some b ∧ a ≠ b ∧
    E.keccak a ≠ E.keccak b ∧ t.eq E u = .ok true :=
  ⟨paddedEnv, { store := Store.empty, root := some [], secure := false },
    { store := Store.empty, root := some [1], secure := false }, [], [1], rfl, rfl, by decide, by decide, by decide⟩

/-! ### C60: proofs -/

/-- Proofs compare equal exactly when type, timestamp, key, root and entries all agree, unless keccak-256 collides
on the two descriptions; the comparison and `hash` never raise. -/
theorem C60_eq (E : Env) (p q : Proof Entry)
    (hc : E.keccak p.dictRepr = E.keccak q.dictRepr → p.dictRepr = q.dictRepr) :
    (∃ n, p.hash E = .ok n) ∧ ∃ e, p.eq E q = .ok e ∧ (e = true ↔ p = q) := by
  have hne : ∀ b, E.keccak b ≠ [] := by
    intro b h
    have := E.keccak_len b
    rw [h] at this
    cases this
  have h1 := parseInt16_hexOf _ (hne p.dictRepr)
  have h2 := parseInt16_hexOf _ (hne q.dictRepr)
  refine ⟨⟨_, h1⟩, _, by simp only [Proof.eq, Proof.hash, h1, h2, Except.bind_ok', Except.pure_ok']; rfl, ?_⟩
  rw [beq_iff_eq]
  constructor
  · intro h
    have h := beVal_inj (by rw [E.keccak_len, E.keccak_len]) (Int.ofNat.inj h)
    exact Proof.dictRepr_inj (hc h)
  · rintro rfl
    rfl

/-- A Merkle tree proof and one for an MPT. -/
example : toyEnv.keccak (Proof.dictRepr { type := mtPoi, timestamp := [50], targetKey := [39, 10, 200], trieRoot := [1], proof := [.tuple [[1], [2]]] }) ≠
    toyEnv.keccak (Proof.dictRepr { type := mptPoi, timestamp := [50], targetKey := [39, 10, 200], trieRoot := [1], proof := [.bytes [1], .bytes [2]] }) := by
  decide +kernel

/-- In particular two proofs of the same fact made at different times are different. -/
theorem C60_time (E : Env) (p : Proof Entry) (now : Bytes) (h : now ≠ p.timestamp)
    (hc : E.keccak p.dictRepr = E.keccak ({ p with timestamp := now } : Proof Entry).dictRepr →
      p.dictRepr = ({ p with timestamp := now } : Proof Entry).dictRepr) :
    p.eq E { p with timestamp := now } = .ok false := by
  obtain ⟨_, e, he, hiff⟩ := C60_eq E p { p with timestamp := now } hc
  rw [he]
  cases e with
  | false => rfl
  | true =>
    have := hiff.mp rfl
    exact absurd (congrArg Proof.timestamp this).symm h

/-! ### C61: Merkle trees -/

/-- The claim: two trees that hold values compare equal exactly when their roots agree. -/
def C61 : Prop :=
  ∀ (H : HashFn) (s s' : Bool) (ops ops' : List MOp), 0 < H.size → held ops ≠ [] → held ops' ≠ [] →
    ∃ e, (MTree.eq H (after H s (ops ++ [.make])) (after H s' (ops' ++ [.make]))).1 = .ok e ∧
      (e = true ↔ (root H (after H s (ops ++ [.make]))).1 = (root H (after H s' (ops' ++ [.make]))).1)

/-- True when both roots have the same length, and are not empty. -/
theorem C61_length_partial (H : HashFn) (s s' : Bool) (ops ops' : List MOp) (hn : held ops ≠ []) (hn' : held ops' ≠ [])
    (r r' : Bytes) (hr : (root H (after H s (ops ++ [.make]))).1 = .ok (hexOf r))
    (hr' : (root H (after H s' (ops' ++ [.make]))).1 = .ok (hexOf r')) (hne : r ≠ []) (hlen : r.length = r'.length) :
    ∃ e, (MTree.eq H (after H s (ops ++ [.make])) (after H s' (ops' ++ [.make]))) =
        (.ok e, after H s (ops ++ [.make]), after H s' (ops' ++ [.make])) ∧
      (e = true ↔ (root H (after H s (ops ++ [.make]))).1 = (root H (after H s' (ops' ++ [.make]))).1) := by
  have hne' : r' ≠ [] := by
    rintro rfl
    exact hne (List.eq_nil_of_length_eq_zero hlen)
  rw [after_make H s ops hn, after_make H s' ops' hn'] at *
  have hb := built_root H s ((held ops).map (leafOf H s)) (by simpa using hn)
  have hb' := built_root H s' ((held ops').map (leafOf H s')) (by simpa using hn')
  rw [hb] at hr
  rw [hb'] at hr'
  have e1 := Except.ok.inj hr
  have e2 := Except.ok.inj hr'
  refine ⟨((beVal 0 r : Nat) : Int) == ((beVal 0 r' : Nat) : Int), ?_, ?_⟩
  · unfold MTree.eq MTree.hash
    simp only [M.bind_apply, M.lift_apply, hb, hb', e1, e2, parseInt16_hexOf r hne, parseInt16_hexOf r' hne']
  · rw [hb, hb', beq_iff_eq, e1, e2]
    constructor
    · intro h
      rw [beVal_inj hlen (Int.ofNat.inj h)]
    · intro h
      rw [hexOf_inj (Except.ok.inj h)]

/-- In the default mode all roots have the length of a digest. -/
theorem C61_secure_partial (H : HashFn) (hs : 0 < H.size) (ops ops' : List MOp) (hn : held ops ≠ [])
    (hn' : held ops' ≠ []) :
    ∃ e, (MTree.eq H (after H true (ops ++ [.make])) (after H true (ops' ++ [.make]))) =
        (.ok e, after H true (ops ++ [.make]), after H true (ops' ++ [.make])) ∧
      (e = true ↔ (root H (after H true (ops ++ [.make]))).1 = (root H (after H true (ops' ++ [.make]))).1) := by
  have len : ∀ l : List Bytes, l ≠ [] → (rfcRoot H (l.map (leafOf H true))).length = H.size := by
    intro l hl
    refine rfcRoot_len H _ _ (Nat.le_refl _) (by simpa using hl) ?_
    intro x hx
    obtain ⟨v, _, rfl⟩ := List.mem_map.mp hx
    exact H.hash_len v
  refine C61_length_partial H true true ops ops' hn hn' _ _ (C41_made_partial H true ops hn)
    (C41_made_partial H true ops' hn') ?_ ?_
  · intro h
    have := len _ hn
    rw [h] at this
    simp at this
    omega
  · rw [len _ hn, len _ hn']

example : 0 < toyHash.size ∧ held sampleOps ≠ [] ∧ held fullOps ≠ [] := by decide

/-- Without hashing of the values, a single value is its own root, and leading zeros get lost. -/
theorem C61_zeros (H : HashFn) (v : Bytes) (hv : v ≠ []) :
    (MTree.eq H (after H false (putAndMake [0 :: v])) (after H false (putAndMake [v]))).1 = .ok true ∧
    (root H (after H false (putAndMake [0 :: v]))).1 ≠ (root H (after H false (putAndMake [v]))).1 := by
  have e1 : root H (after H false (putAndMake [0 :: v])) = (.ok (hexOf (0 :: v)), after H false (putAndMake [0 :: v])) := by
    rw [after_putAndMake H false _ (by simp)]
    exact built_root H false _ (by simp)
  have e2 : root H (after H false (putAndMake [v])) = (.ok (hexOf v), after H false (putAndMake [v])) := by
    rw [after_putAndMake H false _ (by simp)]
    exact built_root H false _ (by simp)
  constructor
  · unfold MTree.eq MTree.hash
    simp only [M.bind_apply, M.lift_apply, e1, e2, parseInt16_hexOf v hv, parseInt16_hexOf (0 :: v) (by simp)]
    simp [beVal]
  · rw [e1, e2]
    intro h
    have := congrArg List.length (hexOf_inj (Except.ok.inj h))
    simp at this

theorem C61_false : ¬ C61 := by
  intro h
  obtain ⟨e, h1, h2⟩ := h toyHash false false [.put [0, 1]] [.put [1]] (by decide) (by decide) (by decide)
  obtain ⟨z1, z2⟩ := C61_zeros toyHash [1] (by simp)
  have : e = true := Except.ok.inj (h1.symm.trans z1)
  exact z2 (h2.mp this)

/-- A single empty value, or no value: ValueError. -/
theorem C61_raises (H : HashFn) (u : MTree) :
    (MTree.eq H (after H false (putAndMake [[]])) u).1 = .error .valueError ∧
    (MTree.eq H (after H false [.make]) u).1 = .error .valueError := by
  constructor <;> rfl

end Props
end Pymt
