import Verif.Spec.KeyLife
import Verif.Props.KeyPair

/-!
# The keys of a key pair object (C173)
-/

namespace Pymt
namespace Props

open KeyPair

variable {K : Type}

/-- The claim: whatever is done to a key pair object, its public key stays the same, and so a signature made with it stays
valid. -/
def C173 : Prop :=
  ∀ (K : Type) (C : Crypto K) (p : KeyPair K) (acts : List (KeyAct K)) (data s : Bytes) (k : K), p.key = some k →
    p.sign C data = .ok s →
    (afterActs acts p).publicKey C = p.publicKey C ∧ (afterActs acts p).signatureValid C data s none = p.signatureValid C data s none

/-- `generate_keypair` replaces the keys of the object: the public key is another one, and signatures that were made before are
checked with the new one. -/
theorem C173_replaced (C : Crypto K) (p : KeyPair K) (k : K) (data s : Bytes) (hp : p.kind ≠ .enc) :
    act (.generate true (.ok k)) p = (.ok (), { p with key := some k }) ∧
    (afterActs [.generate true (.ok k)] p).publicKey C = .ok (C.exportPublic (C.pub k)) ∧
    (afterActs [.generate true (.ok k)] p).signatureValid C data s none = .ok (C.verify (C.pub k) data s) := by
  refine ⟨rfl, rfl, ?_⟩
  show signatureValid C { p with key := some k } data s none = _
  unfold signatureValid
  cases hkind : p.kind <;> simp_all [publicKey, theKey, C.import_public]

theorem C173_false : ¬ C173 := by
  intro h
  have := (h ToyKey toyCrypto alice [.generate true (.ok (7, true))] [1] [1, 1] (1, true) rfl rfl).1
  exact absurd this (by decide)

/-- Alice signs, makes new keys, and no longer finds their own signature valid. -/
example : alice.sign toyCrypto [4] = .ok [1, 4] ∧ alice.signatureValid toyCrypto [4] [1, 4] none = .ok true ∧
    (afterActs [.generate true (.ok (7, true))] alice).signatureValid toyCrypto [4] [1, 4] none = .ok false := by decide

/-- What assignments and deletions do: the public key cannot be set or deleted, the nickname not deleted; all these raise
ValueError and change nothing. -/
theorem C173_refused (p : KeyPair K) (key : Bytes) (drawn : Py K) :
    act (.setPublic key) p = (.error .valueError, p) ∧ act .delPublic p = (.error .valueError, p) ∧
    act (.setPublicString key) p = (.error .valueError, p) ∧ act .delPublicString p = (.error .valueError, p) ∧
    act .delNick p = (.error .valueError, p) ∧ act (.generate false drawn) p = (.error .valueError, p) :=
  ⟨rfl, rfl, rfl, rfl, rfl, rfl⟩

/-- After anything a client did, the keys are the last ones that `generate_keypair` made, or else those at first; the
nickname is the last one assigned, or else the one at first; and the class is as before. -/
theorem C173_state (acts : List (KeyAct K)) : ∀ p : KeyPair K,
    afterActs acts p = ⟨p.kind, (newNicks acts).getLast?.getD p.nickname, ((newKeys acts).getLast?.map some).getD p.key⟩ := by
  have last : ∀ {α : Type} (x : α) (l : List α), (x :: l).getLast? = some (l.getLast?.getD x) := by
    intro α x l; cases l <;> simp [List.getLast?_cons]
  induction acts with
  | nil => intro p; rfl
  | cons a acts ih =>
    intro p
    have e : afterActs (a :: acts) p = afterActs acts (act a p).2 := rfl
    rw [e, ih]
    cases a with
    | setNick n =>
      show _ = KeyPair.mk p.kind ((n :: newNicks acts).getLast?.getD p.nickname) _
      rw [last]
      rfl
    | generate i d =>
      cases i with
      | false => rfl
      | true =>
        cases d with
        | error e => rfl
        | ok k =>
          show _ = KeyPair.mk p.kind _ (((k :: newKeys acts).getLast?.map some).getD p.key)
          rw [last]
          cases h : (newKeys acts).getLast? <;> simp [act] <;> rfl
    | _ => rfl

/-- As long as no call of `generate_keypair` returns, the object has the same public key, signs, checks signatures, encrypts
and decrypts as before, for all arguments.  Missing from the claim: calls of `generate_keypair` (`C173_replaced`). -/
theorem C173_partial (C : Crypto K) (J : JsonDict) (p : KeyPair K) (acts : List (KeyAct K))
    (h : ∀ k, .generate true (.ok k) ∉ acts) :
    (afterActs acts p).publicKey C = p.publicKey C ∧ (afterActs acts p).publicKeyString C = p.publicKeyString C ∧
    (∀ data, (afterActs acts p).sign C data = p.sign C data) ∧
    (∀ data s pk, (afterActs acts p).signatureValid C data s pk = p.signatureValid C data s pk) ∧
    (∀ r data pk, (afterActs acts p).encrypt C J r data pk = p.encrypt C J r data pk) ∧
    (∀ data pk, (afterActs acts p).decrypt C J data pk = p.decrypt C J data pk) := by
  have hn : newKeys acts = [] := by
    induction acts with
    | nil => rfl
    | cons a acts ih =>
      have ih := ih fun k hk => h k (.tail _ hk)
      unfold newKeys
      split
      · rename_i e; cases e
      · rename_i k acts' e
        injection e with e1 e2
        exact absurd (e1 ▸ List.mem_cons_self ..) (h k)
      · rename_i e; injection e with _ e2; rw [← e2]; exact ih
  rw [C173_state, hn]
  exact ⟨rfl, rfl, fun _ => rfl, fun _ _ _ => rfl, fun _ _ _ => rfl, fun _ _ => rfl⟩

/-- Attempts at replacing the public key, a new nickname, and two calls of `generate_keypair` that raise. -/
def keyLife : List (KeyAct ToyKey) :=
  [.setPublic [1], .setNick [120], .generate false (.ok (9, true)), .generate true (.error .valueError), .delPublicString, .delNick]

example : (∀ k, .generate true (.ok k) ∉ keyLife) ∧ (afterActs keyLife alice).nickname = [120] ∧
    (afterActs keyLife alice).publicKey toyCrypto = alice.publicKey toyCrypto ∧ newNicks keyLife = [[120]] := by
  refine ⟨fun k h => ?_, by decide, by decide, by decide⟩
  simp [keyLife] at h

/-- A message encrypted for an object before these can be decrypted after them (compare C45). -/
theorem C173_messages (C : Crypto K) (J : JsonDict) (r : Rand) (hs : r.session.length = 16) (hn : r.nonce.length = 16)
    (a b : KeyPair K) (ka kb : K) (ha : a.kind = .rsa) (hb : b.kind = .rsa) (hka : a.key = some ka) (hkb : b.key = some kb)
    (hpa : C.hasPrivate ka = true) (hpb : C.hasPrivate kb = true) (m : Bytes) (acts : List (KeyAct K))
    (h : ∀ k, .generate true (.ok k) ∉ acts) :
    ∃ pa pb x, a.publicKey C = .ok pa ∧ b.publicKey C = .ok pb ∧ a.encrypt C J r m pb = .ok x ∧
      (afterActs acts b).decrypt C J x pa = .ok m := by
  obtain ⟨pa, pb, x, h1, h2, h3, h4⟩ := C45_round_trip C J r hs hn a b ka kb ha hb hka hkb hpa hpb m
  exact ⟨pa, pb, x, h1, h2, h3, ((C173_partial C J b acts h).2.2.2.2.2 x pa).trans h4⟩

example : alice.kind = .rsa ∧ bob.kind = .rsa ∧ toyCrypto.hasPrivate (2, true) = true ∧ dice.session.length = 16 := by decide

end Props
end Pymt
