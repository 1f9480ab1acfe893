import Verif.Props.KeyPair

/-!
# Who sent an encrypted message, and to whom (C163, C164)

`encrypt` encrypts first and signs the ciphertext afterwards (`/repo/src/pymt/keypairs.py:211-229`); neither the sender nor the
receiver is named in what is encrypted, and the receiver is not named in what is signed.
-/

namespace Pymt.Props

open KeyPair

variable {K : Type}

/-- What `encrypt` writes. -/
theorem encrypt_text (C : Crypto K) (J : JsonDict) (r : Rand) (a : KeyPair K) (ka kb : K) (ha : a.kind = .rsa) (hka : a.key = some ka)
    (hpa : C.hasPrivate ka = true) (m : Bytes) :
    a.encrypt C J r m (C.exportPublic (C.pub kb)) = .ok (J.dumps
      [(kSession, hexOf (C.oaepEnc (C.pub kb) r.seed r.session)), (kNonce, hexOf r.nonce),
       (kTag, hexOf (C.aesEnc r.session r.nonce m).2), (kCipher, hexOf (C.aesEnc r.session r.nonce m).1),
       (kSignature, hexOf (C.sign ka (C.aesEnc r.session r.nonce m).1))]) := by
  unfold KeyPair.encrypt
  rw [ha]
  simp only [C.import_public, Except.bind_ok', KeyPair.sign, ha, hka, hpa, if_true, Except.pure_ok']

/-! ### C163: nobody else can pass for the sender -/

/-- The claim: `a` encrypts `m` for `b`.  Whatever is made of the message without touching what was encrypted, `b` takes it for a
message of `a` or not at all. -/
def C163 : Prop :=
  ∀ (K : Type) (C : Crypto K) (J : JsonDict) (r : Rand) (a b : KeyPair K) (pa pb m x x' sender m' : Bytes) (d d' : List (Bytes × Bytes)),
    a.publicKey C = .ok pa → b.publicKey C = .ok pb → a.encrypt C J r m pb = .ok x → J.loads x = .ok d → J.loads x' = .ok d' →
    (∀ name ∈ [kSession, kNonce, kTag, kCipher], member d' name = member d name) →
    b.decrypt C J x' sender = .ok m' → sender = pa

/-- A message with the signature taken off and another one put on. -/
def resigned (J : JsonDict) (d : List (Bytes × Bytes)) (signature : Bytes) : Bytes :=
  J.dumps ((d.filter fun e => e.1 ≠ kSignature) ++ [(kSignature, hexOf signature)])

/-- Whoever sees a message can take off the signature and put on their own, without knowing what the message says: the receiver
takes the message for theirs. -/
theorem C163_steal (C : Crypto K) (J : JsonDict) (r : Rand) (hs : r.session.length = 16) (hn : r.nonce.length = 16) (a b : KeyPair K)
    (ka kb kt : K) (ha : a.kind = .rsa) (hb : b.kind = .rsa) (hka : a.key = some ka) (hkb : b.key = some kb)
    (hpa : C.hasPrivate ka = true) (hpb : C.hasPrivate kb = true) (hpt : C.hasPrivate kt = true) (m : Bytes) :
    ∃ x d c, a.encrypt C J r m (C.exportPublic (C.pub kb)) = .ok x ∧ J.loads x = .ok d ∧ member d kCipher = .ok c ∧
      b.decrypt C J (resigned J d (C.sign kt c)) (C.exportPublic (C.pub kt)) = .ok m ∧
      ∃ d', J.loads (resigned J d (C.sign kt c)) = .ok d' ∧
        ∀ name ∈ [kSession, kNonce, kTag, kCipher], member d' name = member d name := by
  have hne : r.nonce ≠ [] := by intro h; simp [h] at hn
  have he : ∀ (p q s c sig sig' : Bytes), resigned J [(kSession, hexOf p), (kNonce, hexOf q), (kTag, hexOf s), (kCipher, hexOf c),
      (kSignature, hexOf sig)] sig' = J.dumps [(kSession, hexOf p), (kNonce, hexOf q), (kTag, hexOf s), (kCipher, hexOf c),
      (kSignature, hexOf sig')] := fun _ _ _ _ _ _ => rfl
  refine ⟨_, _, _, encrypt_text C J r a ka kb ha hka hpa m, message_loads _ _ _ _ _ _, (message_members _ _ _ _ _).2.2.2.1, ?_, ?_⟩
  · rw [he, decrypt_message C J b hb kb hkb]
    simp only [C.import_public, Except.bind_ok', C.verify_sign kt _ hpt, if_true, C.oaep kb _ _ hpb hs, C.aes _ _ _ (.inl hs) hne]
  · refine ⟨_, by rw [he]; exact message_loads _ _ _ _ _ _, fun name hname => ?_⟩
    obtain ⟨h1, h2, h3, h4, _⟩ := message_members (C.oaepEnc (C.pub kb) r.seed r.session) r.nonce (C.aesEnc r.session r.nonce m).2
      (C.aesEnc r.session r.nonce m).1 (C.sign ka (C.aesEnc r.session r.nonce m).1)
    obtain ⟨g1, g2, g3, g4, _⟩ := message_members (C.oaepEnc (C.pub kb) r.seed r.session) r.nonce (C.aesEnc r.session r.nonce m).2
      (C.aesEnc r.session r.nonce m).1 (C.sign kt (C.aesEnc r.session r.nonce m).1)
    simp only [List.mem_cons, List.not_mem_nil, or_false] at hname
    rcases hname with rfl | rfl | rfl | rfl
    · rw [h1, g1]
    · rw [h2, g2]
    · rw [h3, g3]
    · rw [h4, g4]

/-- **C163** is false. -/
theorem C163_false : ¬ C163 := by
  intro h
  obtain ⟨x, d, c, h1, h2, _, h4, d', h5, h6⟩ :=
    C163_steal toyCrypto toyJson dice rfl rfl alice bob (1, true) (2, true) (3, true) rfl rfl rfl rfl rfl rfl rfl [1, 2]
  have := h ToyKey toyCrypto toyJson dice alice bob _ _ [1, 2] x _ _ [1, 2] d d' rfl rfl h1 h2 h5 h6 h4
  exact absurd this (by decide)

/-- **C163** (part) A message that still carries the signature `s`: if `s` is valid for the ciphertext with no public key but that
of `a`, then the one whom `decrypt` takes for the sender is `a`, whatever was done to the rest of the message. -/
theorem C163_partial (C : Crypto K) (J : JsonDict) (b : KeyPair K) (ka : K) (x' sender m' c s : Bytes) (d' : List (Bytes × Bytes))
    (hl : J.loads x' = .ok d') (hc : member d' kCipher = .ok c) (hs : member d' kSignature = .ok s)
    (hu : ∀ key, C.verify key c s = true → C.pub key = C.pub ka) (h : b.decrypt C J x' sender = .ok m') :
    ∃ key, C.importKey sender none = .ok key ∧ C.pub key = C.pub ka := by
  obtain ⟨d, key, c', s', h1, h2, h3, h4, h5⟩ := C45_signed C J b x' sender m' h
  rw [hl] at h1
  injection h1 with h1
  subst h1
  rw [hc] at h2
  injection h2 with h2
  subst h2
  rw [hs] at h3
  injection h3 with h3
  subst h3
  exact ⟨key, h4, hu key h5⟩

/-- What Alice sends to Bob with the ciphertext `[8, 9]`. -/
def toBob : List (Bytes × Bytes) :=
  [(kSession, hexOf (toyCrypto.oaepEnc (toyCrypto.pub (2, true)) dice.seed dice.session)), (kNonce, hexOf dice.nonce),
   (kTag, hexOf (toyCrypto.aesEnc dice.session dice.nonce []).2), (kCipher, hexOf [8, 9]), (kSignature, hexOf [1, 8, 9])]

/-- `decrypt` accepts it as a message of Alice. -/
theorem toBob_read : bob.decrypt toyCrypto toyJson (toyJson.dumps toBob) (hexOf [1]) =
    .ok (([8, 9] : Bytes).map (· - dice.session.headD 0)) := by
  unfold toBob
  rw [decrypt_message toyCrypto toyJson bob rfl (2, true) rfl]
  decide +kernel

/-- The signature in it is valid with no key but Alice's. -/
example (sender m' : Bytes) (h : bob.decrypt toyCrypto toyJson (toyJson.dumps toBob) sender = .ok m') :
    ∃ key, toyCrypto.importKey sender none = .ok key ∧ toyCrypto.pub key = toyCrypto.pub (1, true) :=
  C163_partial toyCrypto toyJson bob (1, true) (toyJson.dumps toBob) sender m' [8, 9] [1, 8, 9] toBob
    (by unfold toBob; exact message_loads toyJson _ _ _ _ _) (by unfold toBob; exact (message_members _ _ _ _ _).2.2.2.1)
    (by unfold toBob; exact (message_members _ _ _ _ _).2.2.2.2)
    (by
      intro key hk
      simp only [toyCrypto, decide_eq_true_eq, List.cons.injEq] at hk
      exact Prod.ext hk.1.symm rfl) h

/-! ### C164: a message is for the one who can read it -/

/-- The claim: `a` encrypts `m` for `b`.  A message with this ciphertext and signature of `a` is read by nobody but `b`. -/
def C164 : Prop :=
  ∀ (K : Type) (C : Crypto K) (J : JsonDict) (r : Rand) (a b c : KeyPair K) (pa pb pc m x x' m' : Bytes) (d d' : List (Bytes × Bytes)),
    a.publicKey C = .ok pa → b.publicKey C = .ok pb → c.publicKey C = .ok pc → a.encrypt C J r m pb = .ok x → J.loads x = .ok d →
    J.loads x' = .ok d' → (∀ name ∈ [kCipher, kSignature], member d' name = member d name) →
    c.decrypt C J x' pa = .ok m' → pc = pb

/-- What `b` can make of a message that was encrypted for `b`: the same for another receiver.  Only the session key is encrypted
anew, which `b` has read. -/
def forwarded (C : Crypto K) (J : JsonDict) (kb : K) (seed : Bytes) (receiver : K) (d : List (Bytes × Bytes)) : Py Bytes := do
  let e ← member d kSession
  let session ← C.oaepDec kb e
  return J.dumps ((kSession, hexOf (C.oaepEnc receiver seed session)) :: d.filter fun e => e.1 ≠ kSession)

/-- The receiver of a message can send it on: the next receiver takes it for a message that `a` has sent to them. -/
theorem C164_forward (C : Crypto K) (J : JsonDict) (r : Rand) (hs : r.session.length = 16) (hn : r.nonce.length = 16) (a c : KeyPair K)
    (ka kb kc : K) (ha : a.kind = .rsa) (hc : c.kind = .rsa) (hka : a.key = some ka) (hkc : c.key = some kc)
    (hpa : C.hasPrivate ka = true) (hpb : C.hasPrivate kb = true) (hpc : C.hasPrivate kc = true) (m seed : Bytes) :
    ∃ x d x', a.encrypt C J r m (C.exportPublic (C.pub kb)) = .ok x ∧ J.loads x = .ok d ∧
      forwarded C J kb seed (C.pub kc) d = .ok x' ∧ c.decrypt C J x' (C.exportPublic (C.pub ka)) = .ok m ∧
      ∃ d', J.loads x' = .ok d' ∧ ∀ name ∈ [kCipher, kSignature], member d' name = member d name := by
  have hne : r.nonce ≠ [] := by intro h; simp [h] at hn
  have hf : forwarded C J kb seed (C.pub kc) [(kSession, hexOf (C.oaepEnc (C.pub kb) r.seed r.session)), (kNonce, hexOf r.nonce),
      (kTag, hexOf (C.aesEnc r.session r.nonce m).2), (kCipher, hexOf (C.aesEnc r.session r.nonce m).1),
      (kSignature, hexOf (C.sign ka (C.aesEnc r.session r.nonce m).1))] =
      .ok (J.dumps [(kSession, hexOf (C.oaepEnc (C.pub kc) seed r.session)), (kNonce, hexOf r.nonce),
      (kTag, hexOf (C.aesEnc r.session r.nonce m).2), (kCipher, hexOf (C.aesEnc r.session r.nonce m).1),
      (kSignature, hexOf (C.sign ka (C.aesEnc r.session r.nonce m).1))]) := by
    unfold forwarded
    rw [(message_members _ _ _ _ _).1]
    simp only [Except.bind_ok', C.oaep kb _ _ hpb hs]
    rfl
  refine ⟨_, _, _, encrypt_text C J r a ka kb ha hka hpa m, message_loads _ _ _ _ _ _, hf, ?_, ?_⟩
  · rw [decrypt_message C J c hc kc hkc]
    simp only [C.import_public, Except.bind_ok', C.verify_sign ka _ hpa, if_true, C.oaep kc _ _ hpc hs, C.aes _ _ _ (.inl hs) hne]
  · refine ⟨_, message_loads _ _ _ _ _ _, fun name hname => ?_⟩
    simp only [List.mem_cons, List.not_mem_nil, or_false] at hname
    rcases hname with rfl | rfl
    · rw [(message_members _ _ _ _ _).2.2.2.1, (message_members _ _ _ _ _).2.2.2.1]
    · rw [(message_members _ _ _ _ _).2.2.2.2, (message_members _ _ _ _ _).2.2.2.2]

/-- A third key pair. -/
def carol : KeyPair ToyKey := { kind := .rsa, nickname := [99], key := some (3, true) }

/-- **C164** is false. -/
theorem C164_false : ¬ C164 := by
  intro h
  obtain ⟨x, d, x', h1, h2, _, h4, d', h5, h6⟩ :=
    C164_forward toyCrypto toyJson dice rfl rfl alice carol (1, true) (2, true) (3, true) rfl rfl rfl rfl rfl rfl rfl [1, 2] []
  have := h ToyKey toyCrypto toyJson dice alice bob carol _ _ _ [1, 2] x x' [1, 2] d d' rfl rfl rfl h1 h2 h5 h6 h4
  exact absurd this (by decide)

/-- **C164** (part) The message as it is: who reads it has a key that opens the session key.  If no private key but that of `b`
does, only `b` reads it, whoever they take for the sender. -/
theorem C164_partial (C : Crypto K) (J : JsonDict) (r : Rand) (a c : KeyPair K) (ka kb kc : K) (ha : a.kind = .rsa)
    (hka : a.key = some ka) (hkc : c.key = some kc) (hpa : C.hasPrivate ka = true) (m x sender m' : Bytes)
    (hx : a.encrypt C J r m (C.exportPublic (C.pub kb)) = .ok x)
    (ho : ∀ k s, C.oaepDec k (C.oaepEnc (C.pub kb) r.seed r.session) = .ok s → C.pub k = C.pub kb)
    (h : c.decrypt C J x sender = .ok m') : C.pub kc = C.pub kb := by
  rw [encrypt_text C J r a ka kb ha hka hpa m] at hx
  injection hx with hx
  subst hx
  obtain ⟨d, e, n, t, c', s, pk, kc', session, h1, h2, _, _, _, _, _, _, h9, h10, _⟩ := C58_ciphertext_partial C J c _ sender m' h
  rw [message_loads] at h1
  injection h1 with h1
  subst h1
  rw [(message_members _ _ _ _ _).1] at h2
  injection h2 with h2
  subst h2
  rw [hkc] at h9
  injection h9 with h9
  subst h9
  exact ho kc session h10

example (m' : Bytes) (c : KeyPair ToyKey) (kc : ToyKey) (hkc : c.key = some kc)
    (h : c.decrypt toyCrypto toyJson (rewrap toyCrypto toyJson dice (toyCrypto.pub (2, true))
      (toyCrypto.aesEnc dice.session dice.nonce [1, 2]).1 (toyCrypto.sign (1, true) (toyCrypto.aesEnc dice.session dice.nonce [1, 2]).1)
      (toyCrypto.aesEnc dice.session dice.nonce [1, 2]).2) (hexOf [1]) = .ok m') : toyCrypto.pub kc = (2, false) :=
  C164_partial toyCrypto toyJson dice alice c (1, true) (2, true) kc rfl rfl hkc rfl [1, 2] _ (hexOf [1]) m'
    (encrypt_text toyCrypto toyJson dice alice (1, true) (2, true) rfl rfl rfl [1, 2])
    (by
      intro k s hk
      simp only [toyCrypto, List.head?_cons, List.tail_cons, Option.some.injEq] at hk ⊢
      split at hk
      · rename_i he
        exact Prod.ext he.symm rfl
      · cases hk) h

example : alice.encrypt toyCrypto toyJson dice [1, 2] (toyCrypto.exportPublic (toyCrypto.pub (2, true))) =
    .ok (rewrap toyCrypto toyJson dice (toyCrypto.pub (2, true)) (toyCrypto.aesEnc dice.session dice.nonce [1, 2]).1
      (toyCrypto.sign (1, true) (toyCrypto.aesEnc dice.session dice.nonce [1, 2]).1) (toyCrypto.aesEnc dice.session dice.nonce [1, 2]).2) :=
  encrypt_text toyCrypto toyJson dice alice (1, true) (2, true) rfl rfl rfl [1, 2]

end Pymt.Props
