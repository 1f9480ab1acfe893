import Verif.Model.KeyPair
import Verif.Lemmas.Merkle
import Verif.Props.ProofCodec

/-!
# Key pairs and password encryption (C45–C48, C57–C60)

`C` is the cryptographic library, `J` the JSON library, both by contract.
-/

namespace Pymt

/-! ### Libraries that meet the contracts, for the examples -/

/-- A key: its number, and whether it is private. -/
abbrev ToyKey := UInt8 × Bool

/-- A "cryptographic library" that meets the contract (and is not secure). -/
def toyCrypto : Crypto ToyKey where
  hasPrivate k := k.2
  pub k := (k.1, false)
  exportPublic k := hexOf [k.1]
  exportPrivate k p r := 1 :: k.1 :: p
  importKey b p :=
    match p, b with
    | none, b =>
      match fromHex b with
      | .ok [i] => .ok (i, false)
      | _ => .error .valueError
    | some p, 1 :: i :: p' => if p = p' then .ok (i, true) else .error .valueError
    | _, _ => .error .valueError
  sha256 b := List.replicate 31 0 ++ [UInt8.ofNat b.length]
  sign k d := k.1 :: d
  verify k d s := s = k.1 :: d
  oaepEnc k _ m := k.1 :: m
  oaepDec k c := if c.head? = some k.1 then .ok c.tail else .error .valueError
  aesEnc k _ m := (m.map (· + k.headD 0), List.replicate 16 (k.headD 0))
  aesDec k _ c t := if t = List.replicate 16 (k.headD 0) then .ok (c.map (· - k.headD 0)) else .error .valueError
  pub_pub _ := rfl
  pub_hasPrivate _ := rfl
  import_public k := by simp [fromHex_hexOf]
  import_private k p r h := by
    obtain ⟨i, b⟩ := k
    simp only at h
    simp [h]
  export_utf8 k := utf8Valid_ascii _ (hexOf_ascii _)
  verify_sign k d _ := by simp
  oaep k r m _ _ := by simp
  aes k n m _ _ := by simp [Function.comp_def]
  aes_tag k n m _ _ := by simp
  sha256_len b := by simp

/-- Two lists as one list of pairs, and back. -/
def unflatten : List Bytes → Option (List (Bytes × Bytes))
  | [] => some []
  | a :: b :: rest => (unflatten rest).map fun l => (a, b) :: l
  | _ => none

/-- All members in a row. -/
def flatten : List (Bytes × Bytes) → List Bytes
  | [] => []
  | (a, b) :: rest => a :: b :: flatten rest

theorem unflatten_flatten : ∀ l, unflatten (flatten l) = some l
  | [] => rfl
  | (a, b) :: l => by simp [flatten, unflatten, unflatten_flatten l]

/-- A library that meets the contract of `JsonDict`. -/
def toyJson : JsonDict where
  dumps d := hexOf (packList (flatten d))
  loads s :=
    match fromHex s with
    | .ok b =>
      match (unpackList b.length b).bind unflatten with
      | some d => .ok d
      | none => .error .valueError
    | .error e => .error e
  loads_dumps d _ _ := by simp [fromHex_hexOf, unpackList_pack _ _ (Nat.le_refl _), unflatten_flatten]
  dumps_utf8 d := utf8Valid_ascii _ (hexOf_ascii _)

namespace KeyPair

variable {K : Type}

/-! ### Lemmas -/

theorem keys_utf8 : ∀ k ∈ [kSession, kNonce, kTag, kCipher, kSignature, kNickname, kPublic, kPrivate],
    utf8Valid k = true := by decide

theorem hex_utf8 (b : Bytes) : utf8Valid (hexOf b) = true := utf8Valid_ascii _ (hexOf_ascii b)

/-- The message that `encrypt` writes down, read back. -/
theorem message_loads (J : JsonDict) (a b c d e : Bytes) :
    J.loads (J.dumps [(kSession, hexOf a), (kNonce, hexOf b), (kTag, hexOf c), (kCipher, hexOf d),
      (kSignature, hexOf e)]) =
    .ok [(kSession, hexOf a), (kNonce, hexOf b), (kTag, hexOf c), (kCipher, hexOf d), (kSignature, hexOf e)] := by
  apply J.loads_dumps
  · intro x hx
    simp only [List.mem_cons, List.not_mem_nil, or_false] at hx
    rcases hx with rfl | rfl | rfl | rfl | rfl <;> exact ⟨by dsimp only; decide, hex_utf8 _⟩
  · simp only [List.map_cons, List.map_nil]
    decide

theorem message_members (a b c d e : Bytes) :
    let m := [(kSession, hexOf a), (kNonce, hexOf b), (kTag, hexOf c), (kCipher, hexOf d), (kSignature, hexOf e)]
    member m kSession = .ok a ∧ member m kNonce = .ok b ∧ member m kTag = .ok c ∧ member m kCipher = .ok d ∧
      member m kSignature = .ok e := by
  simp only
  refine ⟨?_, ?_, ?_, ?_, ?_⟩
  all_goals
    unfold member dgetItem
    simp only [dget]
    simp [kSession, kNonce, kTag, kCipher, kSignature, fromHex_hexOf]

/-- `decrypt` on a well-formed message. -/
theorem decrypt_message (C : Crypto K) (J : JsonDict) (p : KeyPair K) (hk : p.kind = .rsa) (k : K)
    (hkey : p.key = some k) (a b c d e sender : Bytes) :
    p.decrypt C J (J.dumps [(kSession, hexOf a), (kNonce, hexOf b), (kTag, hexOf c), (kCipher, hexOf d),
      (kSignature, hexOf e)]) sender = (do
        let key ← C.importKey sender none
        if C.verify key d e = true then do
          let session ← C.oaepDec k a
          C.aesDec session b d c
        else .error .valueError) := by
  obtain ⟨h1, h2, h3, h4, h5⟩ := message_members a b c d e
  unfold decrypt
  rw [hk]
  simp only [decodeUtf8, J.dumps_utf8, if_true, Except.bind_ok', message_loads, h1, h2, h3, h4, h5]
  unfold signatureValid theKey
  rw [hk, hkey]
  simp only [Except.bind_ok']
  cases hi : C.importKey sender none with
  | error e => rfl
  | ok key =>
    simp only [Except.bind_ok', Except.pure_ok']
    cases C.verify key d e <;> simp

end KeyPair

namespace Props

open KeyPair

variable {K : Type}

/-- Two key pairs for the examples. -/
def alice : KeyPair ToyKey := { kind := .rsa, nickname := [97], key := some (1, true) }
/-- The second. -/
def bob : KeyPair ToyKey := { kind := .rsa, nickname := [98], key := some (2, true) }
/-- Randomness for the examples. -/
def dice : Rand := { session := List.replicate 16 5, seed := [], nonce := List.replicate 16 7 }

/-! ### C45: encryption round trip -/

/-- What the sender encrypts for the receiver, the receiver decrypts. -/
theorem C45_round_trip (C : Crypto K) (J : JsonDict) (r : Rand) (hs : r.session.length = 16)
    (hn : r.nonce.length = 16) (a b : KeyPair K) (ka kb : K) (ha : a.kind = .rsa) (hb : b.kind = .rsa)
    (hka : a.key = some ka) (hkb : b.key = some kb) (hpa : C.hasPrivate ka = true) (hpb : C.hasPrivate kb = true)
    (m : Bytes) :
    ∃ pa pb x, a.publicKey C = .ok pa ∧ b.publicKey C = .ok pb ∧ a.encrypt C J r m pb = .ok x ∧
      b.decrypt C J x pa = .ok m := by
  have hne : r.nonce ≠ [] := by intro h; simp [h] at hn
  have hx : a.encrypt C J r m (C.exportPublic (C.pub kb)) = .ok (J.dumps
      [(kSession, hexOf (C.oaepEnc (C.pub kb) r.seed r.session)), (kNonce, hexOf r.nonce),
       (kTag, hexOf (C.aesEnc r.session r.nonce m).2), (kCipher, hexOf (C.aesEnc r.session r.nonce m).1),
       (kSignature, hexOf (C.sign ka (C.aesEnc r.session r.nonce m).1))]) := by
    unfold encrypt
    rw [ha]
    simp only [C.import_public, Except.bind_ok', KeyPair.sign, ha, hka, hpa, if_true, Except.pure_ok', theKey]
  refine ⟨C.exportPublic (C.pub ka), _, _, by simp [publicKey, theKey, hka], by simp [publicKey, theKey, hkb], hx, ?_⟩
  rw [decrypt_message C J b hb kb hkb]
  simp only [C.import_public, Except.bind_ok', C.verify_sign ka _ hpa, if_true, C.oaep kb _ _ hpb hs,
    C.aes _ _ _ (.inl hs) hne]

example : alice.kind = .rsa ∧ alice.key = some (1, true) ∧ toyCrypto.hasPrivate (1, true) = true ∧
    dice.session.length = 16 ∧ dice.nonce.length = 16 := by decide

/-- `decrypt` returns a message only if the signature on its ciphertext is valid for the sender's key. -/
theorem C45_signed (C : Crypto K) (J : JsonDict) (b : KeyPair K) (x sender m : Bytes)
    (h : b.decrypt C J x sender = .ok m) :
    ∃ d key ciphertext signature, J.loads x = .ok d ∧ member d kCipher = .ok ciphertext ∧
      member d kSignature = .ok signature ∧ C.importKey sender none = .ok key ∧
      C.verify key ciphertext signature = true := by
  unfold decrypt at h
  split at h
  · cases h
  · cases hu : decodeUtf8 x with
    | error e => simp [hu] at h
    | ok text =>
      rw [MTree.decodeUtf8_same hu] at hu
      cases hl : J.loads x with
      | error e => simp [hu, hl] at h
      | ok d =>
        cases h1 : member d kSession with
        | error e => simp [hu, hl, h1] at h
        | ok s1 =>
        cases h2 : member d kNonce with
        | error e => simp [hu, hl, h1, h2] at h
        | ok s2 =>
        cases h3 : member d kTag with
        | error e => simp [hu, hl, h1, h2, h3] at h
        | ok s3 =>
        cases h4 : member d kCipher with
        | error e => simp [hu, hl, h1, h2, h3, h4] at h
        | ok s4 =>
        cases h5 : member d kSignature with
        | error e => simp [hu, hl, h1, h2, h3, h4, h5] at h
        | ok s5 =>
          cases h6 : b.signatureValid C s4 s5 (some sender) with
          | error e => simp [hu, hl, h1, h2, h3, h4, h5, h6] at h
          | ok v =>
            cases v with
            | false => simp [hu, hl, h1, h2, h3, h4, h5, h6] at h
            | true =>
              unfold signatureValid at h6
              split at h6
              · cases h6
              · simp only [Except.bind_ok'] at h6
                cases hi : C.importKey sender none with
                | error e => simp [hi] at h6
                | ok key =>
                  simp [hi] at h6
                  exact ⟨d, key, s4, s5, rfl, h4, h5, rfl, h6⟩

/-- A signature that does not fit the sender's key: ValueError. -/
theorem C45_wrong_signature (C : Crypto K) (J : JsonDict) (b : KeyPair K) (hb : b.kind = .rsa) (kb : K)
    (hkb : b.key = some kb) (session nonce tag ciphertext signature sender : Bytes) (key : K)
    (hi : C.importKey sender none = .ok key) (hv : C.verify key ciphertext signature = false) :
    b.decrypt C J (J.dumps [(kSession, hexOf session), (kNonce, hexOf nonce), (kTag, hexOf tag),
      (kCipher, hexOf ciphertext), (kSignature, hexOf signature)]) sender = .error .valueError := by
  rw [decrypt_message C J b hb kb hkb]
  simp [hi, hv]

example : toyCrypto.importKey (hexOf [1]) none = .ok (1, false) ∧ toyCrypto.verify (1, false) [9] [2, 9] = false := by
  decide

/-! ### C46: encryption key pairs -/

/-- The claim: an `RsaEncKeyPair` encrypts and decrypts. -/
def C46 : Prop :=
  ∀ (K : Type) (C : Crypto K) (J : JsonDict) (r : Rand) (a b : KeyPair K) (ka kb : K) (m : Bytes),
    a.kind = .enc → b.kind = .enc → a.key = some ka → b.key = some kb → C.hasPrivate ka = true →
    C.hasPrivate kb = true → r.session.length = 16 → r.nonce.length = 16 →
    ∃ pa pb x, a.publicKey C = .ok pa ∧ b.publicKey C = .ok pb ∧ a.encrypt C J r m pb = .ok x ∧
      b.decrypt C J x pa = .ok m

/-- It never does: `encrypt` signs and `decrypt` checks signatures, which this class refuses. -/
theorem C46_never (C : Crypto K) (J : JsonDict) (r : Rand) (p : KeyPair K) (h : p.kind = .enc) (data key : Bytes) :
    (∀ x, p.encrypt C J r data key ≠ .ok x) ∧ (∀ x, p.decrypt C J data key ≠ .ok x) ∧
    (∀ k, C.importKey key none = .ok k → p.encrypt C J r data key = .error .notImplemented) := by
  refine ⟨?_, ?_, ?_⟩
  · intro x
    unfold encrypt
    rw [h]
    cases hi : C.importKey key none <;> simp [KeyPair.sign, h]
  · intro x hx
    obtain ⟨d, k, c, s, h1, h2, h3, h4, h5⟩ := C45_signed C J p data key x hx
    have hx2 := hx
    unfold decrypt at hx2
    rw [h] at hx2
    simp only at hx2
    cases hu : decodeUtf8 data with
    | error e => simp [hu] at hx2
    | ok text =>
      rw [MTree.decodeUtf8_same hu] at hu
      cases g1 : member d kSession with
      | error e => simp [hu, h1, g1] at hx2
      | ok s1 =>
      cases g2 : member d kNonce with
      | error e => simp [hu, h1, g1, g2] at hx2
      | ok s2 =>
      cases g3 : member d kTag with
      | error e => simp [hu, h1, g1, g2, g3] at hx2
      | ok s3 => simp [hu, h1, g1, g2, g3, h2, h3, signatureValid, h] at hx2
  · intro k hk
    unfold encrypt
    rw [h]
    simp [hk, KeyPair.sign, h]

theorem C46_false : ¬ C46 := by
  intro h
  obtain ⟨pa, pb, x, _, _, h3, _⟩ := h ToyKey toyCrypto toyJson dice { alice with kind := .enc }
    { bob with kind := .enc } (1, true) (2, true) [1, 2, 3] rfl rfl rfl rfl rfl rfl rfl rfl
  exact (C46_never toyCrypto toyJson dice _ rfl _ _).1 x h3

/-- What does work for the three classes: authentication key pairs and plain ones sign, and the signature is
valid. -/
theorem C46_sign_partial (C : Crypto K) (p q : KeyPair K) (k : K) (hp : p.kind ≠ .enc) (hq : q.kind ≠ .enc)
    (hk : p.key = some k) (hpriv : C.hasPrivate k = true) (data : Bytes) :
    ∃ s pk, p.sign C data = .ok s ∧ p.publicKey C = .ok pk ∧ q.signatureValid C data s (some pk) = .ok true ∧
      p.signatureValid C data s none = .ok true := by
  have hsign : p.sign C data = .ok (C.sign k data) := by
    unfold KeyPair.sign
    cases hkind : p.kind <;> simp_all
  have hpub : p.publicKey C = .ok (C.exportPublic (C.pub k)) := by simp [publicKey, theKey, hk]
  refine ⟨_, _, hsign, hpub, ?_, ?_⟩
  · unfold signatureValid
    cases hkind : q.kind <;> simp_all [C.import_public, C.verify_sign k data hpriv]
  · unfold signatureValid
    cases hkind : p.kind <;> simp_all [C.import_public, C.verify_sign k data hpriv]

example : ({ alice with kind := .auth } : KeyPair ToyKey).kind ≠ .enc := by decide

/-! ### C47: export round trip -/

theorem C47_string (C : Crypto K) (J : JsonDict) (r : Bytes) (p : KeyPair K) (k : K) (hk : p.key = some k)
    (hpriv : C.hasPrivate k = true) (hn : utf8Valid p.nickname = true) (pass : Bytes) :
    ∃ s, p.toKeyString C J r pass = .ok s ∧ fromKeyString C J p.kind s pass = .ok p ∧ p.eq C p = .ok true := by
  refine ⟨J.dumps [(kNickname, p.nickname), (kPublic, C.exportPublic (C.pub k)),
    (kPrivate, hexOf (C.exportPrivate k pass r))], ?_, ?_, ?_⟩
  · simp [toKeyString, publicKeyString, theKey, hk, decodeUtf8, C.export_utf8]
  · unfold fromKeyString
    rw [J.loads_dumps]
    · have e1 : dgetItem [(kNickname, p.nickname), (kPublic, C.exportPublic (C.pub k)),
          (kPrivate, hexOf (C.exportPrivate k pass r))] kNickname = .ok p.nickname := by
        simp [dgetItem, dget]
      have e2 : member [(kNickname, p.nickname), (kPublic, C.exportPublic (C.pub k)),
          (kPrivate, hexOf (C.exportPrivate k pass r))] kPrivate = .ok (C.exportPrivate k pass r) := by
        simp [member, dgetItem, dget, kNickname, kPublic, kPrivate, fromHex_hexOf]
      simp only [Except.bind_ok', e1, e2, C.import_private k pass r hpriv, Except.pure_ok']
      cases p
      simp only at hk
      rw [hk]
    · intro x hx
      simp only [List.mem_cons, List.not_mem_nil, or_false] at hx
      rcases hx with rfl | rfl | rfl
      · exact ⟨by dsimp only; decide, hn⟩
      · exact ⟨by dsimp only; decide, C.export_utf8 _⟩
      · exact ⟨by dsimp only; decide, hex_utf8 _⟩
    · simp only [List.map_cons, List.map_nil]
      decide
  · simp [KeyPair.eq, publicKey, theKey, hk]

/-- The same with a file; other files are not touched. -/
theorem C47_file (C : Crypto K) (J : JsonDict) (r : Bytes) (p : KeyPair K) (k : K) (hk : p.key = some k)
    (hpriv : C.hasPrivate k = true) (hn : utf8Valid p.nickname = true) (file pass : Bytes) (fs : Files) :
    ∃ fs', p.toKeyFile C J r file pass fs = (.ok (), fs') ∧
      fromKeyFile C J p.kind file pass fs' = (.ok p, fs') ∧
      (∀ f, f ≠ file → dget fs' f = dget fs f) := by
  obtain ⟨s, h1, h2, _⟩ := C47_string C J r p k hk hpriv hn pass
  refine ⟨dset fs file s, ?_, ?_, ?_⟩
  · simp [toKeyFile, h1]
  · simp [fromKeyFile, dget_dset, h2]
  · intro f hf
    rw [dget_dset]
    simp [Ne.symm hf]

example : utf8Valid alice.nickname = true := by decide

/-- A file that does not exist: FileNotFoundError. -/
theorem C47_missing (C : Crypto K) (J : JsonDict) (kind : KeyKind) (file pass : Bytes) (fs : Files)
    (h : dget fs file = none) : fromKeyFile C J kind file pass fs = (.error .fileNotFound, fs) := by
  simp [fromKeyFile, h]

/-! ### C48: password encryption -/

theorem C48_round_trip (C : Crypto K) (nonce data password : Bytes) (hn : nonce.length = 16) :
    Utils.decrypt C (Utils.encrypt C nonce data password) password = .ok data := by
  have hne : nonce ≠ [] := by intro h; simp [h] at hn
  have hk := C.sha256_len password
  have ht := C.aes_tag (C.sha256 password) nonce data (.inr hk) hne
  unfold Utils.encrypt Utils.decrypt
  simp only
  have e1 : (nonce ++ (C.aesEnc (C.sha256 password) nonce data).2 ++
      (C.aesEnc (C.sha256 password) nonce data).1).take 16 = nonce := by
    rw [List.append_assoc, List.take_left' hn]
  have e2 : ((nonce ++ (C.aesEnc (C.sha256 password) nonce data).2 ++
      (C.aesEnc (C.sha256 password) nonce data).1).drop 16).take 16 =
      (C.aesEnc (C.sha256 password) nonce data).2 := by
    rw [List.append_assoc, List.drop_left' hn, List.take_left' ht]
  have e3 : (nonce ++ (C.aesEnc (C.sha256 password) nonce data).2 ++
      (C.aesEnc (C.sha256 password) nonce data).1).drop 32 =
      (C.aesEnc (C.sha256 password) nonce data).1 := by
    rw [List.drop_left' (by rw [List.length_append, hn, ht])]
  rw [e1, e2, e3, if_neg hne]
  exact C.aes _ _ _ (.inr hk) hne

example : dice.nonce.length = 16 := by decide

/-- The result is 32 bytes longer than the ciphertext; shorter inputs than 32 bytes are handed to the library with
a short tag, and an empty one is rejected. -/
theorem C48_empty (C : Crypto K) (password : Bytes) : Utils.decrypt C [] password = .error .valueError := rfl

/-! ### C57: equality and hash of key pairs -/

/-- Key pairs are equal exactly when class, nickname and exported public key agree. -/
theorem C57_eq (C : Crypto K) (p q : KeyPair K) (a b : Bytes) (hp : p.publicKey C = .ok a)
    (hq : q.publicKey C = .ok b) :
    ∃ e, p.eq C q = .ok e ∧ (e = true ↔ p.kind = q.kind ∧ p.nickname = q.nickname ∧ a = b) := by
  unfold KeyPair.eq
  by_cases h : q.kind = p.kind
  · refine ⟨(a == b && p.nickname == q.nickname), by simp only [h, if_true, hp, hq, Except.bind_ok', Except.pure_ok'], ?_⟩
    simp [h, and_comm]
  · refine ⟨false, by simp [h], ?_⟩
    simp [Ne.symm h]

example : alice.publicKey toyCrypto = .ok (hexOf [1]) ∧ bob.publicKey toyCrypto = .ok (hexOf [2]) := by decide

/-- The claim: `hash(k)` returns an integer. -/
def C57_hash : Prop := ∀ (K : Type) (C : Crypto K) (p : KeyPair K) (k : K), p.key = some k → ∃ n, p.hash C = .ok n

/-- `hash(k)` always raises, so key pairs cannot be members of sets or keys of dictionaries. -/
theorem C57_unhashable (C : Crypto K) (p : KeyPair K) (k : K) (h : p.key = some k) :
    p.hash C = .error .typeError := by
  simp [KeyPair.hash, publicKey, theKey, h]

theorem C57_hash_false : ¬ C57_hash := by
  intro h
  obtain ⟨n, hn⟩ := h ToyKey toyCrypto alice (1, true) rfl
  rw [C57_unhashable toyCrypto alice (1, true) rfl] at hn
  cases hn

/-! ### C58: the signature does not bind the message -/

/-- The claim: two messages that carry the same signature and are accepted from the same sender decrypt to the
same plaintext. -/
def C58 : Prop :=
  ∀ (K : Type) (C : Crypto K) (J : JsonDict) (b : KeyPair K) (x x' sender m m' : Bytes) (d d' : List (Bytes × Bytes)),
    J.loads x = .ok d → J.loads x' = .ok d' → member d kCipher = member d' kCipher →
    member d kSignature = member d' kSignature →
    b.decrypt C J x sender = .ok m → b.decrypt C J x' sender = .ok m' → m = m'

/-- What anyone can make of a ciphertext and its signature, without a private key: a message to the owner of
`receiver`, under a session key of their own choice. -/
def rewrap (C : Crypto K) (J : JsonDict) (r : Rand) (receiver : K) (ciphertext signature tag : Bytes) : Bytes :=
  J.dumps [(kSession, hexOf (C.oaepEnc receiver r.seed r.session)), (kNonce, hexOf r.nonce), (kTag, hexOf tag),
    (kCipher, hexOf ciphertext), (kSignature, hexOf signature)]

/-- Only the ciphertext is signed, not the session key, the nonce or the receiver.  So whoever sees one message
from `a`, to anyone, can send `b` another message that `b` accepts as coming from `a`: it decrypts to whatever
plaintext `other` has that ciphertext under a session key and nonce of the attacker's choice.  (In EAX mode, being a
stream cipher, there is such a plaintext for every key and nonce, and it is computed by decrypting.) -/
theorem C58_rewrap (C : Crypto K) (J : JsonDict) (r r' : Rand) (hs : r'.session.length = 16)
    (hn : r'.nonce.length = 16) (b : KeyPair K) (ka kb : K) (hb : b.kind = .rsa)
    (hkb : b.key = some kb) (hpa : C.hasPrivate ka = true) (hpb : C.hasPrivate kb = true) (m other tag : Bytes)
    (hsame : C.aesEnc r'.session r'.nonce other = ((C.aesEnc r.session r.nonce m).1, tag)) :
    b.decrypt C J (rewrap C J r' (C.pub kb) (C.aesEnc r.session r.nonce m).1
      (C.sign ka (C.aesEnc r.session r.nonce m).1) tag) (C.exportPublic (C.pub ka)) = .ok other := by
  have hne : r'.nonce ≠ [] := by intro h; simp [h] at hn
  unfold rewrap
  rw [decrypt_message C J b hb kb hkb]
  have := C.aes r'.session r'.nonce other (.inl hs) hne
  rw [hsame] at this
  simp only [C.import_public, Except.bind_ok', C.verify_sign ka _ hpa, if_true, C.oaep kb _ _ hpb hs, this]

/-- The attacker's randomness in the example. -/
def dice' : Rand := { session := List.replicate 16 6, seed := [], nonce := List.replicate 16 9 }

example : toyCrypto.aesEnc dice'.session dice'.nonce [0, 1] =
    ((toyCrypto.aesEnc dice.session dice.nonce [1, 2]).1, List.replicate 16 6) := by decide

/-- What `rewrap` makes, read back: it carries the given ciphertext and signature. -/
theorem rewrap_loads (C : Crypto K) (J : JsonDict) (r : Rand) (receiver : K) (ciphertext signature tag : Bytes) :
    ∃ d, J.loads (rewrap C J r receiver ciphertext signature tag) = .ok d ∧ member d kCipher = .ok ciphertext ∧
      member d kSignature = .ok signature :=
  ⟨_, message_loads _ _ _ _ _ _, (message_members _ _ _ _ _).2.2.2.1, (message_members _ _ _ _ _).2.2.2.2⟩

theorem C58_false : ¬ C58 := by
  intro h
  have e1 := C58_rewrap toyCrypto toyJson dice dice rfl rfl bob (1, true) (2, true) rfl rfl rfl rfl [1, 2] [1, 2] _ rfl
  have e2 := C58_rewrap toyCrypto toyJson dice dice' rfl rfl bob (1, true) (2, true) rfl rfl rfl rfl [1, 2] [0, 1]
    (List.replicate 16 6) (by decide)
  obtain ⟨d, h1, h2, h3⟩ := rewrap_loads toyCrypto toyJson dice (toyCrypto.pub (2, true))
    (toyCrypto.aesEnc dice.session dice.nonce [1, 2]).1
    (toyCrypto.sign (1, true) (toyCrypto.aesEnc dice.session dice.nonce [1, 2]).1)
    (toyCrypto.aesEnc dice.session dice.nonce [1, 2]).2
  obtain ⟨d', h1', h2', h3'⟩ := rewrap_loads toyCrypto toyJson dice' (toyCrypto.pub (2, true))
    (toyCrypto.aesEnc dice.session dice.nonce [1, 2]).1
    (toyCrypto.sign (1, true) (toyCrypto.aesEnc dice.session dice.nonce [1, 2]).1) (List.replicate 16 6)
  have := h ToyKey toyCrypto toyJson bob _ _ _ _ _ d d' h1 h1' (h2.trans h2'.symm) (h3.trans h3'.symm) e1 e2
  revert this
  decide

/-- What the signature does cover: whatever `decrypt` accepts carries a ciphertext and a signature of it that is valid
under the key of the sender, and the plaintext comes from that ciphertext alone, by the session key, nonce and tag of
the message.  Partial: these three, and the receiver, are not covered. -/
theorem C58_ciphertext_partial (C : Crypto K) (J : JsonDict) (b : KeyPair K) (x sender m : Bytes)
    (h : b.decrypt C J x sender = .ok m) :
    ∃ d e n t c s pk kb session, J.loads x = .ok d ∧ member d kSession = .ok e ∧ member d kNonce = .ok n ∧
      member d kTag = .ok t ∧ member d kCipher = .ok c ∧ member d kSignature = .ok s ∧
      C.importKey sender none = .ok pk ∧ C.verify pk c s = true ∧ b.key = some kb ∧
      C.oaepDec kb e = .ok session ∧ C.aesDec session n c t = .ok m := by
  unfold KeyPair.decrypt at h
  split at h
  · cases h
  · unfold decodeUtf8 at h
    split at h
    case isFalse => simp at h
    simp only [Except.bind_ok'] at h
    cases hd : J.loads x with
    | error e => simp [hd] at h
    | ok d =>
    rw [hd, Except.bind_ok'] at h
    cases he : member d kSession with
    | error e => simp [he] at h
    | ok e =>
    cases hn : member d kNonce with
    | error e => simp [he, hn] at h
    | ok n =>
    cases ht : member d kTag with
    | error e => simp [he, hn, ht] at h
    | ok t =>
    cases hc : member d kCipher with
    | error e => simp [he, hn, ht, hc] at h
    | ok c =>
    cases hs : member d kSignature with
    | error e => simp [he, hn, ht, hc, hs] at h
    | ok s =>
    simp only [he, hn, ht, hc, hs, Except.bind_ok'] at h
    unfold signatureValid at h
    split at h
    · simp at h
    · simp only [Except.bind_ok'] at h
      cases hp : C.importKey sender none with
      | error e => simp [hp] at h
      | ok pk =>
      simp only [hp, Except.bind_ok', Except.pure_ok'] at h
      by_cases hv : C.verify pk c s = true
      · simp only [hv, Bool.not_true, Bool.false_eq_true, if_false] at h
        cases hk : b.key with
        | none => simp [theKey, hk] at h
        | some kb =>
        simp only [theKey, hk, Except.bind_ok'] at h
        cases ho : C.oaepDec kb e with
        | error e => simp [ho] at h
        | ok session =>
        rw [ho, Except.bind_ok'] at h
        exact ⟨d, e, n, t, c, s, pk, kb, session, rfl, he, hn, ht, hc, hs, rfl, hv, rfl, ho, h⟩
      · rw [Bool.not_eq_true] at hv
        simp [hv] at h

/-- A message of the example is accepted. -/
example : bob.decrypt toyCrypto toyJson (rewrap toyCrypto toyJson dice (toyCrypto.pub (2, true))
    (toyCrypto.aesEnc dice.session dice.nonce [1, 2]).1
    (toyCrypto.sign (1, true) (toyCrypto.aesEnc dice.session dice.nonce [1, 2]).1)
    (toyCrypto.aesEnc dice.session dice.nonce [1, 2]).2) (toyCrypto.exportPublic (toyCrypto.pub (1, true))) = .ok [1, 2] :=
  C58_rewrap toyCrypto toyJson dice dice rfl rfl bob (1, true) (2, true) rfl rfl rfl rfl [1, 2] [1, 2] _ rfl

/-! ### C59: validity of keys -/

/-- `rsa_key_valid` is True for a public key exactly when the key can be loaded and has no private part, for a
private key when it can be loaded and has one.  With `raise_exeptions`, keys that cannot be loaded raise KeyError,
but keys of the other kind still give False. -/
theorem C59_valid (C : Crypto K) (key : Bytes) (isPublic raise : Bool) :
    (Utils.rsaKeyValid C key isPublic raise = .ok true ↔
      ∃ k, C.importKey key none = .ok k ∧ C.hasPrivate k = !isPublic) ∧
    (C.importKey key none = .error .valueError →
      Utils.rsaKeyValid C key isPublic raise = if raise then .error .keyError else .ok false) := by
  constructor
  · unfold Utils.rsaKeyValid
    cases h : C.importKey key none with
    | error e => cases e <;> cases raise <;> simp
    | ok k => cases isPublic <;> simp
  · intro h
    simp [Utils.rsaKeyValid, h]

/-- The public key of a key pair is a valid public key, and not a valid private key. -/
theorem C59_public (C : Crypto K) (p : KeyPair K) (k : K) (hk : p.key = some k) (raise : Bool) :
    ∃ b, p.publicKey C = .ok b ∧ Utils.rsaKeyValid C b true raise = .ok true ∧
      Utils.rsaKeyValid C b false raise = .ok false := by
  refine ⟨C.exportPublic (C.pub k), by simp [publicKey, theKey, hk], ?_, ?_⟩
  · simp [Utils.rsaKeyValid, C.import_public, C.pub_hasPrivate]
  · simp [Utils.rsaKeyValid, C.import_public, C.pub_hasPrivate]

end Props
end Pymt
