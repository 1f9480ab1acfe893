import Verif.Model.Text

/-!
# Key pairs and password encryption (`/repo/src/pymt/keypairs.py`, `/repo/src/pymt/utils/utils.py`)

The cryptographic library (pycryptodome) and `json` enter by contract; what is modelled is how the code puts them
together.  Randomness is an argument.  Arguments have the documented types, so the `isinstance` checks never fire.
-/

namespace Pymt

/-- Contract of pycryptodome, as far as `/repo` uses it.  `K` are RSA key objects, private or public. -/
structure Crypto (K : Type) where
  /-- `key.has_private()` -/
  hasPrivate : K → Bool
  /-- `key.publickey()` -/
  pub : K → K
  /-- `key.export_key()` of a public key -/
  exportPublic : K → Bytes
  /-- `key.export_key(passphrase=p)` of a private key, with the random bytes it draws -/
  exportPrivate : K → Bytes → Bytes → Bytes
  /-- `RSA.import_key(b, passphrase)` -/
  importKey : Bytes → Option Bytes → Py K
  /-- `SHA256.new(data).digest()` -/
  sha256 : Bytes → Bytes
  /-- `pkcs1_15.new(key).sign(SHA256.new(data))` -/
  sign : K → Bytes → Bytes
  /-- `pkcs1_15.new(key).verify(SHA256.new(data), signature)` does not raise (it raises ValueError) -/
  verify : K → Bytes → Bytes → Bool
  /-- `PKCS1_OAEP.new(key).encrypt(m)`, with the seed it draws -/
  oaepEnc : K → Bytes → Bytes → Bytes
  /-- `PKCS1_OAEP.new(key).decrypt(c)` -/
  oaepDec : K → Bytes → Py Bytes
  /-- `AES.new(key, MODE_EAX, nonce).encrypt_and_digest(m)`: ciphertext and tag -/
  aesEnc : Bytes → Bytes → Bytes → Bytes × Bytes
  /-- `AES.new(key, MODE_EAX, nonce).decrypt_and_verify(c, tag)`; ValueError for a wrong tag -/
  aesDec : Bytes → Bytes → Bytes → Bytes → Py Bytes
  pub_pub : ∀ k, pub (pub k) = pub k
  pub_hasPrivate : ∀ k, hasPrivate (pub k) = false
  import_public : ∀ k, importKey (exportPublic (pub k)) none = .ok (pub k)
  import_private : ∀ k p r, hasPrivate k = true → importKey (exportPrivate k p r) (some p) = .ok k
  export_utf8 : ∀ k, utf8Valid (exportPublic k) = true
  verify_sign : ∀ k d, hasPrivate k = true → verify (pub k) d (sign k d) = true
  oaep : ∀ k r m, hasPrivate k = true → m.length = 16 → oaepDec k (oaepEnc (pub k) r m) = .ok m
  aes : ∀ k n m, (k.length = 16 ∨ k.length = 32) → n ≠ [] →
    aesDec k n (aesEnc k n m).1 (aesEnc k n m).2 = .ok m
  aes_tag : ∀ k n m, (k.length = 16 ∨ k.length = 32) → n ≠ [] → (aesEnc k n m).2.length = 16
  sha256_len : ∀ b, (sha256 b).length = 32

/-- Contract of `json` for flat objects with string members: `loads` undoes `dumps`.  What `loads` does with other
strings is left open.  `/repo/src/pymt/keypairs.py:221-229, 261, 343, 369, 394-400`. -/
structure JsonDict where
  dumps : List (Bytes × Bytes) → Bytes
  loads : Bytes → Py (List (Bytes × Bytes))
  loads_dumps : ∀ d, (∀ e ∈ d, utf8Valid e.1 = true ∧ utf8Valid e.2 = true) → (d.map Prod.fst).Nodup →
    loads (dumps d) = .ok d
  /-- `dumps` makes ASCII strings. -/
  dumps_utf8 : ∀ d, utf8Valid (dumps d) = true

/-- The three classes, `/repo/src/pymt/keypairs.py:14, 403, 422`. -/
inductive KeyKind where
  | rsa
  | auth
  | enc
  deriving DecidableEq, Repr

/-- A key pair object, `/repo/src/pymt/keypairs.py:20-50`.  `key` is `none` when `_generate_keys=False`. -/
structure KeyPair (K : Type) where
  kind : KeyKind
  nickname : Bytes
  key : Option K

namespace KeyPair

variable {K : Type}

/-- An attribute of `self._key_pair`: AttributeError when it is `None`.  `/repo/src/pymt/keypairs.py:72, 84, 148, 271`. -/
def theKey (p : KeyPair K) : Py K :=
  match p.key with
  | some k => .ok k
  | none => .error .attributeError

/-- `public_key`, `/repo/src/pymt/keypairs.py:83-85`. -/
def publicKey (C : Crypto K) (p : KeyPair K) : Py Bytes := do
  let k ← p.theKey
  return C.exportPublic (C.pub k)

/-- `public_key_string`, `/repo/src/pymt/keypairs.py:71-73`. -/
def publicKeyString (C : Crypto K) (p : KeyPair K) : Py Bytes := do
  let k ← p.theKey
  decodeUtf8 (C.exportPublic (C.pub k))

/-- `p == q`, `/repo/src/pymt/keypairs.py:62-67`: `isinstance(other, self.__class__)`.  When one operand is an
`RsaKeyPair` and the other of a subclass, Python asks the subclass, in whichever order they stand, so objects of
different classes are never equal. -/
def eq (C : Crypto K) (p q : KeyPair K) : Py Bool :=
  if q.kind = p.kind then do
    let a ← p.publicKey C
    let b ← q.publicKey C
    return a == b && p.nickname == q.nickname
  else .ok false

/-- `hash(p)`, `/repo/src/pymt/keypairs.py:59-60`, `/repo/src/pymt/utils/utils.py:128-188`: `__hash__` returns
bytes, so `hash` raises TypeError; `__hash__` itself gives the hexadecimal digest. -/
def hash (C : Crypto K) (p : KeyPair K) : Py Nat := do
  let _ ← p.publicKey C
  .error .typeError

/-- `sign`, `/repo/src/pymt/keypairs.py:132-149, 434-435`. -/
def sign (C : Crypto K) (p : KeyPair K) (data : Bytes) : Py Bytes :=
  match p.kind with
  | .enc => .error .notImplemented
  | _ =>
    match p.key with
    | none => .error .attributeError
    | some k => if C.hasPrivate k then .ok (C.sign k data) else .error .typeError

/-- `signature_valid`, `/repo/src/pymt/keypairs.py:151-186, 437-440`. -/
def signatureValid (C : Crypto K) (p : KeyPair K) (data signature : Bytes) (publicKey? : Option Bytes) : Py Bool :=
  match p.kind with
  | .enc => .error .notImplemented
  | _ => do
    let pk ← match publicKey? with
      | some b => (.ok b : Py Bytes)
      | none => p.publicKey C
    let key ← C.importKey pk none
    return C.verify key data signature

/-- `"enc_session_key"`.  `/repo/src/pymt/keypairs.py:223, 262`. -/
def kSession : Bytes := [101, 110, 99, 95, 115, 101, 115, 115, 105, 111, 110, 95, 107, 101, 121]
/-- `"nonce"`.  `/repo/src/pymt/keypairs.py:224, 263`. -/
def kNonce : Bytes := [110, 111, 110, 99, 101]
/-- `"tag"`.  `/repo/src/pymt/keypairs.py:225, 264`. -/
def kTag : Bytes := [116, 97, 103]
/-- `"ciphertext"`.  `/repo/src/pymt/keypairs.py:226, 265`. -/
def kCipher : Bytes := [99, 105, 112, 104, 101, 114, 116, 101, 120, 116]
/-- `"signature"`.  `/repo/src/pymt/keypairs.py:227, 266`. -/
def kSignature : Bytes := [115, 105, 103, 110, 97, 116, 117, 114, 101]
/-- `"nickname"`.  `/repo/src/pymt/keypairs.py:336-343, 394-400`. -/
def kNickname : Bytes := [110, 105, 99, 107, 110, 97, 109, 101]
/-- `"public_key"`.  `/repo/src/pymt/keypairs.py:336-343, 394-400`. -/
def kPublic : Bytes := [112, 117, 98, 108, 105, 99, 95, 107, 101, 121]
/-- `"private_key"`.  `/repo/src/pymt/keypairs.py:310, 339, 372, 398`. -/
def kPrivate : Bytes := [112, 114, 105, 118, 97, 116, 101, 95, 107, 101, 121]

/-- The random bytes drawn by `encrypt`: session key, OAEP seed, nonce.  `/repo/src/pymt/keypairs.py:211-220`. -/
structure Rand where
  session : Bytes
  seed : Bytes
  nonce : Bytes
  deriving DecidableEq, Repr

/-- `encrypt`, `/repo/src/pymt/keypairs.py:189-231, 415-416`. -/
def encrypt (C : Crypto K) (J : JsonDict) (r : Rand) (p : KeyPair K) (data receiver : Bytes) : Py Bytes :=
  match p.kind with
  | .auth => .error .notImplemented
  | _ => do
    let recipient ← C.importKey receiver none
    let encSession := C.oaepEnc recipient r.seed r.session
    let (ciphertext, tag) := C.aesEnc r.session r.nonce data
    let signature ← p.sign C ciphertext
    return J.dumps [(kSession, hexOf encSession), (kNonce, hexOf r.nonce), (kTag, hexOf tag),
      (kCipher, hexOf ciphertext), (kSignature, hexOf signature)]

/-- `bytes.fromhex(data[name])`: KeyError when the member is missing.  `/repo/src/pymt/keypairs.py:262-266`. -/
def member (d : List (Bytes × Bytes)) (name : Bytes) : Py Bytes := do
  let s ← dgetItem d name
  fromHex s

/-- `decrypt`, `/repo/src/pymt/keypairs.py:233-278, 418-419`. -/
def decrypt (C : Crypto K) (J : JsonDict) (p : KeyPair K) (data sender : Bytes) : Py Bytes :=
  match p.kind with
  | .auth => .error .notImplemented
  | _ => do
    let text ← decodeUtf8 data
    let d ← J.loads text
    let encSession ← member d kSession
    let nonce ← member d kNonce
    let tag ← member d kTag
    let ciphertext ← member d kCipher
    let signature ← member d kSignature
    let valid ← p.signatureValid C ciphertext signature (some sender)
    if !valid then .error .valueError
    else do
      let k ← p.theKey
      let session ← C.oaepDec k encSession
      C.aesDec session nonce ciphertext tag

/-- `to_key_string`, `/repo/src/pymt/keypairs.py:377-400`; `r` is the randomness of the key export. -/
def toKeyString (C : Crypto K) (J : JsonDict) (r : Bytes) (p : KeyPair K) (passphrase : Bytes) : Py Bytes := do
  let pub ← p.publicKeyString C
  let k ← p.theKey
  return J.dumps [(kNickname, p.nickname), (kPublic, pub), (kPrivate, hexOf (C.exportPrivate k passphrase r))]

/-- `from_key_string`, `/repo/src/pymt/keypairs.py:346-375`; `kind` is the class it is called on. -/
def fromKeyString (C : Crypto K) (J : JsonDict) (kind : KeyKind) (s passphrase : Bytes) : Py (KeyPair K) := do
  let d ← J.loads s
  let nickname ← dgetItem d kNickname
  let der ← member d kPrivate
  let k ← C.importKey der (some passphrase)
  return { kind, nickname, key := some k }

/-- The file system: contents of the regular files.  `/repo/src/pymt/keypairs.py:306-307, 342-343`. -/
abbrev Files := Dict Bytes

/-- `to_key_file`, `/repo/src/pymt/keypairs.py:315-343`.  The data are computed before the file is opened. -/
def toKeyFile (C : Crypto K) (J : JsonDict) (r : Bytes) (p : KeyPair K) (file passphrase : Bytes) : M Files Unit := do
  let s ← M.lift (p.toKeyString C J r passphrase)
  M.modify fun fs => dset fs file s

/-- `from_key_file`, `/repo/src/pymt/keypairs.py:281-313`. -/
def fromKeyFile (C : Crypto K) (J : JsonDict) (kind : KeyKind) (file passphrase : Bytes) : M Files (KeyPair K) := do
  let fs ← M.get
  match dget fs file with
  | none => M.raise .fileNotFound
  | some s => M.lift (fromKeyString C J kind s passphrase)

end KeyPair

namespace Utils

variable {K : Type}

/-- `Utils.encrypt`, `/repo/src/pymt/utils/utils.py:267-297`; `nonce` are the 16 random bytes it draws. -/
def encrypt (C : Crypto K) (nonce data password : Bytes) : Bytes :=
  let key := C.sha256 password
  let (ciphertext, tag) := C.aesEnc key nonce data
  nonce ++ tag ++ ciphertext

/-- `Utils.decrypt`, `/repo/src/pymt/utils/utils.py:299-331`.  `AES.new` raises ValueError for an empty nonce. -/
def decrypt (C : Crypto K) (data password : Bytes) : Py Bytes :=
  let nonce := data.take 16
  let tag := (data.drop 16).take 16
  let ciphertext := data.drop 32
  if nonce = [] then .error .valueError
  else C.aesDec (C.sha256 password) nonce ciphertext tag

/-- `Utils.rsa_key_valid`, `/repo/src/pymt/utils/utils.py:333-393`, for the key types `"public"` (`true`) and
`"private"` (`false`). -/
def rsaKeyValid (C : Crypto K) (key : Bytes) (isPublic raise : Bool) : Py Bool :=
  match C.importKey key none with
  | .error .valueError => if raise then .error .keyError else .ok false
  | .error e => .error e
  | .ok k => .ok (if isPublic then !C.hasPrivate k else C.hasPrivate k)

end Utils
end Pymt
