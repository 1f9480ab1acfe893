import Verif.Model.KeyFiles
import Verif.Props.KeyPair

/-!
# Key files and the text of key pairs (C156–C158)
-/

namespace Pymt.Props

open KeyPair

variable {K : Type}

/-! ### C156: a key file is replaced as a whole or not at all -/

/-- The claim: if `to_key_file` raises an exception, files are as before. -/
def C156 : Prop :=
  ∀ (K : Type) (C : Crypto K) (J : JsonDict) (r : Bytes) (p : NamedPair K) (file pass : Bytes) (stop : Option (Nat × Err)) (fs : Files)
    (e : Err), (p.toKeyFile C J r file pass stop fs).1 = .error e → (p.toKeyFile C J r file pass stop fs).2 = fs

/-- What `to_key_file` does when there is a key. -/
theorem toKeyFile_does (C : Crypto K) (J : JsonDict) (r : Bytes) (p : NamedPair K) (k : K) (hk : p.key = some k)
    (file pass : Bytes) (stop : Option (Nat × Err)) (fs : Files) :
    p.toKeyFile C J r file pass stop fs =
      let d := NamedPair.dump J p.nick (C.exportPublic (C.pub k)) (hexOf (C.exportPrivate k pass r))
      match stop with
      | some (n, e) => (.error e, dset (dset fs file []) file (d.1.take n))
      | none => (if d.2 then .ok () else .error .typeError, dset (dset fs file []) file d.1) := by
  unfold NamedPair.toKeyFile
  simp only [NamedPair.named, publicKeyString, theKey, hk, Except.bind_ok', decodeUtf8, C.export_utf8, if_true]
  cases stop with
  | some s => rfl
  | none =>
    cases hd : (NamedPair.dump J p.nick (C.exportPublic (C.pub k)) (hexOf (C.exportPrivate k pass r))).2 <;>
      simp [M.bind_apply, M.lift, M.modify, M.raise, hd] <;> rfl

/-- **C156** is false: a nickname that `json` cannot write (the setter takes any object) empties the file before TypeError is
raised.  The key pair that was in the file is lost. -/
theorem C156_false : ¬ C156 := by
  intro h
  have := h ToyKey toyCrypto toyJson [] ⟨.rsa, .odd, some (1, true)⟩ [1] [] none [([1], [5])] .typeError (by decide)
  exact absurd this (by decide)

/-- So it is for every library and every key pair: whatever was in the file, now it holds `{"nickname": `. -/
theorem C156_lost (C : Crypto K) (J : JsonDict) (r : Bytes) (p : NamedPair K) (k : K) (hk : p.key = some k) (hn : p.nick = .odd)
    (file pass : Bytes) (fs : Files) :
    (p.toKeyFile C J r file pass none fs).1 = .error .typeError ∧
    dget (p.toKeyFile C J r file pass none fs).2 file = some NamedPair.opening := by
  rw [toKeyFile_does C J r p k hk]
  simp [hn, NamedPair.dump, dget_dset]

/-- **C156** (part) Whatever ends `to_key_file`, and where: other files are as before, and the file is as before or holds the
beginning of what was to be written.  It is as before if the object has no keys. -/
theorem C156_partial (C : Crypto K) (J : JsonDict) (r : Bytes) (p : NamedPair K) (file pass : Bytes) (stop : Option (Nat × Err))
    (fs : Files) :
    let fs' := (p.toKeyFile C J r file pass stop fs).2
    (∀ f, f ≠ file → dget fs' f = dget fs f) ∧
    (p.key = none → p.toKeyFile C J r file pass stop fs = (.error .attributeError, fs)) ∧
    (∀ k, p.key = some k → ∃ s, dget fs' file = some s ∧
      s <+: (NamedPair.dump J p.nick (C.exportPublic (C.pub k)) (hexOf (C.exportPrivate k pass r))).1) := by
  intro fs'
  have hnone : p.key = none → p.toKeyFile C J r file pass stop fs = (.error .attributeError, fs) := by
    intro hk
    unfold NamedPair.toKeyFile
    simp only [NamedPair.named, publicKeyString, theKey, hk]
    rfl
  refine ⟨fun f hf => ?_, hnone, fun k hk => ?_⟩
  · show dget (p.toKeyFile C J r file pass stop fs).2 f = _
    cases hk : p.key with
    | none => rw [hnone hk]
    | some k =>
      rw [toKeyFile_does C J r p k hk]
      cases stop <;> simp [dget_dset, Ne.symm hf]
  · show ∃ s, dget (p.toKeyFile C J r file pass stop fs).2 file = some s ∧ _
    rw [toKeyFile_does C J r p k hk]
    cases stop with
    | some s => exact ⟨_, by rw [dget_dset, if_pos rfl], List.take_prefix s.1 _⟩
    | none => exact ⟨_, by rw [dget_dset, if_pos rfl], List.prefix_rfl⟩

/-- **C156** (part) A key pair whose nickname is a string, as all are that the constructor has made and that were not renamed,
is written as a whole if nothing ends the call from outside, and can be read back. -/
theorem C156_whole_partial (C : Crypto K) (J : JsonDict) (r : Bytes) (p : NamedPair K) (k : K) (b : Bytes) (hk : p.key = some k)
    (hn : p.nick = .text b) (hb : utf8Valid b = true) (hpriv : C.hasPrivate k = true) (file pass : Bytes) (fs : Files) :
    (p.toKeyFile C J r file pass none fs).1 = .ok () ∧
    (fromKeyFile C J p.kind file pass (p.toKeyFile C J r file pass none fs).2).1 = .ok (p.named b) := by
  obtain ⟨s, h1, h2, _⟩ := C47_string C J r (p.named b) k hk hpriv hb pass
  have hs : s = J.dumps [(kNickname, b), (kPublic, C.exportPublic (C.pub k)), (kPrivate, hexOf (C.exportPrivate k pass r))] := by
    simp only [KeyPair.toKeyString, NamedPair.named, publicKeyString, theKey, hk, Except.bind_ok', decodeUtf8, C.export_utf8, if_true,
      Except.pure_ok'] at h1
    injection h1 with h1
    exact h1.symm
  rw [toKeyFile_does C J r p k hk]
  simp only [hn, NamedPair.dump, if_true, true_and]
  unfold fromKeyFile
  rw [← hs]
  simp [dget_dset, h2, NamedPair.named] at *

/-- **C156** (part) Making the string first, as the code could, loses nothing: `to_key_string` touches no file, and raises for
the same nicknames. -/
theorem C156_string_partial (C : Crypto K) (J : JsonDict) (r : Bytes) (p : NamedPair K) (pass : Bytes) :
    (∃ s, p.toKeyString C J r pass = .ok s) ↔ (∃ k, p.key = some k) ∧ ∃ b, p.nick = .text b := by
  unfold NamedPair.toKeyString
  simp only [NamedPair.named, publicKeyString, theKey]
  cases hk : p.key with
  | none =>
    constructor
    · rintro ⟨s, hs⟩; exact (nomatch hs)
    · rintro ⟨⟨k, e⟩, _⟩; exact (nomatch e)
  | some k =>
    simp only [Except.bind_ok', decodeUtf8, C.export_utf8, if_true]
    cases hn : p.nick with
    | text b => exact ⟨fun _ => ⟨⟨k, rfl⟩, b, rfl⟩, fun _ => ⟨_, rfl⟩⟩
    | odd =>
      constructor
      · rintro ⟨s, hs⟩; exact (nomatch hs)
      · rintro ⟨_, b, e⟩; exact (nomatch e)

/-- **C156** (part) The string of a key pair whose nickname is a string is read back with the same passphrase. -/
theorem C156_readable_partial (C : Crypto K) (J : JsonDict) (r : Bytes) (p : NamedPair K) (k : K) (b : Bytes) (hk : p.key = some k)
    (hn : p.nick = .text b) (hb : utf8Valid b = true) (hpriv : C.hasPrivate k = true) (pass : Bytes) :
    ∃ s, p.toKeyString C J r pass = .ok s ∧ fromKeyString C J p.kind s pass = .ok (p.named b) := by
  obtain ⟨s, h1, h2, _⟩ := C47_string C J r (p.named b) k hk hpriv hb pass
  refine ⟨s, ?_, h2⟩
  rw [← h1]
  unfold NamedPair.toKeyString KeyPair.toKeyString
  simp only [NamedPair.named, publicKeyString, theKey, hk, hn, NamedPair.dump, if_true]

/-- A new key pair has a nickname that can be written; only the setter puts another one in. -/
theorem C156_made_partial (kind : KeyKind) (uuid : Bytes) (key : K) (n : Option NickArg) (p : NamedPair K)
    (h : NamedPair.make kind uuid key n = .ok p) : p.key = some key ∧ ∃ b, p.nick = .text b := by
  cases n with
  | none => injection h with h; subst h; exact ⟨rfl, _, rfl⟩
  | some n =>
    cases n with
    | text b => injection h with h; subst h; exact ⟨rfl, _, rfl⟩
    | odd => exact (nomatch h)

/-- A key pair that was made, and then renamed. -/
def renamedPair : NamedPair ToyKey := (⟨.rsa, .text [97], some (1, true)⟩ : NamedPair ToyKey).rename .odd

example : renamedPair.key = some (1, true) ∧ renamedPair.nick = .odd := ⟨rfl, rfl⟩
example : NamedPair.make .rsa [97] ((1, true) : ToyKey) none = .ok ⟨.rsa, .text [97], some (1, true)⟩ := rfl

/-- A file with a key pair. -/
def keyFileBefore : Files :=
  ((⟨.rsa, .text [97], some (1, true)⟩ : NamedPair ToyKey).toKeyFile toyCrypto toyJson [] [1] [9] none []).2

/-- The same file when the renamed key pair should have been written to it. -/
def keyFileAfter : Files := (renamedPair.toKeyFile toyCrypto toyJson [] [1] [9] none keyFileBefore).2

/-- The key pair can be read before, not after. -/
example : (fromKeyFile toyCrypto toyJson .rsa [1] [9] keyFileBefore).1 = .ok alice :=
  (C156_whole_partial toyCrypto toyJson [] ⟨.rsa, .text [97], some (1, true)⟩ (1, true) [97] rfl rfl (by decide) rfl [1] [9] []).2
example : (renamedPair.toKeyFile toyCrypto toyJson [] [1] [9] none keyFileBefore).1 = .error .typeError :=
  (C156_lost toyCrypto toyJson [] renamedPair (1, true) rfl rfl [1] [9] _).1
example : (fromKeyFile toyCrypto toyJson .rsa [1] [9] keyFileAfter).1.isOk = false := by decide +kernel

/-! ### C157: what a key file vouches for -/

/-- The claim: what `from_key_string` reads with a passphrase, `to_key_string` has written with this passphrase. -/
def C157 : Prop :=
  ∀ (K : Type) (C : Crypto K) (J : JsonDict) (kind : KeyKind) (s pass : Bytes) (p : KeyPair K),
    fromKeyString C J kind s pass = .ok p → ∃ r, p.toKeyString C J r pass = .ok s

/-- **C157** (part) The key is the one that is in the member `private_key`, opened with the passphrase; the nickname is the one
in the member `nickname`. -/
theorem C157_partial (C : Crypto K) (J : JsonDict) (kind : KeyKind) (s pass : Bytes) (p : KeyPair K)
    (h : fromKeyString C J kind s pass = .ok p) :
    ∃ d der, J.loads s = .ok d ∧ dgetItem d kNickname = .ok p.nickname ∧ member d kPrivate = .ok der ∧
      (C.importKey der (some pass)).map some = .ok p.key ∧ p.kind = kind := by
  unfold fromKeyString at h
  cases h1 : J.loads s with
  | error e => rw [h1] at h; exact (nomatch h)
  | ok d =>
    rw [h1] at h
    simp only [Except.bind_ok'] at h
    cases h2 : dgetItem d kNickname with
    | error e => rw [h2] at h; exact (nomatch h)
    | ok nick =>
      rw [h2] at h
      simp only [Except.bind_ok'] at h
      cases h3 : member d kPrivate with
      | error e => rw [h3] at h; exact (nomatch h)
      | ok der =>
        rw [h3] at h
        simp only [Except.bind_ok'] at h
        cases h4 : C.importKey der (some pass) with
        | error e => rw [h4] at h; exact (nomatch h)
        | ok k =>
          rw [h4] at h
          injection h with h
          subst h
          exact ⟨d, der, rfl, h2, h3, by rw [h4]; rfl, rfl⟩

/-- Who can change the text can rename the key pair, and can put in another public key, which nobody looks at; the passphrase is
not needed for this. -/
theorem C157_changed (C : Crypto K) (J : JsonDict) (r : Bytes) (p : KeyPair K) (k : K) (hk : p.key = some k)
    (hpriv : C.hasPrivate k = true) (pass nick pub : Bytes) (hn : utf8Valid nick = true) (hp : utf8Valid pub = true) :
    fromKeyString C J p.kind (J.dumps [(kNickname, nick), (kPublic, pub), (kPrivate, hexOf (C.exportPrivate k pass r))]) pass =
      .ok { p with nickname := nick } := by
  unfold fromKeyString
  rw [J.loads_dumps]
  · have e1 : dgetItem [(kNickname, nick), (kPublic, pub), (kPrivate, hexOf (C.exportPrivate k pass r))] kNickname = .ok nick := by
      simp [dgetItem, dget]
    have e2 : member [(kNickname, nick), (kPublic, pub), (kPrivate, hexOf (C.exportPrivate k pass r))] kPrivate =
        .ok (C.exportPrivate k pass r) := by
      simp [member, dgetItem, dget, kNickname, kPublic, kPrivate, fromHex_hexOf]
    simp only [Except.bind_ok', e1, e2, C.import_private k pass r hpriv, Except.pure_ok', ← hk]
  · intro x hx
    simp only [List.mem_cons, List.not_mem_nil, or_false] at hx
    rcases hx with rfl | rfl | rfl
    · exact ⟨by dsimp only; decide, hn⟩
    · exact ⟨by dsimp only; decide, hp⟩
    · exact ⟨by dsimp only; decide, hex_utf8 _⟩
  · simp only [List.map_cons, List.map_nil]
    decide

/-- **C157** is false: the text with another public key is read as well. -/
theorem C157_false : ¬ C157 := by
  intro h
  have e := C157_changed toyCrypto toyJson [] alice (1, true) rfl rfl [9] [97] (hexOf [2]) (by decide) (by decide)
  obtain ⟨r, hr⟩ := h ToyKey toyCrypto toyJson .rsa _ [9] alice e
  injection hr with hr
  have he : ∀ r, toyCrypto.exportPrivate (1, true) [9] r = [1, 1, 9] := fun _ => rfl
  have := congrArg toyJson.loads hr
  simp only [he] at this
  rw [toyJson.loads_dumps _ (by decide +kernel) (by decide), toyJson.loads_dumps _ (by decide +kernel) (by decide)] at this
  injection this with this
  exact absurd this (by decide)

example : (alice.publicKey toyCrypto) = .ok (hexOf [1]) := rfl

/-! ### C158: what printing a key pair shows -/

/-- **C158** The text of a key pair (`str`, `repr`) does not depend on its private key: it is the same for two key pairs of one
class with the same nickname and public key. -/
theorem C158_secret (C : Crypto K) (p q : KeyPair K) (hk : p.kind = q.kind) (hn : p.nickname = q.nickname)
    (hp : p.publicKey C = q.publicKey C) : p.str = q.str ∧ p.repr C = q.repr C := by
  have hs : p.publicKeyString C = q.publicKeyString C := by
    unfold publicKeyString publicKey at *
    cases h1 : p.theKey with
    | error e =>
      cases h2 : q.theKey with
      | error e' => rw [h1, h2] at hp; injection hp with hp; rw [hp]
      | ok k' => rw [h1, h2] at hp; exact (nomatch hp)
    | ok k =>
      cases h2 : q.theKey with
      | error e' => rw [h1, h2] at hp; exact (nomatch hp)
      | ok k' =>
        rw [h1, h2] at hp
        injection hp with hp
        show decodeUtf8 (C.exportPublic (C.pub k)) = decodeUtf8 (C.exportPublic (C.pub k'))
        rw [hp]
  unfold KeyPair.str KeyPair.repr
  rw [hk, hn, hs]
  exact ⟨rfl, rfl⟩

/-- **C158** `str` tells class and nickname: two key pairs print the same only if they agree in both. -/
theorem C158_str (p q : KeyPair K) (h : p.str = q.str) : p.kind = q.kind ∧ p.nickname = q.nickname := by
  unfold KeyPair.str at h
  cases hp : p.kind <;> cases hq : q.kind <;> rw [hp, hq] at h <;>
    simp [className, openNick] at h ⊢ <;> exact h

/-- **C158** `repr` raises AttributeError for an object without keys, and shows the public key otherwise. -/
theorem C158_repr (C : Crypto K) (p : KeyPair K) :
    (p.key = none → p.repr C = .error .attributeError) ∧
    ∀ k, p.key = some k → ∃ a b, p.repr C = .ok (a ++ C.exportPublic (C.pub k) ++ b) := by
  constructor
  · intro h
    unfold KeyPair.repr publicKeyString theKey
    rw [h]; rfl
  · intro k h
    refine ⟨className p.kind ++ openNick ++ p.nickname ++ commaPublic, [41], ?_⟩
    unfold KeyPair.repr publicKeyString theKey
    rw [h]
    simp only [Except.bind_ok', decodeUtf8, C.export_utf8, if_true, Except.pure_ok', List.append_assoc]

/-- A private key, and its public part: they print the same. -/
example : alice.publicKey toyCrypto = ({ alice with key := some (1, false) } : KeyPair ToyKey).publicKey toyCrypto := rfl
example : alice.str ≠ bob.str ∧ alice.str ≠ ({ alice with kind := .auth } : KeyPair ToyKey).str := by decide

end Pymt.Props
