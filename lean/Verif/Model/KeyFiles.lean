import Verif.Model.KeyPair

/-!
# Nicknames, key files step by step, and the text of key pairs (`/repo/src/pymt/keypairs.py`)

`Model/KeyPair.lean` takes nicknames for strings and the writing of a file for one step.  The setter of `nickname` takes
any object (`/repo/src/pymt/keypairs.py:110-112`), and a file is opened, which empties it, before `json.dump` writes to it.
-/

namespace Pymt

/-- An object given as a nickname: a string, or an object that `json` cannot write (bytes, a set, an object of a class of the
client; `/repo/src/pymt/keypairs.py:37-46, 110-112`).  Numbers, `None`, lists and dicts are left out. -/
inductive NickArg where
  | text (b : Bytes)
  | odd
  deriving DecidableEq, Repr

/-- A key pair whose nickname may be any object, `/repo/src/pymt/keypairs.py:20-50`. -/
structure NamedPair (K : Type) where
  kind : KeyKind
  nick : NickArg
  key : Option K

namespace NamedPair

variable {K : Type}

/-- `RsaKeyPair(nickname)`, `/repo/src/pymt/keypairs.py:20-50, 406-407, 425-426`: ValueError for a nickname that is no string.
`uuid` is the text drawn when there is no nickname, `key` the key drawn by `generate_keypair`. -/
def make (kind : KeyKind) (uuid : Bytes) (key : K) : Option NickArg → Py (NamedPair K)
  | none => .ok ⟨kind, .text uuid, some key⟩
  | some (.text b) => .ok ⟨kind, .text b, some key⟩
  | some .odd => .error .valueError

/-- The setter of `nickname`, `/repo/src/pymt/keypairs.py:110-112`. -/
def rename (p : NamedPair K) (n : NickArg) : NamedPair K := { p with nick := n }

/-- The key pair of `Model/KeyPair.lean` (`/repo/src/pymt/keypairs.py:20-50`) with this nickname. -/
def named (p : NamedPair K) (b : Bytes) : KeyPair K := ⟨p.kind, b, p.key⟩

/-- `{"nickname": `, what `json.dump` has written when it comes to the nickname (`/repo/src/pymt/keypairs.py:336-343`). -/
def opening : Bytes := [123, 34, 110, 105, 99, 107, 110, 97, 109, 101, 34, 58, 32]

/-- What `json.dump(data, key_file)` writes, and whether it comes to an end: it writes the members in turn and raises TypeError
at the first that it cannot write, `/repo/src/pymt/keypairs.py:336-343`. -/
def dump (J : JsonDict) (nick : NickArg) (pub priv : Bytes) : Bytes × Bool :=
  match nick with
  | .text b => (J.dumps [(KeyPair.kNickname, b), (KeyPair.kPublic, pub), (KeyPair.kPrivate, priv)], true)
  | .odd => (opening, false)

/-- `to_key_file`, `/repo/src/pymt/keypairs.py:315-343`.  `stop` is what ends it from outside, if anything does: it is ended
when so many bytes are in the file (disk full, KeyboardInterrupt). -/
def toKeyFile (C : Crypto K) (J : JsonDict) (r : Bytes) (p : NamedPair K) (file passphrase : Bytes) (stop : Option (Nat × Err)) :
    M KeyPair.Files Unit := do
  let pub ← M.lift ((p.named []).publicKeyString C)
  let k ← M.lift (p.named []).theKey
  let d := dump J p.nick pub (hexOf (C.exportPrivate k passphrase r))
  M.modify fun fs => dset fs file []
  match stop with
  | some (n, e) => do
    M.modify fun fs => dset fs file (d.1.take n)
    M.raise e
  | none => do
    M.modify fun fs => dset fs file d.1
    if d.2 then pure () else M.raise .typeError

/-- `to_key_string`, `/repo/src/pymt/keypairs.py:377-400`. -/
def toKeyString (C : Crypto K) (J : JsonDict) (r : Bytes) (p : NamedPair K) (passphrase : Bytes) : Py Bytes := do
  let pub ← (p.named []).publicKeyString C
  let k ← (p.named []).theKey
  let d := dump J p.nick pub (hexOf (C.exportPrivate k passphrase r))
  if d.2 then return d.1 else .error .typeError

end NamedPair

namespace KeyPair

variable {K : Type}

/-- The name of the class, `/repo/src/pymt/keypairs.py:14, 403, 422`, as in `__str__`. -/
def className : KeyKind → Bytes
  | .rsa => [82, 115, 97, 75, 101, 121, 80, 97, 105, 114]
  | .auth => [82, 115, 97, 65, 117, 116, 104, 75, 101, 121, 80, 97, 105, 114]
  | .enc => [82, 115, 97, 69, 110, 99, 75, 101, 121, 80, 97, 105, 114]

/-- `(nickname=`, `/repo/src/pymt/keypairs.py:54`. -/
def openNick : Bytes := [40, 110, 105, 99, 107, 110, 97, 109, 101, 61]

/-- `, public_key=`, `/repo/src/pymt/keypairs.py:57`. -/
def commaPublic : Bytes := [44, 32, 112, 117, 98, 108, 105, 99, 95, 107, 101, 121, 61]

/-- `str(p)`, `/repo/src/pymt/keypairs.py:53-54, 409-410, 428-429`. -/
def str (p : KeyPair K) : Bytes := className p.kind ++ openNick ++ p.nickname ++ [41]

/-- `repr(p)`, `/repo/src/pymt/keypairs.py:56-57, 412-413, 431-432`. -/
def repr (C : Crypto K) (p : KeyPair K) : Py Bytes := do
  let pub ← p.publicKeyString C
  return className p.kind ++ openNick ++ p.nickname ++ commaPublic ++ pub ++ [41]

end KeyPair
end Pymt
