import Verif.Model.KeyPair

/-!
# Assignments to the attributes of a key pair, and `generate_keypair` (`/repo/src/pymt/keypairs.py:69-129`)
-/

namespace Pymt

/-- What a client may do to a key pair object: assign to or delete one of its three properties, or call
`generate_keypair` (`/repo/src/pymt/keypairs.py:69-129`). -/
inductive KeyAct (K : Type) where
  | setPublic (key : Bytes)
  | delPublic
  | setPublicString (key : Bytes)
  | delPublicString
  | setNick (name : Bytes)
  | delNick
  /-- `isInt` tells whether the argument `length` is an int; `drawn` is what `RSA.generate(length)` does, which returns a
  key or raises (ValueError for lengths below 1024). -/
  | generate (isInt : Bool) (drawn : Py K)

namespace KeyPair

variable {K : Type}

/-- The setters and deleters, `/repo/src/pymt/keypairs.py:75-81` (`public_key_string`), `87-93` (`public_key`), `110-116`
(`nickname`), and `generate_keypair`, `119-129`. -/
def act : KeyAct K → M (KeyPair K) Unit
  | .setPublic _ => M.raise .valueError
  | .delPublic => M.raise .valueError
  | .setPublicString _ => M.raise .valueError
  | .delPublicString => M.raise .valueError
  | .setNick name => M.modify fun p => { p with nickname := name }
  | .delNick => M.raise .valueError
  | .generate false _ => M.raise .valueError
  | .generate true drawn => do
    let k ← M.lift drawn
    M.modify fun p => { p with key := some k }

end KeyPair
end Pymt
