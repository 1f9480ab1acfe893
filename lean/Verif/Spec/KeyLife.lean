import Verif.Model.KeyLife

/-!
# What becomes of a key pair object
-/

namespace Pymt
namespace KeyPair

variable {K : Type}

/-- The object after a client did these things to it, going on after exceptions. -/
def afterActs (acts : List (KeyAct K)) (p : KeyPair K) : KeyPair K := acts.foldl (fun p a => (act a p).2) p

/-- The keys that calls of `generate_keypair` returned, in order. -/
def newKeys : List (KeyAct K) → List K
  | [] => []
  | .generate true (.ok k) :: acts => k :: newKeys acts
  | _ :: acts => newKeys acts

/-- The nicknames that were assigned, in order. -/
def newNicks : List (KeyAct K) → List Bytes
  | [] => []
  | .setNick n :: acts => n :: newNicks acts
  | _ :: acts => newNicks acts

end KeyPair
end Pymt
