import Verif.Model.EmptThreads
import Verif.Model.ThreadProofs

/-!
# Proof methods of `EMPT`, one access at a time (`/repo/src/pymt/empt.py`)

As in `Model/EmptProofs.lean` the methods hand their argument on to the trie.
-/

namespace Pymt
namespace EMPT

/-- `EMPT.get_proof_of_inclusion`, `/repo/src/pymt/empt.py:367-375`; `secure` is `self._trie.secure`, which never changes,
and `now` is the time stamp. -/
def getPoiCallP (E : Env) (secure : Bool) (now key : Bytes) : EProg (Proof Bytes) :=
  .trie (MPT.getPoiCallP E now (if secure then E.keccak key else key))

/-- `EMPT.verify_proof_of_inclusion`, `/repo/src/pymt/empt.py:377-385`. -/
def verifyPoiCallP (E : Env) (p : Proof Bytes) : EProg Bool := .trie (MPT.verifyPoiCallP E p)

/-- `EMPT.get_proof_of_exclusion`, `/repo/src/pymt/empt.py:387-395`; `secure` and `now` as above. -/
def getPoeCallP (E : Env) (secure : Bool) (now key : Bytes) : EProg (Proof Bytes) :=
  .trie (MPT.getPoeCallP E now (if secure then E.keccak key else key))

/-- `EMPT.verify_proof_of_exclusion`, `/repo/src/pymt/empt.py:397-405`. -/
def verifyPoeCallP (E : Env) (p : Proof Bytes) : EProg Bool := .trie (MPT.verifyPoeCallP E p)

end EMPT
end Pymt
