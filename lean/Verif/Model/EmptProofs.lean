import Verif.Model.Empt

/-!
# Proofs asked of and checked by `EMPT`, `SparseEMPT` and `RootEMPT`

The methods hand their argument on to the trie.  The type checks before that are left out: keys are byte strings and
proofs are `Proof` objects by their Lean types.  The last two classes have a trie and nothing else and are modelled as
`MPT`, as in `Model/Empt.lean`.
-/

namespace Pymt

namespace EMPT

/-- `EMPT.get_proof_of_inclusion` (`/repo/src/pymt/empt.py:367-375`); `now` is the time stamp. -/
def getPoi (E : Env) (s : EMPT) (now key : Bytes) : Py (Proof Bytes) := s.trie.getPoi E now key

/-- `EMPT.verify_proof_of_inclusion` (`/repo/src/pymt/empt.py:377-385`). -/
def verifyPoi (E : Env) (s : EMPT) (p : Proof Bytes) : Py Bool := s.trie.verifyPoi E p

/-- `EMPT.get_proof_of_exclusion` (`/repo/src/pymt/empt.py:387-395`); `now` is the time stamp. -/
def getPoe (E : Env) (s : EMPT) (now key : Bytes) : Py (Proof Bytes) := s.trie.getPoe E now key

/-- `EMPT.verify_proof_of_exclusion` (`/repo/src/pymt/empt.py:397-405`). -/
def verifyPoe (E : Env) (s : EMPT) (p : Proof Bytes) : Py Bool := s.trie.verifyPoe E p

end EMPT

namespace Sparse

/-- `SparseEMPT.get_proof_of_inclusion` (`/repo/src/pymt/empt.py:556-564`); `now` is the time stamp. -/
def getPoi (E : Env) (t : MPT) (now key : Bytes) : Py (Proof Bytes) := t.getPoi E now key

/-- `SparseEMPT.verify_proof_of_inclusion` (`/repo/src/pymt/empt.py:566-574`). -/
def verifyPoi (E : Env) (t : MPT) (p : Proof Bytes) : Py Bool := t.verifyPoi E p

/-- `SparseEMPT.get_proof_of_exclusion` (`/repo/src/pymt/empt.py:576-584`); `now` is the time stamp. -/
def getPoe (E : Env) (t : MPT) (now key : Bytes) : Py (Proof Bytes) := t.getPoe E now key

/-- `SparseEMPT.verify_proof_of_exclusion` (`/repo/src/pymt/empt.py:586-594`). -/
def verifyPoe (E : Env) (t : MPT) (p : Proof Bytes) : Py Bool := t.verifyPoe E p

end Sparse

namespace RootTrie

/-- `RootEMPT.verify_proof_of_inclusion` (`/repo/src/pymt/empt.py:646-654`). -/
def verifyPoi (E : Env) (t : MPT) (p : Proof Bytes) : Py Bool := t.verifyPoi E p

/-- `RootEMPT.verify_proof_of_exclusion` (`/repo/src/pymt/empt.py:656-664`). -/
def verifyPoe (E : Env) (t : MPT) (p : Proof Bytes) : Py Bool := t.verifyPoe E p

end RootTrie

end Pymt
