import Verif.Model.MerkleThreads

/-!
# `reset_tree` one assignment at a time (`/repo/src/pymt/merkletools.py`)
-/

namespace Pymt

/-- The list of leaves of the level, when `self.leaves` no longer is this list but another.
`/repo/src/pymt/merkletools.py:95-99`. -/
def LevelRef.frozen (leaves : List Bytes) : LevelRef → LevelRef
  | .leaves => .kept leaves
  | .kept l => .kept l

/-- The object after the first assignments of `reset_tree`, `/repo/src/pymt/merkletools.py:95-99`,
`/repo/src/pymt/mt.py:86-88`: `self.leaves = list()`, which leaves the old list in `self.levels`; `self.levels = None`;
`self.is_ready = False`. -/
def MState.resetAfter (s : MState) : Nat → MState
  | 0 => s
  | 1 => { s with leaves := [], levels := s.levels.map fun ls => ls.map (LevelRef.frozen s.leaves) }
  | 2 => { s with leaves := [], levels := none }
  | _ + 3 => { s with leaves := [], levels := none, ready := false }

end Pymt
