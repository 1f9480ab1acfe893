import Verif.Model.Equality
import Verif.Model.Keccak

/-!
# `hash` of the fresh trie, computed with keccak-256
-/

namespace Pymt

theorem fresh_hash : parseInt16 (realEnv.keccak (emptyHash realEnv)) = .error .valueError := by decide +kernel

end Pymt
