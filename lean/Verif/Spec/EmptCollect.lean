import Verif.Spec.Collect
import Verif.Spec.Empt

/-!
# Specification: removing nodes that are no longer in use from the trie storage of an `EMPT`
-/

namespace Pymt

/-- The outcomes of the calls of a history of an `EMPT`. -/
def EMPT.outcomes (E : Env) : List EOp → EMPT → List (Py Unit)
  | [], _ => []
  | op :: ops, s => (EMPT.exec E op s).1 :: EMPT.outcomes E ops (EMPT.exec E op s).2

/-- A history of calls on a new `EMPT`, with removals (`Collected`) of entries of the trie storage that cannot be
reached from the current root at any time between calls: the calls, their outcomes, and the object. -/
inductive ETidy (E : Env) (secure : Bool) : List EOp → List (Py Unit) → EMPT → Prop
  | new : ETidy E secure [] [] (EMPT.new E secure)
  | call {ops : List EOp} {outs : List (Py Unit)} {s : EMPT} (h : ETidy E secure ops outs s) (op : EOp) :
      ETidy E secure (ops ++ [op]) (outs ++ [(EMPT.exec E op s).1]) (EMPT.exec E op s).2
  | collect {ops : List EOp} {outs : List (Py Unit)} {s : EMPT} {t' : MPT} (h : ETidy E secure ops outs s)
      (hc : Collected s.trie t') : ETidy E secure ops outs { s with trie := t' }

end Pymt
