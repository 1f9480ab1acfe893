import Verif.Model.Mpt
import Verif.Spec.Nibbles

/-!
# Specification: what a proof tells its reader
-/

namespace Pymt

/-- Whoever has the encoded node `w` can read in it, or in nodes embedded in it, that the value `d` is stored at the end of
the path `q` from there. -/
inductive Tells : Bytes → List Nib → Bytes → Prop
  | leaf {w : Bytes} {p : NibblePath} {d : Bytes} (h : Node.decode w = .ok (.leaf p d)) :
      Tells w ((toNibs p.data).drop p.offset) d
  | value {w : Bytes} {bs : List Bytes} {d : Bytes} (h : Node.decode w = .ok (.branch bs d)) (hd : d ≠ []) : Tells w [] d
  | ext {w r : Bytes} {p : NibblePath} {q : List Nib} {d : Bytes} (h : Node.decode w = .ok (.ext p r))
      (hl : r.length < 32) (h' : Tells r q d) : Tells w ((toNibs p.data).drop p.offset ++ q) d
  | child {w r : Bytes} {bs : List Bytes} {e d : Bytes} {i : Nib} {q : List Nib}
      (h : Node.decode w = .ok (.branch bs e)) (hi : bs[i.val]? = some r) (hl : r.length < 32) (h' : Tells r q d) :
      Tells w (i :: q) d

/-- How many nibbles of the key the nodes of a proof lead along. -/
def ledAlong : List Bytes → Nat
  | [] => 0
  | w :: l => (match Node.decode w with
      | .ok (.ext p _) => ((toNibs p.data).drop p.offset).length
      | .ok (.branch _ _) => 1
      | _ => 0) + ledAlong l

/-- Whoever has the proof `p` can read in it that the value `d` is stored under `j`: some entry tells so, at the end of
the way that the entries before it lead along the key of the proof. -/
def Discloses (p : Proof Bytes) (j d : Bytes) : Prop :=
  ∃ pre w post q, p.proof = pre ++ w :: post ∧ Tells w q d ∧
    toNibs j = (toNibs p.targetKey).take (ledAlong pre) ++ q

end Pymt
