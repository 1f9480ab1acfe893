import Verif.Spec.Empt
import Verif.Spec.Toy

/-!
# Deciding the hypotheses of theorems about `EMPT` on concrete histories
-/

namespace Pymt

/-- Size condition of `EValid` for one call. -/
def EOp.sized : EOp → Bool
  | .update k v => k.length + v.payload.length < 2 ^ 60
  | .delete _ => true

/-- Decides `EValid` for a concrete history. -/
def evalidB (E : Env) (secure : Bool) (ops : List EOp) (ks : List Bytes) : Bool :=
  ops.all (fun op => decide (Fits E secure op.key)) &&
  ks.all (fun k => decide (Fits E secure k)) &&
  ops.all EOp.sized &&
  logOkB E (EMPT.after E secure ops).trie.store.written &&
  (!secure || collFreeB E (ks ++ ops.map EOp.key))

theorem evalid_of {E : Env} {secure : Bool} {ops : List EOp} {ks : List Bytes}
    (h : evalidB E secure ops ks = true) : EValid E secure ops ks := by
  simp only [evalidB, Bool.and_eq_true, List.all_eq_true, decide_eq_true_eq] at h
  obtain ⟨⟨⟨⟨h1, h2⟩, h3⟩, h4⟩, h5⟩ := h
  refine ⟨h1, h2, fun k v hm => ?_, logOk_of h4, fun hs => ?_⟩
  · have := h3 _ hm
    simpa [EOp.sized] using this
  · subst hs
    exact collFree_of (by simpa using h5)

/-- An object with both codec methods. -/
def sampleObj : Value := .obj 7 true true [9, 9]

/-- Byte strings, an empty one, an object, overwrites, deletions, a rejected `bytearray`, nested keys. -/
def sampleEOps : List EOp :=
  [.update [0x12, 0x34] (.bytes [1]), .update [0x12, 0x56] (.bytes []), .update [0x99] sampleObj,
   .update [0x55] (.bytearray [1]), .delete [0x77], .update [0x12, 0x34] (.bytes [2, 3]),
   .update [0x13] (.bytes [4]), .delete [0x13]]

end Pymt
