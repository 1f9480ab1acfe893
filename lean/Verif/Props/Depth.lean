import Verif.Lemmas.Depth
import Verif.Props.Bytes

/-!
# Property C128: the nodes that pymt writes do not nest deeply
-/

namespace Pymt
namespace Props

/-- C128: after any number of the writes ever made, every entry of the storage can be decoded with room for 33
levels of nesting, however many keys there are and however long they and their values are.  For every history, empty
values and failing calls included; no assumption on the hash. -/
theorem C128 {E : Env} {secure : Bool} {ops : List Op}
    (hs : ∀ w ∈ (MPT.after E secure ops).store.written, w.length < 2 ^ 64) (n : Nat) {k w : Bytes}
    (hk : dget (storeAfter E (MPT.after E secure ops).store.written n).kv k = some w) :
    ∃ x, rlpDecode w = .ok x ∧ rlpDecodeWithin 33 w = .ok x := by
  have hsound : Sound E (MPT.after E secure ops) := (Sound.new E secure).run ops hs
  have hrep : storeAfter E (MPT.after E secure ops).store.written n =
    replay E ((MPT.after E secure ops).store.written.take n) Store.empty := rfl
  rw [hrep] at hk
  obtain ⟨_, hw⟩ := (Good.empty E).replay ((MPT.after E secure ops).store.written.take n) k w hk
  rw [replay_written] at hw
  simp only [Store.empty, List.nil_append] at hw
  obtain ⟨_, node, hd, hn⟩ := (hsound.chain.prefix (List.take_prefix n _)).mem hw
  obtain ⟨x, h1, h2⟩ := decode_depth (d := 32) hd fun r hr => (hn.2 r hr).1
  exact ⟨x, h1, by rw [rlpDecodeWithin, h1, Except.bind_ok', if_pos h2]⟩

/-- How deep the lists in an encoding nest. -/
def depthOf (w : Bytes) : Nat :=
  match rlpDecode w with
  | .ok x => x.depth
  | .error _ => 0

/-- Short values: leaves in a branch in an extension in a branch, four lists inside each other. -/
def shortOps : List Op :=
  [.update [0x10, 0x11] [1], .update [0x10, 0x12] [2], .update [0x20, 0x11, 0x11] (bigValue 1)]

example : (∀ w ∈ (MPT.after toyEnv false shortOps).store.written, w.length < 2 ^ 64) ∧
    ((MPT.after toyEnv false shortOps).store.kv.map fun e => depthOf e.2) = [1, 4] := by decide +kernel

/-- C128 for proofs: their entries can be decoded with room for 32 levels. -/
theorem C128_proofs {E : Env} {secure : Bool} {ops : List Op} {k now : Bytes} {p : Proof Bytes}
    (ho : ∀ op ∈ ops, Fits E secure op.key) (hl : LogOk E (MPT.after E secure ops).store.written)
    (hf : Fits E secure k) (hk : k.length < 2 ^ 60)
    (hp : (MPT.after E secure ops).getPoi E now k = .ok p ∨ (MPT.after E secure ops).getPoe E now k = .ok p) :
    ∀ e ∈ p.proof, ∃ x, rlpDecode e = .ok x ∧ rlpDecodeWithin 32 e = .ok x := by
  obtain ⟨a, h1, _⟩ := (Keeping.new E secure).run (ops := ops) ho hl
  change T.Holds E (MPT.after E secure ops) a at h1
  have hkl : (effective E secure k).length < 2 ^ 60 := by
    unfold effective
    split
    · rw [E.keccak_len]; decide
    · exact hk
  have key : ∀ x : T, (T.enc E x).length < 2 ^ 64 →
      ∃ y, rlpDecode (T.enc E x) = .ok y ∧ rlpDecodeWithin 32 (T.enc E x) = .ok y := by
    intro x hx
    have hd := rlpDecode_encode (T.item E x) hx
    exact ⟨_, hd, by rw [rlpDecodeWithin, T.enc, hd, Except.bind_ok', if_pos (T.item_depth E x)]⟩
  by_cases hn : a = .empty
  · subst hn
    rcases hp with hp | hp
    · rw [h1.getPoi_empty hl] at hp; simp at hp
    · rw [h1.getPoe_empty hl] at hp; simp at hp
  rcases hp with hp | hp
  · rw [h1.getPoi hl hn (fits_nibs (by rw [after_secure]; exact hf)), keyOf_eq, after_secure,
      show (if secure = true then E.keccak k else k) = effective E secure k from rfl] at hp
    split at hp
    · simp at hp
    · simp only [Except.ok.injEq] at hp
      subst hp
      intro e he
      obtain ⟨x, hx, rfl⟩ := List.mem_map.1 he
      exact key x (T.trail_len h1.stored _ x hx)
  · rw [h1.getPoe hl hn (fits_nibs (by rw [after_secure]; exact hf)), keyOf_eq, after_secure,
      show (if secure = true then E.keccak k else k) = effective E secure k from rfl] at hp
    split at hp
    · simp at hp
    · simp only [Except.ok.injEq] at hp
      subst hp
      intro e he
      rcases List.mem_append.1 he with he | he
      · obtain ⟨x, hx, rfl⟩ := List.mem_map.1 he
        refine key x (T.trail_len h1.stored (toNibs (effective E secure k)) x ?_)
        unfold T.shown at hx
        split at hx
        · exact List.mem_append_left _ hx
        · exact hx
      · rw [List.mem_singleton.1 he]
        refine key _ ?_
        have hsk := T.seek_length a (toNibs (effective E secure k))
        rw [toNibs_length] at hsk
        have := T.null_enc E (r := (T.seek a (toNibs (effective E secure k))).2) (by omega)
        omega

example : (∀ op ∈ shortOps, Fits toyEnv false op.key) ∧
    LogOk toyEnv (MPT.after toyEnv false shortOps).store.written ∧
    ((MPT.after toyEnv false shortOps).getPoi toyEnv [] [0x10, 0x12]).map (fun p => p.proof.map depthOf) =
      .ok [4, 3, 2, 1] := by
  refine ⟨by decide +kernel, logOk_of (by decide +kernel), by decide +kernel⟩

theorem nested_length (n : Nat) (h : n < 2 ^ 60) : (nested n).encode.length ≤ 9 * n + 9 := by
  induction n with
  | zero => decide
  | succ n ih =>
    have ih := ih (by omega)
    rw [nested, Item.encode, Item.encodeList, Item.encodeList, List.append_nil, List.length_append]
    have := lenPrefix_length_le (o := 192) (n := (nested n).encode.length) (by omega)
    omega

/-- C128, what others send: nothing in the format limits nesting.  For every size of the stack there is a byte
string of at most nine bytes per level (one, up to 56 levels) whose decoding ends with RecursionError. -/
theorem C128_foreign (d : Nat) (hd : d < 2 ^ 60) :
    ∃ b x, b.length ≤ 9 * d + 9 ∧ rlpDecode b = .ok x ∧ rlpDecodeWithin d b = .error .recursion := by
  have hl := nested_length d hd
  have h1 := rlpDecode_encode (nested d) (by omega)
  refine ⟨_, _, hl, h1, ?_⟩
  rw [rlpDecodeWithin, h1, Except.bind_ok', if_neg]
  rw [nested_depth]; omega

end Props
end Pymt
