import Verif.Lemmas.Cost
import Verif.Lemmas.Rewrite
import Verif.Lemmas.ProofObj
import Verif.Spec.Toy
import Verif.Props.Map

/-!
# Properties C64, C65: what calls cost, and updates that change nothing
-/

namespace Pymt
namespace Props

/-! ### C64: cost -/

/-- Storage entries a call may add: twice the length of the path of the key, plus two for an update and
one for a deletion. -/
def cost (E : Env) (secure : Bool) : Op → Nat
  | .update k _ => 2 * (effective E secure k).length + 2
  | .delete k => 2 * (effective E secure k).length + 1

/-- C64, one call: however many keys the trie holds, and whether the call succeeds or not, the number of
writes to the storage, hence the growth of `len(t)`, is bounded by the length of the key alone. -/
theorem C64_call {E : Env} {secure : Bool} {ops : List Op} (op : Op) (h : Valid E secure ops []) :
    (MPT.exec E op (MPT.after E secure ops)).2.store.written.length ≤
      (MPT.after E secure ops).store.written.length + cost E secure op ∧
    (MPT.exec E op (MPT.after E secure ops)).2.len ≤ (MPT.after E secure ops).len + cost E secure op := by
  obtain ⟨a, h1, _⟩ := h.inv
  have key : (MPT.exec E op (MPT.after E secure ops)).2.store.written.length ≤
      (MPT.after E secure ops).store.written.length + cost E secure op := by
    cases op with
    | update k v =>
      have := h1.update_cost k v
      rwa [keyOf_eq, after_secure] at this
    | delete k =>
      have := h1.delete_cost k
      rwa [keyOf_eq, after_secure] at this
  refine ⟨key, len_le_writes (E := E) ?_ key⟩
  cases op with
  | update k v => exact T.update_writes E k v _
  | delete k => exact T.delete_writes E k _

/-- In secure mode the bound is 66 writes, whatever the key. -/
theorem C64_secure {E : Env} {ops : List Op} (op : Op) (h : Valid E true ops []) :
    (MPT.exec E op (MPT.after E true ops)).2.len ≤ (MPT.after E true ops).len + 66 := by
  refine Nat.le_trans (C64_call op h).2 (Nat.add_le_add_left ?_ _)
  cases op <;> simp [cost, effective, E.keccak_len]

/-- C64, a history: `len(t)` is at most the sum of the bounds of the calls. -/
theorem C64_history {E : Env} {secure : Bool} {ops : List Op} (h : Valid E secure ops []) :
    (MPT.after E secure ops).len ≤ (ops.map (cost E secure)).sum := by
  have : ∀ (n : Nat) (ops : List Op), ops.length = n → Valid E secure ops [] →
      (MPT.after E secure ops).len ≤ (ops.map (cost E secure)).sum := by
    intro n
    induction n with
    | zero =>
      intro ops hn _
      rw [List.length_eq_zero_iff] at hn
      subst hn
      exact Nat.le_refl _
    | succ n ih =>
      intro ops hn hv
      rcases List.eq_nil_or_concat ops with rfl | ⟨ops', op, rfl⟩
      · simp at hn
      rw [List.concat_eq_append] at *
      have hc : Valid E secure ops' [] := hv.cut.subset (by simp)
      have h1 := ih ops' (by simpa using hn) hc
      have h2 := (C64_call op hc).2
      have hrun : MPT.after E secure (ops' ++ [op]) = (MPT.exec E op (MPT.after E secure ops')).2 := by
        rw [after_append]; rfl
      rw [hrun]
      simp only [List.map_append, List.map_cons, List.map_nil, List.sum_append, List.sum_cons, List.sum_nil]
      omega
  exact this _ ops rfl h

theorem passed_length {t : T} (hs : t.Shape) (p : List Nib) : (T.passed t p).length ≤ p.length := by
  induction t generalizing p with
  | empty => simp [T.passed]
  | leaf q v => simp [T.passed]
  | ext q c ih =>
    cases p with
    | nil => simp
    | cons i p =>
      rw [T.passed]
      split
      · rename_i hpre
        have h1 := ih hs.2.2 ((i :: p).drop q.length)
        have h2 : 0 < q.length := List.length_pos_iff.2 hs.1
        have h3 := hpre.length_le
        simp only [List.length_drop, List.length_cons] at h1 h3 ⊢
        omega
      · simp
  | branch cs v ih =>
    cases p with
    | nil => simp
    | cons i p =>
      rw [T.passed]
      split
      · simp
      · have := ih i (hs i) p
        simp only [List.length_cons]
        omega

/-- C64, proofs: an inclusion proof has at most one entry per nibble of the path and one more, an exclusion
proof at most two more. -/
theorem C64_proofs {E : Env} {secure : Bool} {ops : List Op} {k now : Bytes} {p : Proof Bytes}
    (h : Valid E secure ops [k]) :
    ((MPT.after E secure ops).getPoi E now k = .ok p →
      p.proof.length ≤ 2 * (effective E secure k).length + 1) ∧
    ((MPT.after E secure ops).getPoe E now k = .ok p →
      p.proof.length ≤ 2 * (effective E secure k).length + 2) := by
  obtain ⟨a, h1, _⟩ := h.inv
  by_cases hn : a = .empty
  · subst hn
    constructor
    · intro hp; rw [h1.getPoi_empty h.log] at hp; simp at hp
    · intro hp; rw [h1.getPoe_empty h.log] at hp; simp at hp
  have hlen := passed_length h1.shape (toNibs (effective E secure k))
  rw [toNibs_length] at hlen
  constructor
  · intro hp
    rw [h1.getPoi h.log hn (fits_nibs (h.fit (by simp))), keyOf_eq, after_secure,
      show (if secure = true then E.keccak k else k) = effective E secure k from rfl] at hp
    split at hp
    · simp at hp
    · simp only [Except.ok.injEq] at hp
      subst hp
      simp only [T.trail, List.length_map, List.length_append, List.length_cons, List.length_nil]
      omega
  · intro hp
    rw [h1.getPoe h.log hn (fits_nibs (h.fit (by simp))), keyOf_eq, after_secure,
      show (if secure = true then E.keccak k else k) = effective E secure k from rfl] at hp
    split at hp
    · simp at hp
    · simp only [Except.ok.injEq] at hp
      subst hp
      simp only [List.length_map, List.length_append, List.length_cons, List.length_nil]
      have : (T.shown a (toNibs (effective E secure k))).length ≤
          (T.passed a (toNibs (effective E secure k))).length + 1 := by
        unfold T.shown
        split <;> simp [T.trail]
      omega

/-- The bounds are met exactly: an update of a key of two nibbles makes 4 writes, the proof of it has 3
entries, and so has a proof of exclusion of a neighbour. -/
example : Valid toyEnv false [.update [0x12] (bigValue 1)] [] ∧
    (MPT.exec toyEnv (.update [0x13] (bigValue 2)) (MPT.after toyEnv false [.update [0x12] (bigValue 1)])).2.len =
      (MPT.after toyEnv false [.update [0x12] (bigValue 1)]).len + cost toyEnv false (.update [0x13] (bigValue 2)) ∧
    cost toyEnv false (.update [0x13] (bigValue 2)) = 4 :=
  ⟨valid_of (by decide +kernel), by decide +kernel, by decide +kernel⟩
example : Valid toyEnv false [.update [0x12] (bigValue 1), .update [0x13] (bigValue 2)] [[0x12]] ∧
    ((MPT.after toyEnv false [.update [0x12] (bigValue 1), .update [0x13] (bigValue 2)]).getPoi toyEnv []
      [0x12]).map (fun p => p.proof.length) = .ok 3 ∧
    ((MPT.after toyEnv false [.update [0x12] (bigValue 1), .update [0x13] (bigValue 2)]).getPoe toyEnv []
      [0x14]).map (fun p => p.proof.length) = .ok 3 :=
  ⟨valid_of (by decide +kernel), by decide +kernel, by decide +kernel⟩
example : Valid toyEnv true secureOps [] ∧ 0 < (MPT.after toyEnv true secureOps).len :=
  ⟨valid_of (by decide +kernel), by decide +kernel⟩

/-! ### C65: updating a key with the value it has -/

/-- C65: `update(k, v)` when `k` already has the value `v` succeeds and changes neither the root nor the
storage. -/
theorem C65_same {E : Env} {secure : Bool} {ops : List Op} {k v : Bytes} (h : Valid E secure ops [k])
    (hk : contents ops k = some v) :
    (MPT.update E k v (MPT.after E secure ops)).1 = .ok () ∧
    (MPT.update E k v (MPT.after E secure ops)).2.root = (MPT.after E secure ops).root ∧
    (MPT.update E k v (MPT.after E secure ops)).2.store.kv = (MPT.after E secure ops).store.kv := by
  obtain ⟨a, h1, h2, h3, h4⟩ := h.inv
  refine h1.update_same h.log (fits_nibs (h.fit (by simp))) ?_
  rw [h3, h.eff_key (by simp), hk]

/-- A key at a leaf, one at a branch, and secure mode. -/
example : Valid toyEnv false [.update [0x12] (bigValue 1), .update [0x12, 0x34] [2]] [[0x12]] ∧
    contents [.update [0x12] (bigValue 1), .update [0x12, 0x34] [2]] [0x12] = some (bigValue 1) ∧
    contents [.update [0x12] (bigValue 1), .update [0x12, 0x34] [2]] [0x12, 0x34] = some [2] ∧
    0 < (MPT.after toyEnv false [.update [0x12] (bigValue 1), .update [0x12, 0x34] [2]]).len :=
  ⟨valid_of (by decide +kernel), by decide +kernel, by decide +kernel, by decide +kernel⟩
example : Valid toyEnv true secureOps [[0x12]] ∧ contents secureOps [0x12] ≠ none :=
  ⟨valid_of (by decide +kernel), by decide +kernel⟩

end Props
end Pymt
