import Verif.Lemmas.Received
import Verif.Spec.Toy
import Verif.Model.Keccak

/-!
# Property C99: the root hash authenticates a received trie

A client knows the root hash of a trie and is handed the encoding of a whole trie by somebody else.  `Received`
(`Verif/Spec/Received.lean`): the bytes decode and `root_hash()` of the result is the known one.
-/

namespace Pymt
namespace Props

/-- The full statement of C99: what a received object answers is what the trie with that root hash answers, and a change
of the received object that succeeds gives the root hash the same change gives to that trie. -/
def C99 : Prop := ∀ (E : Env) (secure : Bool) (ops : List Op) (op : Op) (k b : Bytes) (t' : MPT),
  (∀ op ∈ ops, Fits E secure op.key) → Fits E secure op.key → Fits E secure k →
  LogOk E (MPT.after E secure (ops ++ [op])).store.written → Received E b t' (MPT.after E secure ops) →
  (∀ x, t'.contains E k = .ok x → (MPT.after E secure ops).contains E k = .ok x) ∧
  (∀ v, t'.get E k = .ok v → (MPT.after E secure ops).get E k = .ok v) ∧
  ((MPT.exec E op t').1 = .ok () →
    (MPT.exec E op t').2.rootHash E = (MPT.after E secure (ops ++ [op])).rootHash E)

/-- The trie of the counterexample. -/
def flagOps : List Op := [.update [0x12] (bigValue 1), .update [0x34] (bigValue 2)]

/-- Its encoding, with the last byte (the mode) changed. -/
def flagBytes : Bytes :=
  match (MPT.after realEnv false flagOps).encode with
  | .ok b => b.dropLast ++ [1]
  | .error _ => []

/-- The object decoded from bytes, for the examples. -/
def decoded (E : Env) (b : Bytes) : MPT :=
  match MPT.decode E b with
  | .ok t => t
  | .error _ => MPT.new E false

/-- Checks `Received` on concrete objects. -/
theorem received_of {E : Env} {b : Bytes} {t : MPT} (h1 : okAnd (MPT.decode E b) (fun _ => true) = true)
    (h2 : (decoded E b).rootHash E = t.rootHash E)
    (h3 : collFreeB E (Item.encode (.str []) :: (decoded E b).root.getD [] :: t.root.getD [] ::
      (t.store.written ++ (decoded E b).store.kv.map (·.2))) = true) : Received E b (decoded E b) t := by
  refine ⟨?_, h2, collFree_of h3⟩
  unfold decoded
  cases hd : MPT.decode E b with
  | error e => rw [hd] at h1; simp [okAnd] at h1
  | ok u => rfl

theorem flag_received : Received realEnv flagBytes (decoded realEnv flagBytes) (MPT.after realEnv false flagOps) :=
  received_of (by decide +kernel) (by decide +kernel) (by decide +kernel)

theorem flag_contains : (decoded realEnv flagBytes).contains realEnv [0x12] = .ok false ∧
    (MPT.after realEnv false flagOps).contains realEnv [0x12] ≠ .ok false := by decide +kernel

theorem flag_log : LogOk realEnv (MPT.after realEnv false (flagOps ++ [.update [0x12] [1]])).store.written :=
  logOk_of (by decide +kernel)

theorem flag_fits : ∀ op ∈ flagOps, Fits realEnv false op.key := by decide +kernel

theorem flag_fits' : Fits realEnv false [0x12] := by decide +kernel

/-- C99 is false: the mode is part of the encoding but not of the root hash, so a received trie with the known root hash
can say that a present key is absent. -/
theorem C99_false : ¬ C99 := fun h =>
  flag_contains.2 ((h realEnv false flagOps (.update [0x12] [1]) [0x12] flagBytes _ flag_fits flag_fits' flag_fits'
    flag_log flag_received).1 false flag_contains.1)

/-- C99 in part: with the right mode, a received object raises KeyError or answers as the trie with that root hash, if
that trie contains some key.  Missing: the mode. -/
theorem C99_query_partial {E : Env} {secure : Bool} {ops : List Op} {k k0 b : Bytes} {t' : MPT}
    (hf : ∀ op ∈ ops, Fits E secure op.key) (hk : Fits E secure k)
    (hl : LogOk E (MPT.after E secure ops).store.written) (hr : Received E b t' (MPT.after E secure ops))
    (hs : t'.secure = secure) (h0 : (MPT.after E secure ops).contains E k0 = .ok true) :
    (t'.get E k = .error .keyError ∨ t'.get E k = (MPT.after E secure ops).get E k) ∧
    (t'.contains E k = .error .keyError ∨ t'.contains E k = (MPT.after E secure ops).contains E k) := by
  have hb := Bears.after hf hl
  have hne := hb.holds.ne_of_contains hl h0
  have hsec := after_secure E secure ops
  obtain ⟨r', ht⟩ := hr.twin_same hb hl hne (hs.trans hsec.symm)
  exact ⟨ht.get hb hne (by rw [hsec]; exact hk), ht.contains hb hne hl (by rw [hsec]; exact hk)⟩

/-- C99 in part: with the right mode, what a received object answers is true, also if the trie is empty. -/
theorem C99_true_partial {E : Env} {secure : Bool} {ops : List Op} {k b : Bytes} {t' : MPT}
    (hf : ∀ op ∈ ops, Fits E secure op.key) (hk : Fits E secure k)
    (hl : LogOk E (MPT.after E secure ops).store.written) (hr : Received E b t' (MPT.after E secure ops))
    (hs : t'.secure = secure) :
    (∀ x, t'.contains E k = .ok x → (MPT.after E secure ops).contains E k = .ok x) ∧
    (∀ v, t'.get E k = .ok v → (MPT.after E secure ops).get E k = .ok v) := by
  have hb := Bears.after hf hl
  have hsec := after_secure E secure ops
  have hk' : Fits E (MPT.after E secure ops).secure k := by rw [hsec]; exact hk
  by_cases hne : T.grow .empty (ops.map (Op.mapKey (effective E secure))) = .empty
  · rw [hne] at hb
    obtain ⟨h1, h2⟩ := hr.empty hb k
    refine ⟨fun x hx => ?_, fun v hv => absurd hv (h1 v)⟩
    have : (MPT.after E secure ops).contains E k = .ok false := by
      rw [hb.holds.contains hl (fits_nibs hk')]
      simp [T.has, T.seek]
    cases x with
    | true => exact absurd hx h2
    | false => exact this
  · obtain ⟨r', ht⟩ := hr.twin_same hb hl hne (hs.trans hsec.symm)
    refine ⟨fun x hx => ?_, fun v hv => ?_⟩
    · rcases ht.contains hb hne hl hk' with g | g
      · rw [hx] at g; simp at g
      · rw [← g, hx]
    · rcases ht.get hb hne hk' with g | g
      · rw [hv] at g; simp at g
      · rw [← g, hv]

/-- C99 in part: with the right mode, after any calls on the received object one of them raised KeyError, or all ended as
on the trie with that root hash, and root hash and contents are again those of that trie. -/
theorem C99_history_partial {E : Env} {secure : Bool} {ops ops' : List Op} {k0 b : Bytes} {t' : MPT}
    (hf : ∀ op ∈ ops ++ ops', Fits E secure op.key)
    (hl : LogOk E (MPT.after E secure (ops ++ ops')).store.written) (hr : Received E b t' (MPT.after E secure ops))
    (hs : t'.secure = secure) (h0 : (MPT.after E secure ops).contains E k0 = .ok true) :
    Except.error Err.keyError ∈ outcomes E ops' t' ∨
    (outcomes E ops' t' = outcomes E ops' (MPT.after E secure ops) ∧
      (MPT.run E ops' t').rootHash E = (MPT.after E secure (ops ++ ops')).rootHash E ∧
      ∀ k, Fits E secure k → (MPT.run E ops' t').contains E k = .error .keyError ∨
        (MPT.run E ops' t').contains E k = (MPT.after E secure (ops ++ ops')).contains E k) := by
  have hl2 := hl
  rw [after_append] at hl2
  have hl1 : LogOk E (MPT.after E secure ops).store.written := log_of_replay (run_writes E ops' _) hl2
  have hb := Bears.after (fun op ho => hf op (List.mem_append_left _ ho)) hl1
  have hne := hb.holds.ne_of_contains hl1 h0
  have hsec := after_secure E secure ops
  obtain ⟨r', ht⟩ := hr.twin_same hb hl1 hne (hs.trans hsec.symm)
  have hf' : ∀ op ∈ ops', Fits E (MPT.after E secure ops).secure op.key := fun op ho => by
    rw [hsec]; exact hf op (List.mem_append_right _ ho)
  have hb2 := hb.run hf' hl2
  rw [after_append]
  have hsec2 : (MPT.run E ops' (MPT.after E secure ops)).secure = secure := (run_secure _ _ _).trans hsec
  rcases ht.run hb hne hf' hl2 with g | ⟨g, ha | ⟨h1, h2⟩⟩
  · exact .inl g
  · refine .inr ⟨g, ?_, fun k hk => ?_⟩
    · unfold MPT.rootHash
      rw [ha.root]
    · have hk' : Fits E (MPT.run E ops' (MPT.after E secure ops)).secure k := by rw [hsec2]; exact hk
      rcases ha.contains (E := E) k with q | q | q
      · exact .inl q
      · exact absurd q (hb2.holds.never_key hl2 (k := k) (fits_nibs hk')).2.1
      · exact .inr q
  · refine .inr ⟨g, ?_, fun k hk => ?_⟩
    · rw [h1, h2.rootHash hb]
    · rw [h1]
      exact h2.contains hb hne hl1 (by rw [hsec]; exact hk)

/-- C99 in part: whatever the mode of the received object, a non-empty value it returns is the value of a key of the trie
with that root hash; the path of that key begins with the path that was looked up. -/
theorem C99_value_partial {E : Env} {secure : Bool} {ops : List Op} {k v b : Bytes} {t' : MPT}
    (hf : ∀ op ∈ ops, Fits E secure op.key) (hk : Fits E t'.secure k)
    (hl : LogOk E (MPT.after E secure ops).store.written) (hr : Received E b t' (MPT.after E secure ops))
    (hv : t'.get E k = .ok v) :
    v = [] ∨ ∃ k', contents ops k' = some v ∧ effective E t'.secure k <+: effective E secure k' := by
  have hb := Bears.after hf hl
  by_cases hne : T.grow .empty (ops.map (Op.mapKey (effective E secure))) = .empty
  · rw [hne] at hb
    exact absurd hv ((hr.empty hb k).1 v)
  · obtain ⟨r', ht⟩ := hr.twin hb hl hne
    have hb' := hb.flag t'.secure
    rcases ht.get hb' hne hk with g | g
    · rw [hv] at g; simp at g
    · rw [hv, hb'.holds.get hne (fits_nibs hk)] at g
      rcases T.getT_sound g.symm with h | ⟨r, h⟩
      · exact .inl h
      · obtain ⟨k', h1, h2⟩ := T.grow_sub h
        refine .inr ⟨k', h1, toNibs_prefix.1 ⟨r, ?_⟩⟩
        rw [← h2]
        simp [keyOf_eq, effective]

/-! ### Cases -/

/-- The trie of the examples. -/
def sentOps : List Op :=
  [.update [0x12, 0x34] (bigValue 1), .update [0x12, 0x56] (bigValue 2), .update [0x99] (bigValue 3), .update [0x12] []]

/-- An encoding somebody made up for it: in place of the root hash the root node itself, the leaf of `12 34` left out,
an entry added that belongs to no trie. -/
def sentBytes (mode : Item) : Bytes :=
  let t := MPT.after toyEnv false sentOps
  Item.encode (.list [.str ((dget t.store.kv (t.root.getD [])).getD []),
    .list (.str [1, 2, 3] :: ((t.store.kv.map (·.2)).filter (fun e => e.getLast? ≠ some 1)).map .str), mode])

/-- The hypotheses of C99 are met by it; its root is not the one of the trie it was made for, one key is found, one raises
KeyError, an absent one is absent; a change beside the gap succeeds. -/
example :
    let t := MPT.after toyEnv false sentOps
    let t' := decoded toyEnv (sentBytes (.str []))
    (∀ op ∈ sentOps ++ [.delete [0x77], .update [0x99] [7]], Fits toyEnv false op.key) ∧
    LogOk toyEnv (MPT.after toyEnv false (sentOps ++ [.delete [0x77], .update [0x99] [7]])).store.written ∧
    Received toyEnv (sentBytes (.str [])) t' t ∧ t'.secure = false ∧ t.contains toyEnv [0x99] = .ok true ∧
    t'.root ≠ t.root ∧ t'.get toyEnv [0x99] = .ok (bigValue 3) ∧ t'.contains toyEnv [0x98] = .ok false ∧
    t'.get toyEnv [0x12, 0x34] = .error .keyError ∧
    outcomes toyEnv [.delete [0x77], .update [0x99] [7]] t' = [.error .branchPath, .ok ()] :=
  ⟨by decide, logOk_of (by decide +kernel), received_of (by decide +kernel) (by decide +kernel) (by decide +kernel),
    by decide +kernel, by decide +kernel, by decide +kernel, by decide +kernel, by decide +kernel, by decide +kernel,
    by decide +kernel⟩

/-- Received objects for an empty trie: bytes that name no root, or the empty node as root. -/
example : ∀ r ∈ ([[], [0x80], emptyHash toyEnv] : List Bytes), ∃ t',
    Received toyEnv (Item.encode (.list [.str r, .list [.str [0x80]], .str []])) t' (MPT.after toyEnv false []) := by
  intro r hr
  refine ⟨_, received_of ?_ ?_ ?_⟩ <;> revert r <;> decide +kernel

/-- A secure trie received as one that is not: the value is found under the hash of its key. -/
example :
    let t := MPT.after toyEnv true [.update [0x12] [7]]
    let b := Item.encode (.list [.str (t.root.getD []), .list (t.store.kv.map fun e => .str e.2), .str []])
    let t' := decoded toyEnv b
    (∀ op ∈ [Op.update [0x12] [7]], Fits toyEnv true op.key) ∧ Fits toyEnv t'.secure (toyEnv.keccak [0x12]) ∧
    LogOk toyEnv t.store.written ∧ Received toyEnv b t' t ∧ t'.secure = false ∧
    t'.get toyEnv (toyEnv.keccak [0x12]) = .ok [7] :=
  ⟨by decide, by decide +kernel, logOk_of (by decide +kernel),
    received_of (by decide +kernel) (by decide +kernel) (by decide +kernel), by decide +kernel, by decide +kernel⟩

end Props
end Pymt
