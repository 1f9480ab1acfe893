import Verif.Lemmas.Untrusted

/-!
# Which exceptions the checkers of proofs can raise

For any trie object and any proof object, without assumptions.
-/

namespace Pymt

/-- All exceptions of a computation are among the listed ones. -/
def Only {α : Type} (S : List Err) (m : Py α) : Prop := ∀ e, m = .error e → e ∈ S

namespace Only

theorem ok {α : Type} {S : List Err} (a : α) : Only S (.ok a) := by intro e h; simp at h

theorem pure' {α : Type} {S : List Err} (a : α) : Only S (pure a : Py α) := by intro e h; simp at h

theorem err {α : Type} {S : List Err} {e : Err} (h : e ∈ S) : Only S (.error e : Py α) := by
  intro e' h'; cases h'; exact h

theorem bind {α β : Type} {S : List Err} {m : Py α} {f : α → Py β} (h1 : Only S m)
    (h2 : ∀ a, m = .ok a → Only S (f a)) : Only S (m >>= f) := by
  cases m with
  | error e => intro e' h'; simp only [Except.bind_error'] at h'; cases h'; exact h1 e rfl
  | ok a => exact h2 a rfl

theorem mono {α : Type} {S S' : List Err} {m : Py α} (h : Only S m) (hs : ∀ e ∈ S, e ∈ S') : Only S' m :=
  fun e he => hs e (h e he)

end Only

/-- A node whose path has not been consumed beyond its end. -/
def Node.Sane : Node → Prop
  | .leaf p _ => p.WF
  | .ext p _ => p.WF
  | .branch bs _ => bs.length = 16

theorem rlpDecode_only (b : Bytes) : Only [.rlpDecoding] (rlpDecode b) := by
  unfold rlpDecode
  split
  · exact .ok _
  · exact .err (by simp)

theorem decodeWithType_only (b : Bytes) : Only [.indexError] (NibblePath.decodeWithType b) := by
  unfold NibblePath.decodeWithType
  split
  · exact .err (by simp)
  · exact .ok _

theorem decodeWithType_wf {b : Bytes} {p : NibblePath} {l : Bool}
    (h : NibblePath.decodeWithType b = .ok (p, l)) : p.WF := by
  unfold NibblePath.decodeWithType at h
  split at h
  · simp at h
  · simp only [Except.ok.injEq, Prod.mk.injEq] at h
    obtain ⟨rfl, _⟩ := h
    simp only [NibblePath.WF, List.length_cons]
    split <;> omega

theorem asBytes_only (x : Item) : Only [.typeError] (Node.asBytes x) := by
  cases x
  · exact .ok _
  · exact .err (by simp)

theorem decode_only (b : Bytes) :
    Only [.rlpDecoding, .typeError, .assertion, .indexError] (Node.decode b) := by
  unfold Node.decode
  refine .bind ((rlpDecode_only b).mono (by simp)) fun x _ => ?_
  split
  · split <;> exact .err (by simp)
  · split
    · simp only
      split
      · exact .bind ((asBytes_only _).mono (by simp)) fun v _ => .pure' _
      · exact .err (by simp)
    · split
      · split
        · exact .err (by simp)
        · exact .err (by simp)
        · refine .bind ((decodeWithType_only _).mono (by simp)) fun x _ => ?_
          split
          split
          · exact .bind ((asBytes_only _).mono (by simp)) fun v _ => .pure' _
          · exact .pure' _
      · exact .err (by simp)

theorem decode_sane {b : Bytes} {n : Node} (h : Node.decode b = .ok n) : n.Sane := by
  unfold Node.decode at h
  cases hx : rlpDecode b with
  | error e => rw [hx] at h; simp at h
  | ok x =>
    rw [hx] at h
    simp only [Except.bind_ok'] at h
    split at h
    · split at h <;> simp at h
    · rename_i l
      split at h
      · rename_i hl
        split at h
        · rename_i d hd
          cases hv : Node.asBytes d with
          | error e => rw [hv] at h; simp at h
          | ok v =>
            rw [hv] at h
            simp at h
            subst h
            simp [Node.Sane, hl]
        · simp at h
      · split at h
        · split at h
          · simp at h
          · simp at h
          · rename_i d _ pb _
            cases hp : NibblePath.decodeWithType pb with
            | error e => rw [hp] at h; simp at h
            | ok r =>
              obtain ⟨path, isLeaf⟩ := r
              have hw := decodeWithType_wf hp
              rw [hp] at h
              simp only [Except.bind_ok'] at h
              split at h
              · cases hv : Node.asBytes d with
                | error e => rw [hv] at h; simp at h
                | ok v => rw [hv] at h; simp at h; subst h; exact hw
              · simp at h; subst h; exact hw
        · simp at h

theorem prepareForEncoding_only (r : Bytes) : Only [.rlpDecoding] (prepareForEncoding r) := by
  unfold prepareForEncoding
  split
  · exact rlpDecode_only _
  · exact .ok _

theorem prepareAll_only (rs : List Bytes) : Only [.rlpDecoding] (prepareAll rs) := by
  induction rs with
  | nil => exact .ok _
  | cons r rs ih =>
    exact .bind (prepareForEncoding_only r) fun i _ => .bind ih fun is _ => .pure' _

theorem encode_only {n : Node} (h : n.Sane) : Only [.rlpDecoding] n.encode := by
  cases n with
  | leaf p d =>
    rw [Node.encode]
    rw [NibblePath.encode_spec h]
    exact .bind (.ok _) fun _ _ => .pure' _
  | ext p r =>
    rw [Node.encode]
    refine .bind (prepareForEncoding_only r) fun _ _ => ?_
    rw [NibblePath.encode_spec h]
    exact .bind (.ok _) fun _ _ => .pure' _
  | branch bs d =>
    rw [Node.encode]
    exact .bind (prepareAll_only bs) fun _ _ => .pure' _

theorem proofStorage_only (E : Env) (l : List Bytes) (acc : Dict Bytes) :
    Only [.rlpDecoding, .typeError, .assertion, .indexError] (MPT.proofStorage E l acc) := by
  induction l generalizing acc with
  | nil => exact .ok _
  | cons v l ih =>
    unfold MPT.proofStorage
    refine .bind (decode_only v) fun n hn => .bind ?_ fun r _ => ih _
    unfold Node.intoReference
    refine .bind ((encode_only (decode_sane hn)).mono (by simp)) fun e _ => ?_
    split <;> exact .pure' _

theorem nibs_of_len {p : NibblePath} (hp : p.WF) {n : Nat} (h : p.len = .ok n) (hn : n ≠ 0) :
    ∃ i q, p.nibs = i :: q := by
  rw [NibblePath.len_spec hp] at h
  cases hq : p.nibs with
  | nil => rw [hq] at h; simp at h; exact absurd h.symm hn
  | cons i q => exact ⟨i, q, rfl⟩

theorem verifyPoiAux_only (ps : Dict Bytes) (f : Nat) (ref : Bytes) {path : NibblePath} (hp : path.WF) :
    Only [.rlpDecoding, .typeError, .assertion, .indexError, .extensionPath, .branchPath, .recursion]
      (MPT.verifyPoiAux ps f ref path) := by
  induction f generalizing ref path with
  | zero => exact .err (by simp)
  | succ f ih =>
    unfold MPT.verifyPoiAux
    split
    · exact .ok _
    rename_i hno
    have hraw : Only [.rlpDecoding, .typeError, .assertion, .indexError, .extensionPath, .branchPath,
        .recursion] (MPT.rawOf ps ref) := by
      unfold MPT.rawOf
      split
      · rename_i hl
        unfold dgetItem
        cases hd : dget ps ref with
        | none => exact absurd ⟨hl, hd⟩ hno
        | some v => exact .ok _
      · exact .ok _
    refine .bind hraw fun raw _ => .bind ((decode_only raw).mono (by simp)) fun n hn => ?_
    have hs := decode_sane hn
    refine .bind ?_ fun m hm => ?_
    · rw [NibblePath.len_spec hp]; exact .ok _
    split
    · split <;> exact .pure' _
    rename_i hm0
    obtain ⟨i, q, hpn⟩ := nibs_of_len hp hm hm0
    cases n with
    | leaf p d =>
      simp only
      rw [NibblePath.eq_spec hs hp]; exact .ok _
    | ext p r =>
      simp only
      rw [NibblePath.startsWith_spec hp hs]
      refine .bind (.ok _) fun pre hpre => ?_
      split
      · rename_i hpt
        simp only [Except.ok.injEq] at hpre
        rw [← hpre, decide_eq_true_eq] at hpt
        rw [NibblePath.len_spec hs]
        refine .bind (.ok _) fun k hk => ?_
        simp only [Except.ok.injEq] at hk
        subst hk
        exact ih _ (NibblePath.consume_WF hp hpt.length_le)
      · exact .err (by simp)
    | branch bs d =>
      simp only
      rw [NibblePath.at_zero hpn]
      refine .bind (.ok _) fun j _ => .bind ?_ fun b _ => ?_
      · unfold pyIndex
        split
        · exact .ok _
        · exact .err (by simp)
      · split
        · exact ih _ (T.nibs_cons_consume hp hpn).1
        · exact .err (by simp)

theorem verifyPoeAux_only (f : Nat) (ref : Bytes) {path : NibblePath} (hp : path.WF) (ps : Dict Bytes) :
    Only [.rlpDecoding, .typeError, .assertion, .indexError, .poe, .recursion]
      (MPT.verifyPoeAux f ref path ps) ∧
    ∀ n ps', MPT.verifyPoeAux f ref path ps = .ok (some n, ps') → n.Sane := by
  induction f generalizing ref path ps with
  | zero => exact ⟨.err (by simp), by intro n ps' h; simp [MPT.verifyPoeAux] at h⟩
  | succ f ih =>
    unfold MPT.verifyPoeAux
    split
    · exact ⟨.ok _, by intro n ps' h; simp at h⟩
    rename_i hno
    cases hraw : MPT.rawOf ps ref with
    | error e =>
      exfalso
      unfold MPT.rawOf at hraw
      split at hraw
      · rename_i hl
        unfold dgetItem at hraw
        cases hd : dget ps ref with
        | none => exact hno ⟨hl, hd⟩
        | some v => rw [hd] at hraw; simp at hraw
      · simp at hraw
    | ok raw =>
    simp only [Except.bind_ok']
    cases hn : Node.decode raw with
    | error e =>
      have := decode_only raw e hn
      refine ⟨.err ?_, by intro n ps' h; simp at h⟩
      simp only [List.mem_cons, List.not_mem_nil, or_false] at this ⊢
      rcases this with h | h | h | h <;> simp [h]
    | ok n =>
    have hs := decode_sane hn
    simp only [Except.bind_ok']
    split
    · exact ⟨.err (by simp), by intro n ps' h; simp at h⟩
    rw [NibblePath.len_spec hp]
    simp only [Except.bind_ok']
    split
    · refine ⟨.pure' _, ?_⟩
      intro n' ps' h
      simp at h
      exact h.1 ▸ hs
    rename_i hm0
    obtain ⟨i, q, hpn⟩ := nibs_of_len hp (NibblePath.len_spec hp) hm0
    have hdone : ∀ {ps0 : Dict Bytes}, Only [.rlpDecoding, .typeError, .assertion, .indexError, .poe, .recursion]
        (pure (some n, ps0) : Py (Option Node × Dict Bytes)) ∧
        ∀ n' ps', (pure (some n, ps0) : Py (Option Node × Dict Bytes)) = .ok (some n', ps') → n'.Sane := by
      intro ps0
      refine ⟨.pure' _, ?_⟩
      intro n' ps' h
      simp at h
      exact h.1 ▸ hs
    cases n with
    | leaf p d => exact hdone
    | ext p r =>
      simp only
      rw [NibblePath.startsWith_spec hp hs]
      simp only [Except.bind_ok', decide_eq_true_eq]
      split
      · rename_i hpt
        rw [NibblePath.len_spec hs]
        exact ih _ (NibblePath.consume_WF hp hpt.length_le) _
      · exact hdone
    | branch bs d =>
      simp only
      rw [NibblePath.at_zero hpn]
      simp only [Except.bind_ok']
      cases hb : pyIndex bs i.val with
      | error e =>
        refine ⟨.err ?_, by intro n ps' h; simp at h⟩
        unfold pyIndex at hb
        split at hb
        · simp at hb
        · cases hb; simp
      | ok b =>
        simp only [Except.bind_ok']
        split
        · exact ih _ (T.nibs_cons_consume hp hpn).1 _
        · exact hdone

/-- Exceptions of `verify_proof_of_inclusion`. -/
theorem verifyPoi_only (E : Env) (t : MPT) (p : Proof Bytes) :
    Only [.typeError, .valueError, .indexError, .assertion, .rlpDecoding, .extensionPath, .branchPath,
      .recursion] (t.verifyPoi E p) := by
  unfold MPT.verifyPoi
  split
  · exact .err (by simp)
  split
  · exact .err (by simp)
  refine .bind ?_ fun first _ => ?_
  · unfold pyIndex
    split
    · exact .ok _
    · exact .err (by simp)
  split
  · exact .pure' _
  cases hps : MPT.proofStorage E p.proof [] with
  | error e =>
    have := proofStorage_only E p.proof [] e hps
    simp only [List.mem_cons, List.not_mem_nil, or_false] at this
    rcases this with rfl | rfl | rfl | rfl
    · exact .pure' _
    all_goals exact .err (by simp)
  | ok ps =>
    refine .bind ((verifyPoiAux_only ps E.limit _ (NibblePath.WF_bytes _)).mono ?_) fun _ _ => .pure' _
    intro e he
    simp only [List.mem_cons, List.not_mem_nil, or_false] at he ⊢
    rcases he with h | h | h | h | h | h | h <;> simp [h]

/-- Exceptions of `verify_proof_of_exclusion`. -/
theorem verifyPoe_only (E : Env) (t : MPT) (p : Proof Bytes) :
    Only [.typeError, .valueError, .indexError, .assertion, .rlpDecoding, .attributeError, .poe,
      .recursion] (t.verifyPoe E p) := by
  unfold MPT.verifyPoe
  split
  · exact .err (by simp)
  split
  · exact .err (by simp)
  refine .bind ?_ fun first _ => ?_
  · unfold pyIndex
    split
    · exact .ok _
    · exact .err (by simp)
  split
  · exact .pure' _
  refine .bind ?_ fun last _ => .bind ((decode_only last).mono (by
    intro e he
    simp only [List.mem_cons, List.not_mem_nil, or_false] at he ⊢
    rcases he with h | h | h | h <;> simp [h])) fun ln _ => .bind ?_ fun d _ => ?_
  · unfold MPT.lastItem
    split
    · exact .ok _
    · exact .err (by simp)
  · cases ln
    · exact .ok _
    · exact .err (by simp)
    · exact .ok _
  split
  · exact .pure' _
  refine .bind ((proofStorage_only E _ []).mono (by
    intro e he
    simp only [List.mem_cons, List.not_mem_nil, or_false] at he ⊢
    rcases he with h | h | h | h <;> simp [h])) fun ps _ => ?_
  obtain ⟨h1, h2⟩ := verifyPoeAux_only E.limit (t.root.getD []) (NibblePath.WF_bytes p.targetKey) ps
  refine .bind (h1.mono (by
    intro e he
    simp only [List.mem_cons, List.not_mem_nil, or_false] at he ⊢
    rcases he with h | h | h | h | h | h <;> simp [h])) fun r hr => ?_
  obtain ⟨node, left⟩ := r
  simp only
  split
  · exact .pure' _
  cases node with
  | none => exact .pure' _
  | some n =>
    cases n with
    | leaf q d =>
      simp only
      have hs : q.WF := h2 _ _ hr
      rw [NibblePath.eq_spec hs (NibblePath.WF_bytes _)]
      exact .bind (.ok _) fun _ _ => .pure' _
    | ext q r => exact .pure' _
    | branch bs d => exact .pure' _

end Pymt
