import Verif.Spec.Keys
import Verif.Lemmas.History

/-!
# Paths that cannot be read
-/

namespace Pymt

namespace BadPath

theorem eq_ne_true {p : BadPath} (hp : p ≠ some 0) (q : NibblePath) : p.eq q ≠ .ok true := by
  unfold eq
  cases q.len with
  | error e => simp
  | ok m =>
    cases p with
    | none => simp [len]
    | some n =>
      have hn : n ≠ 0 := fun h => hp (by rw [h])
      simp only [len, Except.bind_ok', nibbleAt, if_neg hn]
      split
      · simp
      · simp

theorem eq_cases {p : BadPath} (hp : p ≠ some 0) {q : NibblePath} (hq : q.WF) :
    p.eq q = .error .typeError ∨ p.eq q = .ok false := by
  unfold eq
  rw [NibblePath.len_spec hq]
  cases p with
  | none => exact .inl rfl
  | some n =>
    have hn : n ≠ 0 := fun h => hp (by rw [h])
    simp only [len, Except.bind_ok', nibbleAt, if_neg hn]
    split
    · exact .inr rfl
    · exact .inl rfl

theorem startsWith_cases {p : BadPath} {q : NibblePath} (hq : q.WF) (h0 : q.nibs ≠ []) :
    p.startsWith q = .error .typeError ∨ p.startsWith q = .ok false := by
  unfold startsWith
  rw [NibblePath.len_spec hq]
  have h1 : q.nibs.length ≠ 0 := fun h => h0 (List.length_eq_zero_iff.1 h)
  cases p with
  | none => exact .inl rfl
  | some n =>
    simp only [len, Except.bind_ok', nibbleAt, if_neg h1]
    split
    · exact .inr rfl
    · exact .inl rfl

theorem commonPrefix_cases (p : BadPath) {q : NibblePath} (hq : q.WF) :
    p.commonPrefix q = .error .typeError ∨ ∃ x, p.commonPrefix q = .ok x := by
  unfold commonPrefix
  rw [NibblePath.len_spec hq]
  cases p with
  | none => exact .inl rfl
  | some n =>
    simp only [len, Except.bind_ok', nibbleAt]
    split
    · exact .inr ⟨_, rfl⟩
    · exact .inl rfl

theorem encode_error (p : BadPath) : p.encode = .error .typeError := by cases p <;> rfl

end BadPath

namespace MPT

theorem createBranchLeafBad_eq (p : BadPath) (st : Store) :
    createBranchLeafBad p st = (.error .typeError, st) := by cases p <;> rfl

/-! ### Any storage -/

theorem getAuxBad_raises {p : BadPath} (hp : p ≠ some 0) (kv : Dict Bytes) :
    ∀ (f : Nat) (ref : Bytes), ∃ e, getAuxBad kv f ref p = .error e
  | 0, _ => ⟨_, rfl⟩
  | f + 1, ref => by
    unfold getAuxBad
    cases getNode kv ref with
    | error e => exact ⟨e, rfl⟩
    | ok node =>
      cases p.len with
      | error e => exact ⟨e, by simp⟩
      | ok n =>
        simp only [Except.bind_ok']
        cases node with
        | leaf q d =>
          have h := BadPath.eq_ne_true hp q
          cases hq : p.eq q with
          | error e => exact ⟨e, by simp [hq]⟩
          | ok b =>
            cases b with
            | true => exact absurd hq h
            | false => exact ⟨.attributeError, by simp [hq, message]⟩
        | ext q r =>
          cases hq : p.startsWith q with
          | error e => exact ⟨e, by simp [hq]⟩
          | ok b =>
            cases b with
            | true => simpa [hq] using getAuxBad_raises hp kv f r
            | false => exact ⟨.attributeError, by simp [hq, message]⟩
        | branch bs d => exact ⟨.typeError, by simp [BadPath.nibbleAt]⟩

theorem getPoiAuxBad_raises {p : BadPath} (hp : p ≠ some 0) (kv : Dict Bytes) :
    ∀ (f : Nat) (ref : Bytes) (l : List Bytes), ∃ e, getPoiAuxBad kv f ref p l = .error e
  | 0, _, _ => ⟨_, rfl⟩
  | f + 1, ref, l => by
    unfold getPoiAuxBad
    cases getNode kv ref with
    | error e => exact ⟨e, rfl⟩
    | ok node =>
      cases p.len with
      | error e => exact ⟨e, by simp⟩
      | ok n =>
        simp only [Except.bind_ok']
        cases node with
        | leaf q d =>
          have h := BadPath.eq_ne_true hp q
          cases hq : p.eq q with
          | error e => exact ⟨e, by simp [hq]⟩
          | ok b =>
            cases b with
            | true => exact absurd hq h
            | false => exact ⟨.attributeError, by simp [hq, message]⟩
        | ext q r =>
          cases hq : p.startsWith q with
          | error e => exact ⟨e, by simp [hq]⟩
          | ok b =>
            cases b with
            | true =>
              cases he : Node.encode (.ext q r) with
              | error e => exact ⟨e, by simp [hq, he]⟩
              | ok x => simpa [hq, he] using getPoiAuxBad_raises hp kv f r (l ++ [x])
            | false => exact ⟨.attributeError, by simp [hq, message]⟩
        | branch bs d => exact ⟨.typeError, by simp [BadPath.nibbleAt]⟩

/-- What `_contains` finds is no branch. -/
theorem containsAuxBad_node {p : BadPath} (noRoot : Bool) (kv : Dict Bytes) :
    ∀ (f : Nat) (ref : Bytes) (bs : List Bytes) (d : Bytes),
      containsAuxBad noRoot kv f ref p ≠ .ok (some (.branch bs d))
  | 0, _, _, _ => by simp [containsAuxBad]
  | f + 1, ref, bs, d => by
    unfold containsAuxBad
    split
    · simp
    · cases getNode kv ref with
      | error e => simp
      | ok node =>
        cases p.len with
        | error e => simp
        | ok n =>
          simp only [Except.bind_ok']
          cases node with
          | leaf q d => simp
          | ext q r =>
            cases hq : p.startsWith q with
            | error e => simp [hq]
            | ok b =>
              cases b with
              | true => simpa [hq] using containsAuxBad_node noRoot kv f r bs d
              | false => simp [hq]
          | branch bs d => simp [BadPath.nibbleAt]

theorem updateAuxBad_raises (E : Env) {p : BadPath} (hp : p ≠ some 0) (st : Store) :
    ∀ (f : Nat) (ref : Bytes), ∃ e, updateAuxBad E f ref p st = (.error e, st)
  | 0, _ => ⟨_, rfl⟩
  | f + 1, ref => by
    unfold updateAuxBad
    split
    · exact ⟨.typeError, by simp [storeLeafBad, BadPath.encode_error, M.lift]⟩
    · simp only [getNodeM, M.bind_apply, M.get_apply, M.lift_apply]
      cases getNode st.kv ref with
      | error e => exact ⟨e, rfl⟩
      | ok node =>
        cases node with
        | leaf q d =>
          simp only [M.bind_apply, M.lift_apply]
          cases p.eq q with
          | error e => exact ⟨e, rfl⟩
          | ok b =>
            cases p.commonPrefix q with
            | error e => exact ⟨e, rfl⟩
            | ok x => exact ⟨.typeError, by simp [createBranchLeafBad_eq]⟩
        | ext q r =>
          simp only [M.bind_apply, M.lift_apply]
          cases p.startsWith q with
          | error e => exact ⟨e, rfl⟩
          | ok b =>
            cases b with
            | true =>
              obtain ⟨e, he⟩ := updateAuxBad_raises E hp st f r
              exact ⟨e, by simp [M.bind_apply, he]⟩
            | false =>
              simp only [Bool.false_eq_true, if_false, M.bind_apply, M.lift_apply]
              cases p.commonPrefix q with
              | error e => exact ⟨e, rfl⟩
              | ok x => exact ⟨.typeError, by simp [createBranchLeafBad_eq]⟩
        | branch bs d =>
          simp only [M.bind_apply, M.lift_apply]
          cases p.len with
          | error e => exact ⟨e, rfl⟩
          | ok n => exact ⟨.typeError, rfl⟩

theorem deleteAuxBad_raises (E : Env) {p : BadPath} (hp : p ≠ some 0) (st : Store) :
    ∀ (f : Nat) (ref : Bytes), ∃ e, deleteAuxBad E f ref p st = (.error e, st)
  | 0, _ => ⟨_, rfl⟩
  | f + 1, ref => by
    unfold deleteAuxBad
    simp only [getNodeM, M.bind_apply, M.get_apply, M.lift_apply]
    cases getNode st.kv ref with
    | error e => exact ⟨e, rfl⟩
    | ok node =>
      cases node with
      | leaf q d =>
        have h := BadPath.eq_ne_true hp q
        simp only [M.bind_apply, M.lift_apply]
        cases hq : p.eq q with
        | error e => exact ⟨e, rfl⟩
        | ok b =>
          cases b with
          | true => exact absurd hq h
          | false => exact ⟨.leafPath, rfl⟩
      | ext q r =>
        simp only [M.bind_apply, M.lift_apply]
        cases p.startsWith q with
        | error e => exact ⟨e, rfl⟩
        | ok b =>
          cases b with
          | true => simpa using deleteAuxBad_raises E hp st f r
          | false => exact ⟨.extensionPath, rfl⟩
      | branch bs d =>
        simp only [M.bind_apply, M.lift_apply]
        cases p.len with
        | error e => exact ⟨e, rfl⟩
        | ok n => exact ⟨.typeError, rfl⟩

/-! ### Tries of histories -/

/-- The root node of a trie that is not empty: a leaf, an extension with a path, or a branch. -/
theorem root_node {E : Env} {t : MPT} {a : T} (h : T.Holds E t a) (hne : a ≠ .empty) :
    ∃ n, getNode t.store.kv (t.root.getD []) = .ok n ∧
      ((∃ q d, n = .leaf q d ∧ q.WF) ∨ (∃ q r, n = .ext q r ∧ q.WF ∧ q.nibs ≠ []) ∨ ∃ bs d, n = .branch bs d) ∧
      ∃ x, n.encode = .ok x := by
  obtain ⟨n, h1, h2⟩ := T.getNode_ref h.stored hne
  refine ⟨n, by rw [h.getD hne, h1], ?_, _, h2.encode⟩
  have hs := h.shape
  cases a <;> cases n <;> simp only [T.Rep] at h2
  · exact .inl ⟨_, _, rfl, h2.1⟩
  · exact .inr (.inl ⟨_, _, rfl, h2.1, by rw [h2.2.1]; exact hs.1⟩)
  · exact .inr (.inr ⟨_, _, rfl⟩)

end MPT
theorem checked_of_ne {key : KeyArg} (hk : ∀ b, key ≠ .bytes b) : key.checked = .error .typeError := by
  cases key with
  | bytes b => exact absurd rfl (hk b)
  | _ => rfl

end Pymt
