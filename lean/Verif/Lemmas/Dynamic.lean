import Verif.Model.Dynamic
import Verif.Lemmas.Update
import Verif.Lemmas.Empties
import Verif.Lemmas.Mpt

/-!
# Lemmas: `MPT.update` with values of any type
-/

namespace Pymt

/-- The three ways in which `_update` ends: a new leaf, the leaf of the key, a branch. -/
inductive Kind where
  | fresh
  | leaf
  | inner
  deriving DecidableEq, Repr

/-- How `_update` of a path ends. -/
def T.kind : T → List Nib → Kind
  | .empty, _ => .fresh
  | .leaf q _, p => if q = p then .leaf else if p <+: q then .inner else .fresh
  | .ext q c, p => if q <+: p then T.kind c (p.drop q.length) else if p <+: q then .inner else .fresh
  | .branch _ _, [] => .inner
  | .branch cs _, i :: p => T.kind (cs i) p

namespace Val

/-- The bytes that end up in the trie, or the exception. -/
def land (v : Val) : Kind → Py Bytes
  | .fresh => v.asLeaf
  | .inner => v.asBranch
  | .leaf => do
    let i ← v.item
    MPT.binary i

mutual
theorem item_error {e : Err} : (v : Val) → v.item = .error e → e = .typeError
  | .bytes b, h => by simp [item] at h
  | .bytearray b, h => by simp [item] at h
  | .int n, h => by simp [item] at h
  | .bool b, h => by simp [item] at h
  | .text b, h => by simp [item] at h
  | .none, h => by simp only [item, Except.error.injEq] at h; exact h.symm
  | .other, h => by simp only [item, Except.error.injEq] at h; exact h.symm
  | .seq l, h => by
    rw [item] at h
    cases hl : items l with
    | ok is => rw [hl] at h; simp at h
    | error e' =>
      rw [hl] at h
      simp only [Except.bind_error', Except.error.injEq] at h
      rw [← h]
      exact items_error l hl
theorem items_error {e : Err} : (l : List Val) → items l = .error e → e = .typeError
  | [], h => by simp [items] at h
  | v :: l, h => by
    rw [items] at h
    cases hv : v.item with
    | error e' =>
      rw [hv] at h
      simp only [Except.bind_error', Except.error.injEq] at h
      rw [← h]
      exact item_error v hv
    | ok i =>
      rw [hv] at h
      simp only [Except.bind_ok'] at h
      cases hl : items l with
      | ok is => rw [hl] at h; simp at h
      | error e' =>
        rw [hl] at h
        simp only [Except.bind_error', Except.error.injEq] at h
        rw [← h]
        exact items_error l hl
end

theorem asLeaf_error {v : Val} {e : Err} (h : v.asLeaf = .error e) : e = .typeError := by
  cases v <;> simp only [asLeaf, reduceCtorEq, Except.error.injEq] at h <;> exact h.symm

theorem asBranch_error {v : Val} {e : Err} (h : v.asBranch = .error e) : e = .typeError := by
  cases v <;> simp only [asBranch, reduceCtorEq, Except.error.injEq] at h <;> exact h.symm

theorem land_bytes (b : Bytes) (k : Kind) : (Val.bytes b).land k = .ok b := by cases k <;> rfl
theorem land_bytearray (b : Bytes) (k : Kind) : (Val.bytearray b).land k = .ok b := by cases k <;> rfl

end Val

theorem storeLeafVal_str {E : Env} {path : NibblePath} {v : Val} {c : Bytes} (h : v.item = .ok (.str c)) (st : Store) :
    MPT.storeLeafVal E path v st = MPT.storeNode E (.leaf path c) st := by
  unfold MPT.storeLeafVal MPT.storeNode Node.intoReference
  simp only [M.bind_apply, M.lift_apply, Node.encode, h]
  cases path.encode true with
  | error e => rfl
  | ok p =>
    simp only [Except.bind_ok', Except.pure_ok']
    split <;> rfl

theorem createBranchLeafVal_ok {E : Env} {path : NibblePath} {v : Val} {c : Bytes} (bs : List Bytes)
    (h : v.asLeaf = .ok c) (st : Store) :
    MPT.createBranchLeafVal E path v bs st = MPT.createBranchLeaf E path c bs st := by
  unfold MPT.createBranchLeafVal MPT.createBranchLeaf
  simp only [h]
  rfl

theorem createBranchLeafVal_end {E : Env} {path : NibblePath} (v : Val) (c : Bytes) (bs : List Bytes)
    (h : path.len = .ok 0) (st : Store) :
    MPT.createBranchLeafVal E path v bs st = MPT.createBranchLeaf E path c bs st := by
  unfold MPT.createBranchLeafVal MPT.createBranchLeaf
  simp only [M.bind_apply, M.lift_apply, h]
  rfl

theorem createBranchLeafVal_error {E : Env} {path : NibblePath} (hp : path.WF) (h0 : path.nibs.length ≠ 0) {v : Val}
    {bs : List Bytes} {e : Err} (h : v.asLeaf = .error e) (st : Store) :
    MPT.createBranchLeafVal E path v bs st = (.error e, st) := by
  unfold MPT.createBranchLeafVal
  cases hn : path.nibs with
  | nil => rw [hn] at h0; exact absurd rfl h0
  | cons i p =>
    simp only [M.bind_apply, M.lift_apply, NibblePath.len_spec hp, hn, List.length_cons,
      NibblePath.at_zero hn, h]
    simp

namespace T

/-- What `_update` does with a value of any type. -/
theorem updateValAux_run {E : Env} (f : Nat) {t : T} (hsh : t.Shape) {st : Store}
    {path : NibblePath} (hp : path.WF) (v : Val) (hf : path.nibs.length < f)
    (hg : Good E st) (hl : LogOk E st.written) (hs : Stored E st.kv t) :
    (∀ c, v.land (kind t path.nibs) = .ok c →
      MPT.updateValAux E f (ref E t) path v st = MPT.updateAux E f (ref E t) path c st) ∧
    (∀ e, v.land (kind t path.nibs) = .error e → (kind t path.nibs = .leaf → ∀ l, v.item ≠ .ok (.list l)) →
      (MPT.updateValAux E f (ref E t) path v st).1 = .error .typeError) := by
  induction f generalizing t path with
  | zero => omega
  | succ f ih =>
    unfold MPT.updateValAux MPT.updateAux
    by_cases hne : t = empty
    · subst hne
      rw [if_pos (.inl rfl)]
      simp only [kind, Val.land]
      refine ⟨fun c hc => ?_, fun e he _ => ?_⟩
      · rw [if_pos (.inl rfl)]
        simp only [M.bind_apply, M.lift_apply, hc]
      · simp only [M.bind_apply, M.lift_apply, he]
        rw [Val.asLeaf_error he]
    have hc : ¬ (ref E t = [] ∨ ref E t = emptyHash E) := by
      rintro (h | h)
      · exact ref_ne_nil hne h
      · exact ref_ne_emptyHash hg hl hs hne h
    simp only [if_neg hc]
    obtain ⟨n, hn, hrep⟩ := getNodeM_ref hs hne
    simp only [M.bind_apply, hn]
    cases t with
    | empty => exact absurd rfl hne
    | leaf q w =>
      cases n <;> simp only [Rep] at hrep
      rename_i np d
      obtain ⟨hnp, rfl, rfl⟩ := hrep
      simp only [M.bind_apply, M.lift_apply, NibblePath.eq_spec hnp hp]
      by_cases he : np.nibs = path.nibs
      · simp only [kind, he, decide_true, if_true, Val.land]
        refine ⟨fun c hc => ?_, fun e hc hlist => ?_⟩
        · cases hi : v.item with
          | error e => rw [hi] at hc; simp at hc
          | ok i =>
            rw [hi] at hc
            cases i with
            | list l => simp [MPT.binary] at hc
            | str b =>
              simp only [Except.bind_ok', MPT.binary, Except.ok.injEq] at hc
              subst hc
              exact storeLeafVal_str hi st
        · cases hi : v.item with
          | error e =>
            unfold MPT.storeLeafVal
            simp only [M.bind_apply, M.lift_apply, NibblePath.encode_spec hnp, hi]
            rw [Val.item_error v hi]
          | ok i =>
            rw [hi] at hc
            cases i with
            | list l => exact absurd hi (hlist trivial l)
            | str b => simp [MPT.binary] at hc
      · simp only [kind, if_neg he, he, decide_false, Bool.false_eq_true, if_false]
        obtain ⟨k, hk, hkw, hkn⟩ := NibblePath.commonPrefix_spec hp hnp
        have hA : (path.consume k.nibs.length).WF :=
          NibblePath.consume_WF hp (by rw [hkn]; exact (lcp_prefix_left _ _).length_le)
        have hB : (np.consume k.nibs.length).WF :=
          NibblePath.consume_WF hnp (by rw [hkn]; exact (lcp_prefix_right _ _).length_le)
        have hAn : (path.consume k.nibs.length).nibs = path.nibs.drop (lcp path.nibs np.nibs).length := by
          rw [NibblePath.consume_nibs, hkn]
        have hBn : (np.consume k.nibs.length).nibs = np.nibs.drop (lcp path.nibs np.nibs).length := by
          rw [NibblePath.consume_nibs, hkn]
        have hdiff := drop_lcp_ne (p := path.nibs) (q := np.nibs) (fun e => he e.symm)
        have hassert : ¬ ¬ ((path.consume k.nibs.length).nibs.length ≠ 0 ∨
            (np.consume k.nibs.length).nibs.length ≠ 0) := by
          rw [hAn, hBn]
          intro h
          simp only [ne_eq, not_or, Classical.not_not, List.length_eq_zero_iff] at h
          exact hdiff (h.1.trans h.2.symm)
        simp only [M.bind_apply, M.lift_apply, hk, NibblePath.len_spec hkw, MPT.createBranchNodeVal,
          MPT.createBranchNode, NibblePath.len_spec hA, NibblePath.len_spec hB, if_neg hassert]
        by_cases hpre : path.nibs <+: np.nibs
        · have h0 : (path.consume k.nibs.length).nibs.length = 0 := by
            rw [hAn, drop_lcp_nil_iff.2 hpre]; rfl
          have hlen : (path.consume k.nibs.length).len = .ok 0 := by rw [NibblePath.len_spec hA, h0]
          simp only [if_pos hpre, Val.land, h0, if_true]
          refine ⟨fun c hc => ?_, fun e hc _ => ?_⟩
          · simp only [createBranchLeafVal_end v c _ hlen, hc]
          · rw [Val.asBranch_error hc] at hc
            simp only [createBranchLeafVal_end v [] _ hlen, hc, refs_replicate E, createBranchLeaf_run hA,
              createBranchLeaf_run hB]
        · have h0 : (path.consume k.nibs.length).nibs.length ≠ 0 := by
            rw [hAn]
            intro h
            exact hpre (drop_lcp_nil_iff.1 (List.length_eq_zero_iff.1 h))
          simp only [if_neg hpre, Val.land, h0, if_false]
          refine ⟨fun c hc => ?_, fun e hc _ => ?_⟩
          · simp only [createBranchLeafVal_ok _ hc]
          · rw [Val.asLeaf_error hc] at hc
            rw [createBranchLeafVal_error hA h0 hc]
    | ext q c =>
      cases n <;> simp only [Rep] at hrep
      rename_i np nr
      obtain ⟨hnp, rfl, rfl⟩ := hrep
      simp only [M.bind_apply, M.lift_apply, NibblePath.startsWith_spec hp hnp]
      by_cases he : np.nibs <+: path.nibs
      · have hA : (path.consume np.nibs.length).WF := NibblePath.consume_WF hp he.length_le
        have hAn : (path.consume np.nibs.length).nibs = path.nibs.drop np.nibs.length :=
          NibblePath.consume_nibs _ _
        have hlen : (path.consume np.nibs.length).nibs.length < f := by
          rw [hAn, List.length_drop]
          have : 0 < np.nibs.length := List.length_pos_iff.2 hsh.1
          have := he.length_le
          omega
        have := ih hsh.2.2 hA hlen hs.2
        rw [hAn] at this
        simp only [kind, if_pos he, he, decide_true, if_true, M.bind_apply, M.lift_apply, NibblePath.len_spec hnp]
        refine ⟨fun c hc => ?_, fun e hc hlist => ?_⟩
        · rw [this.1 c hc]
        · have h1 := this.2 e hc hlist
          revert h1
          cases MPT.updateValAux E f (ref E c) (path.consume np.nibs.length) v st with
          | mk r1 st1 =>
            intro h1
            simp only at h1
            subst h1
            rfl
      · simp only [kind, if_neg he, he, decide_false, Bool.false_eq_true, if_false]
        obtain ⟨k, hk, hkw, hkn⟩ := NibblePath.commonPrefix_spec hp hnp
        have hA : (path.consume k.nibs.length).WF :=
          NibblePath.consume_WF hp (by rw [hkn]; exact (lcp_prefix_left _ _).length_le)
        have hB : (np.consume k.nibs.length).WF :=
          NibblePath.consume_WF hnp (by rw [hkn]; exact (lcp_prefix_right _ _).length_le)
        have hAn : (path.consume k.nibs.length).nibs = path.nibs.drop (lcp path.nibs np.nibs).length := by
          rw [NibblePath.consume_nibs, hkn]
        have hBn : (np.consume k.nibs.length).nibs = np.nibs.drop (lcp path.nibs np.nibs).length := by
          rw [NibblePath.consume_nibs, hkn]
        have hBne : (np.consume k.nibs.length).nibs ≠ [] := by rw [hBn]; exact drop_lcp_ne_nil he
        simp only [M.bind_apply, M.lift_apply, hk, NibblePath.len_spec hkw, NibblePath.len_spec hA]
        by_cases hpre : path.nibs <+: np.nibs
        · have h0 : (path.consume k.nibs.length).nibs.length = 0 := by
            rw [hAn, drop_lcp_nil_iff.2 hpre]; rfl
          have hlen : (path.consume k.nibs.length).len = .ok 0 := by rw [NibblePath.len_spec hA, h0]
          simp only [if_pos hpre, Val.land, h0, if_true]
          refine ⟨fun c hc => ?_, fun e hc _ => ?_⟩
          · simp only [createBranchLeafVal_end v c _ hlen, hc]
          · rw [Val.asBranch_error hc] at hc
            simp only [createBranchLeafVal_end v [] _ hlen, hc, refs_replicate E, createBranchLeaf_run hA,
              createBranchExtension_run hB hBne]
        · have h0 : (path.consume k.nibs.length).nibs.length ≠ 0 := by
            rw [hAn]
            intro h
            exact hpre (drop_lcp_nil_iff.1 (List.length_eq_zero_iff.1 h))
          simp only [if_neg hpre, Val.land, h0, if_false]
          refine ⟨fun c hc => ?_, fun e hc _ => ?_⟩
          · simp only [createBranchLeafVal_ok _ hc]
          · rw [Val.asLeaf_error hc] at hc
            rw [createBranchLeafVal_error hA h0 hc]
    | branch cs w =>
      cases n <;> simp only [Rep] at hrep
      rename_i bs d
      obtain ⟨rfl, rfl⟩ := hrep
      simp only [M.bind_apply, M.lift_apply, NibblePath.len_spec hp]
      cases hn : path.nibs with
      | nil =>
        simp only [List.length_nil, if_true, kind, Val.land]
        refine ⟨fun c hc => ?_, fun e hc _ => ?_⟩
        · simp only [M.bind_apply, M.lift_apply, hc]
        · simp only [M.bind_apply, M.lift_apply, hc, Val.asBranch_error hc]
      | cons i p =>
        obtain ⟨hA, hAn⟩ := nibs_cons_consume hp hn
        have hlen : (path.consume 1).nibs.length < f := by
          rw [hAn]; rw [hn] at hf; simp at hf; omega
        have := ih (hsh i) hA hlen (hs.2 i)
        rw [hAn] at this
        simp only [List.length_cons, Nat.succ_ne_zero, if_false, M.bind_apply, M.lift_apply,
          NibblePath.at_zero hn, refs_get, kind]
        refine ⟨fun c hc => ?_, fun e hc hlist => ?_⟩
        · rw [this.1 c hc]
        · have h1 := this.2 e hc hlist
          revert h1
          cases MPT.updateValAux E f (ref E (cs i)) (path.consume 1) v st with
          | mk r1 st1 =>
            intro h1
            simp only at h1
            subst h1
            rfl

/-- Below the end of the path there is another key. -/
theorem Canon.kind_inner {t : T} (h : t.Canon) (p : List Nib) :
    kind t p = .inner ↔ ∃ q, q ≠ p ∧ p <+: q ∧ lookup t q ≠ none := by
  induction t generalizing p with
  | empty => simp [kind, lookup]
  | leaf q w =>
    simp only [kind, lookup]
    by_cases h1 : q = p
    · rw [if_pos h1]
      simp only [reduceCtorEq, false_iff]
      rintro ⟨r, hr, _, hl⟩
      rw [if_neg (fun e : q = r => hr (e.symm.trans h1))] at hl
      exact hl rfl
    · rw [if_neg h1]
      by_cases h2 : p <+: q
      · rw [if_pos h2]
        exact ⟨fun _ => ⟨q, h1, h2, by simp⟩, fun _ => rfl⟩
      · rw [if_neg h2]
        simp only [reduceCtorEq, false_iff]
        rintro ⟨r, hr, hp, hl⟩
        by_cases h3 : q = r
        · exact h2 (h3 ▸ hp)
        · rw [if_neg h3] at hl; exact hl rfl
  | ext q c ih =>
    simp only [kind]
    by_cases h1 : q <+: p
    · obtain ⟨p', rfl⟩ := h1
      rw [if_pos (List.prefix_append _ _), List.drop_left, ih h.2.2]
      constructor
      · rintro ⟨r, hr, hp, hl⟩
        exact ⟨q ++ r, fun e => hr (List.append_cancel_left e), (List.prefix_append_right_inj q).2 hp,
          by rw [lookup_ext_append]; exact hl⟩
      · rintro ⟨r, hr, hp, hl⟩
        obtain ⟨s, rfl⟩ := (List.prefix_append q p').trans hp
        rw [lookup_ext_append] at hl
        exact ⟨s, fun e => hr (by rw [e]), (List.prefix_append_right_inj q).1 hp, hl⟩
    · rw [if_neg h1]
      by_cases h2 : p <+: q
      · rw [if_pos h2]
        refine ⟨fun _ => ?_, fun _ => rfl⟩
        obtain ⟨r, w, hr⟩ := h.2.2.exists_key (t := c) (by rintro rfl; simp [Canon, isBranch] at h)
        refine ⟨q ++ r, ?_, h2.trans (List.prefix_append _ _), by rw [lookup_ext_append, hr]; simp⟩
        rintro rfl
        exact h1 (List.prefix_append _ _)
      · rw [if_neg h2]
        simp only [reduceCtorEq, false_iff]
        rintro ⟨r, hr, hp, hl⟩
        by_cases h3 : q <+: r
        · rcases List.prefix_or_prefix_of_prefix h3 hp with g | g
          · exact h1 g
          · exact h2 g
        · rw [lookup_ext_none c h3] at hl; exact hl rfl
  | branch cs w ih =>
    cases p with
    | nil =>
      simp only [kind, true_iff]
      obtain ⟨⟨j, hj⟩, _, hc⟩ := h
      obtain ⟨r, u, hr⟩ := (hc j).exists_key hj
      exact ⟨j :: r, by simp, List.nil_prefix, by simp only [lookup, hr]; simp⟩
    | cons i p =>
      simp only [kind]
      rw [ih i (h.2.2 i)]
      constructor
      · rintro ⟨r, hr, hp, hl⟩
        exact ⟨i :: r, by simpa using hr, by simpa using hp, hl⟩
      · rintro ⟨r, hr, hp, hl⟩
        obtain ⟨s, rfl⟩ := hp
        exact ⟨p ++ s, by simpa using hr, List.prefix_append _ _, hl⟩

theorem Canon.kind_leaf {t : T} (h : t.Canon) (p : List Nib) :
    kind t p = .leaf ↔ lookup t p ≠ none ∧ kind t p ≠ .inner := by
  induction t generalizing p with
  | empty => simp [kind, lookup]
  | leaf q w =>
    simp only [kind, lookup]
    by_cases h1 : q = p
    · simp [h1]
    · simp only [if_neg h1]
      by_cases h2 : p <+: q <;> simp [h2]
  | ext q c ih =>
    simp only [kind]
    by_cases h1 : q <+: p
    · obtain ⟨p', rfl⟩ := h1
      rw [if_pos (List.prefix_append _ _), List.drop_left, ih h.2.2, lookup_ext_append]
    · rw [if_neg h1, lookup_ext_none c h1]
      by_cases h2 : p <+: q <;> simp [h2]
  | branch cs w ih =>
    cases p with
    | nil => simp [kind]
    | cons i p => simp only [kind, lookup]; exact ih i (h.2.2 i) p

theorem kind_fresh {t : T} {p : List Nib} (h1 : kind t p ≠ .leaf) (h2 : kind t p ≠ .inner) : kind t p = .fresh := by
  cases h : kind t p
  · rfl
  · exact absurd h h1
  · exact absurd h h2

end T

namespace Writes
variable {E : Env}

theorem storeLeafVal (path : NibblePath) (v : Val) : Writes E (MPT.storeLeafVal E path v) := by
  unfold MPT.storeLeafVal
  refine (lift _).bind fun p => (lift _).bind fun i => ?_
  intro st
  by_cases hl : (Item.encode (.list [.str p, i])).length < 32
  · have : (Item.encode (.list [.str p, i])).length ≠ 32 := by omega
    exact ⟨[], by simp [hl, this, replay]⟩
  · exact ⟨[Item.encode (.list [.str p, i])], by simp [hl, E.keccak_len, replay]⟩

theorem createBranchLeafVal (path : NibblePath) (v : Val) (bs : List Bytes) :
    Writes E (MPT.createBranchLeafVal E path v bs) := by
  unfold MPT.createBranchLeafVal
  refine (lift _).bind fun n => ?_
  split
  · exact (lift _).bind fun _ => (lift _).bind fun _ => (storeNode _).bind fun _ => lift _
  · exact pure _

theorem createBranchNodeVal (pa : NibblePath) (va : Val) (pb : NibblePath) (vb : Bytes) :
    Writes E (MPT.createBranchNodeVal E pa va pb vb) := by
  unfold MPT.createBranchNodeVal
  refine (lift _).bind fun a => (lift _).bind fun b => ?_
  split
  · exact raise _
  · exact (createBranchLeafVal _ _ _).bind fun _ => (createBranchLeaf _ _ _).bind fun _ =>
      (lift _).bind fun _ => storeNode _

theorem updateValAux (f : Nat) (ref : Bytes) (path : NibblePath) (v : Val) :
    Writes E (MPT.updateValAux E f ref path v) := by
  induction f generalizing ref path with
  | zero => exact raise _
  | succ f ih =>
    unfold MPT.updateValAux
    split
    · exact (lift _).bind fun _ => storeNode _
    refine (getNodeM _).bind fun node => ?_
    split
    · refine (lift _).bind fun same => ?_
      split
      · exact storeLeafVal _ _
      · refine (lift _).bind fun c => (lift _).bind fun n => (createBranchNodeVal _ _ _ _).bind fun r => ?_
        split
        · exact storeNode _
        · exact pure _
    · refine (lift _).bind fun pre => ?_
      split
      · exact (lift _).bind fun _ => (ih _ _).bind fun _ => storeNode _
      · refine (lift _).bind fun c => (lift _).bind fun n => (lift _).bind fun m =>
          (createBranchLeafVal _ _ _).bind fun _ => (createBranchExtension _ _ _).bind fun _ =>
          (lift _).bind fun _ => (storeNode _).bind fun r => ?_
        split
        · exact storeNode _
        · exact pure _
    · refine (lift _).bind fun n => ?_
      split
      · exact (lift _).bind fun _ => storeNode _
      · exact (lift _).bind fun _ => (lift _).bind fun _ => (ih _ _).bind fun _ =>
          (lift _).bind fun _ => storeNode _

end Writes

theorem updateVal_eq (E : Env) (key : Bytes) (v : Val) (t : MPT) : MPT.updateVal E key v t =
    match MPT.updateValAux E E.limit (t.root.getD []) ⟨t.keyOf E key, 0⟩ v t.store with
    | (.ok r, st) => (.ok (), { t with store := st, root := some r })
    | (.error e, st) => (.error e, { t with store := st }) := by
  unfold MPT.updateVal
  simp only [M.bind_apply, M.get_apply, T.onStore_apply]
  cases MPT.updateValAux E E.limit (t.root.getD []) ⟨t.keyOf E key, 0⟩ v t.store with
  | mk r st => cases r <;> rfl

end Pymt
