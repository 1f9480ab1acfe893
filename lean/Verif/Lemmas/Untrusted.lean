import Verif.Lemmas.ProofObj

/-!
# Checking an inclusion proof of any origin

What `_verify_proof_of_inclusion` answers for a storage rebuilt from any list of well-formed entries.
-/

namespace Pymt
namespace T

/-- A node of a real trie can be read with the help of the storage of a proof. -/
def Avail (E : Env) (ps : Dict Bytes) (x : T) : Prop :=
  (enc E x).length < 32 ∨ dget ps (E.keccak (enc E x)) ≠ none

theorem avail_raw {E : Env} {log : List Bytes} (hc : CollFree E log) {ps : Dict Bytes}
    (hg : Genuine E log ps) {t : T} (hne : t ≠ empty) (hsh : t.Shape)
    (hlen : (enc E t).length < 2 ^ 64) (hlog : Logged E log t) (ha : Avail E ps t) :
    ¬ ((ref E t).length = 32 ∧ dget ps (ref E t) = none) ∧
    ∃ n raw, MPT.rawOf ps (ref E t) = .ok raw ∧ Node.decode raw = .ok n ∧ Rep' E t n := by
  have hr : ¬ ((ref E t).length = 32 ∧ dget ps (ref E t) = none) ∧
      ∃ raw, MPT.rawOf ps (ref E t) = .ok raw := by
    rw [ref_of_ne hne]
    by_cases hl : (enc E t).length < 32
    · rw [if_pos hl]
      exact ⟨fun h => by omega, enc E t, by rw [MPT.rawOf, if_neg (by omega)]⟩
    · have ha := ha.resolve_left hl
      rw [if_neg hl]
      refine ⟨fun h => ha h.2, ?_⟩
      rw [MPT.rawOf, if_pos (E.keccak_len _), dgetItem]
      cases hd : dget ps (E.keccak (enc E t)) with
      | none => exact absurd hd ha
      | some v => exact ⟨v, rfl⟩
  obtain ⟨h1, raw, h2⟩ := hr
  obtain ⟨n, h3, h4⟩ := genuine_raw hc hg hne hsh hlen hlog h2
  exact ⟨h1, n, raw, h2, h3, h4⟩

/-- The walk of the checker, for any storage of well-formed entries. -/
theorem verifyPoiAux_any {E : Env} {log : List Bytes} (hc : CollFree E log) {kv ps : Dict Bytes}
    (hg : Genuine E log ps) (f : Nat) {t : T} (hsh : t.Shape) (hne : t ≠ empty) (hst : Stored E kv t)
    (hlog : Logged E log t) {path : NibblePath} (hp : path.WF) (hf : path.nibs.length < f) :
    ((∀ x ∈ trail t path.nibs, Avail E ps x) →
      MPT.verifyPoiAux ps f (ref E t) path = verdict (T.seek t path.nibs).1 (T.seek t path.nibs).2 ∨
      (verdict (T.seek t path.nibs).1 (T.seek t path.nibs).2 = .error .branchPath ∧
        MPT.verifyPoiAux ps f (ref E t) path = .error .assertion)) ∧
    ((∃ x ∈ trail t path.nibs, ¬ Avail E ps x) →
      MPT.verifyPoiAux ps f (ref E t) path = .ok false) := by
  induction f generalizing t path with
  | zero => omega
  | succ f ih =>
    by_cases hav : Avail E ps t
    case neg =>
      have hno : (ref E t).length = 32 ∧ dget ps (ref E t) = none := by
        unfold Avail at hav
        simp only [not_or, ne_eq, Classical.not_not] at hav
        rw [ref_of_ne hne, if_neg hav.1]
        exact ⟨E.keccak_len _, hav.2⟩
      have hr : MPT.verifyPoiAux ps (f + 1) (ref E t) path = .ok false := by
        unfold MPT.verifyPoiAux
        rw [if_pos hno]
      obtain ⟨l, hl⟩ := trail_head (t := t) path.nibs
      exact ⟨fun h => absurd (h t (by rw [hl]; simp)) hav, fun _ => hr⟩
    obtain ⟨hn, n, raw, h2, h3, hrep⟩ := avail_raw hc hg hne hsh (enc_len hst) hlog hav
    unfold MPT.verifyPoiAux
    rw [if_neg hn, h2]
    simp only [Except.bind_ok', h3, NibblePath.len_spec hp]
    cases hpn : path.nibs with
    | nil =>
      simp only [List.length_nil, if_true, seek_nil]
      have : trail t [] = [t] := by simp [trail]
      refine ⟨fun _ => .inl ?_, ?_⟩
      · cases t <;> cases n <;> simp [Rep'] at hrep <;> rfl
      · rintro ⟨x, hx, hx'⟩
        rw [this, List.mem_singleton] at hx
        exact absurd (hx ▸ hav) hx'
    | cons i p =>
      rw [if_neg (by simp)]
      cases t with
      | empty => exact absurd rfl hne
      | leaf q v =>
        cases n <;> simp only [Rep'] at hrep
        rename_i np d
        obtain ⟨h1, rfl, rfl⟩ := hrep
        simp only [T.seek, verdict, NibblePath.eq_spec h1 hp, hpn]
        refine ⟨fun _ => .inl trivial, ?_⟩
        rintro ⟨x, hx, hx'⟩
        have : x = leaf np.nibs d := by simpa [trail, T.seek, passed] using hx
        exact absurd (this ▸ hav) hx'
      | ext q c =>
        cases n <;> simp only [Rep'] at hrep
        rename_i np nr
        obtain ⟨h1, rfl, rfl⟩ := hrep
        simp only [T.seek, NibblePath.startsWith_spec hp h1, hpn, Except.bind_ok']
        by_cases hpre : np.nibs <+: i :: p
        · have hpre' := hpre
          rw [← hpn] at hpre'
          simp only [hpre, decide_true, if_true, NibblePath.len_spec h1, Except.bind_ok']
          have := ih hsh.2.2 hsh.child_ne hst.2 hlog.2 (NibblePath.consume_WF hp hpre'.length_le)
            (by rw [NibblePath.consume_nibs]; exact drop_len hsh.1 hpre' hf)
          rw [NibblePath.consume_nibs, hpn] at this
          rw [trail_ext hpre]
          refine ⟨fun h => this.1 fun x hx => h x (List.mem_cons_of_mem _ hx), ?_⟩
          rintro ⟨x, hx, hx'⟩
          rcases List.mem_cons.1 hx with rfl | hx
          · exact absurd hav hx'
          · exact this.2 ⟨x, hx, hx'⟩
        · refine ⟨fun _ => .inl (by simp [hpre, verdict]), ?_⟩
          rintro ⟨x, hx, hx'⟩
          have : x = ext np.nibs c := by simpa [trail, T.seek, passed, hpre] using hx
          exact absurd (this ▸ hav) hx'
      | branch cs v =>
        cases n <;> simp only [Rep'] at hrep
        rename_i bs d
        obtain ⟨hbs, rfl⟩ := hrep
        obtain ⟨r, hri, hr'⟩ := hbs i
        simp only [T.seek, NibblePath.at_zero hpn, Except.bind_ok', pyIndex, hri]
        obtain ⟨hw, hcn⟩ := nibs_cons_consume hp hpn
        by_cases he : (cs i).isEmpty = true
        · have hsing : (∃ x ∈ trail (branch cs d) (i :: p), ¬ Avail E ps x) → False := by
            rintro ⟨x, hx, hx'⟩
            have : x = branch cs d := by simpa [trail, T.seek, passed, he] using hx
            exact absurd (this ▸ hav) hx'
          refine ⟨fun _ => ?_, fun h => (hsing h).elim⟩
          rcases hr' with rfl | ⟨_, rfl⟩
          · exact .inl (by simp [ref_length_pos, he, verdict])
          · refine .inr ⟨by simp [he, verdict], ?_⟩
            rw [if_pos (by decide)]
            cases f with
            | zero => rw [hpn] at hf; simp at hf
            | succ f => simp [MPT.verifyPoiAux, MPT.rawOf, decode_80]
        · have hr : r = ref E (cs i) := by
            rcases hr' with h0 | ⟨h0, _⟩
            · exact h0
            · exact absurd (isEmpty_iff.2 h0) he
          subst hr
          have := ih (hsh i) (fun e => he (isEmpty_iff.2 e)) (hst.2 i) (hlog.2 i) hw
            (by rw [hcn]; rw [hpn] at hf; simp at hf; omega)
          rw [hcn] at this
          simp only [ref_length_pos, he, if_true]
          rw [trail_branch he]
          refine ⟨fun h => by simpa using this.1 fun x hx => h x (List.mem_cons_of_mem _ hx), ?_⟩
          rintro ⟨x, hx, hx'⟩
          rcases List.mem_cons.1 hx with rfl | hx
          · exact absurd hav hx'
          · simpa using this.2 ⟨x, hx, hx'⟩

/-- Rebuilding the storage keeps every entry. -/
theorem proofStorage_complete {E : Env} {l : List Bytes} {acc ps : Dict Bytes}
    (h : MPT.proofStorage E l acc = .ok ps) {k : Bytes}
    (hk : dget acc k ≠ none ∨ ∃ v ∈ l, ∃ e, reenc v = some e ∧ k = if e.length < 32 then e else E.keccak e) :
    dget ps k ≠ none := by
  induction l generalizing acc with
  | nil =>
    simp [MPT.proofStorage] at h; subst h
    rcases hk with hk | ⟨v, hv, _⟩
    · exact hk
    · simp at hv
  | cons v l ih =>
    rw [MPT.proofStorage] at h
    cases hd : Node.decode v with
    | error e => rw [hd] at h; simp at h
    | ok n =>
      cases he : n.encode with
      | error e => rw [hd] at h; simp [Node.intoReference, he] at h
      | ok e =>
        have hr : n.intoReference E = .ok (if e.length < 32 then e else E.keccak e) := by
          simp only [Node.intoReference, he, Except.bind_ok', Except.pure_ok']
          split <;> rfl
        rw [hd] at h
        simp only [Except.bind_ok', hr] at h
        refine ih h ?_
        rcases hk with hk | ⟨v', hv', e', h1, h2⟩
        · left
          rw [dget_dset]
          by_cases h3 : (if e.length < 32 then e else E.keccak e) = k
          · rw [if_pos h3]; simp
          · rw [if_neg h3]; exact hk
        · rcases List.mem_cons.1 hv' with rfl | hv'
          · left
            have : e' = e := by simp [reenc, hd, he] at h1; exact h1.symm
            subst this
            rw [dget_dset, if_pos h2.symm]; simp
          · exact .inr ⟨v', hv', e', h1, h2⟩

/-- Rebuilding succeeds exactly when all entries decode and encode. -/
theorem proofStorage_ok {E : Env} {l : List Bytes} (acc : Dict Bytes) :
    (∃ ps, MPT.proofStorage E l acc = .ok ps) ↔ ∀ v ∈ l, reenc v ≠ none := by
  induction l generalizing acc with
  | nil => simp [MPT.proofStorage]
  | cons v l ih =>
    rw [MPT.proofStorage]
    cases hd : Node.decode v with
    | error e => simp [reenc, hd]
    | ok n =>
      cases he : n.encode with
      | error e => simp [Node.intoReference, he, reenc, hd]
      | ok e =>
        have hr : n.intoReference E = .ok (if e.length < 32 then e else E.keccak e) := by
          simp only [Node.intoReference, he, Except.bind_ok', Except.pure_ok']
          split <;> rfl
        simp only [Except.bind_ok', hr, ih]
        simp [reenc, hd, he]

/-- A hashed node of a real trie can be read exactly when an entry re-encodes to it. -/
theorem avail_iff {E : Env} {log : List Bytes} (hc : CollFree E log) {l : List Bytes} {ps : Dict Bytes}
    (hl : ∀ v ∈ l, ∀ e, reenc v = some e → e ∈ log) (h : MPT.proofStorage E l [] = .ok ps)
    {x : T} (hne : x ≠ empty) (hlog : Logged E log x) :
    Avail E ps x ↔ ((enc E x).length < 32 ∨ ∃ v ∈ l, reenc v = some (enc E x)) := by
  unfold Avail
  by_cases hlen : (enc E x).length < 32
  · simp [hlen]
  simp only [hlen, false_or]
  constructor
  · intro hd
    have hg : ∀ k, dget ps k ≠ none → ∃ v ∈ l, ∃ e, reenc v = some e ∧
        k = if e.length < 32 then e else E.keccak e := by
      clear hc hl hne hlog hlen hd
      intro k hk
      have : ∀ (l : List Bytes) (acc ps : Dict Bytes), MPT.proofStorage E l acc = .ok ps →
          dget ps k ≠ none → dget acc k ≠ none ∨ ∃ v ∈ l, ∃ e, reenc v = some e ∧
          k = if e.length < 32 then e else E.keccak e := by
        intro l
        induction l with
        | nil => intro acc ps h hk; simp [MPT.proofStorage] at h; subst h; exact .inl hk
        | cons v l ih =>
          intro acc ps h hk
          rw [MPT.proofStorage] at h
          cases hd : Node.decode v with
          | error e => rw [hd] at h; simp at h
          | ok n =>
            cases he : n.encode with
            | error e => rw [hd] at h; simp [Node.intoReference, he] at h
            | ok e =>
              have hr : n.intoReference E = .ok (if e.length < 32 then e else E.keccak e) := by
                simp only [Node.intoReference, he, Except.bind_ok', Except.pure_ok']
                split <;> rfl
              rw [hd] at h
              simp only [Except.bind_ok', hr] at h
              rcases ih _ _ h hk with h1 | ⟨v', h1, h2⟩
              · rw [dget_dset] at h1
                by_cases h3 : (if e.length < 32 then e else E.keccak e) = k
                · exact .inr ⟨v, by simp, e, by simp [reenc, hd, he], h3.symm⟩
                · rw [if_neg h3] at h1; exact .inl h1
              · exact .inr ⟨v', by simp [h1], h2⟩
      exact (this l [] ps h hk).resolve_left (by simp [dget])
    obtain ⟨v, hv, e, he, hk⟩ := hg _ hd
    refine ⟨v, hv, ?_⟩
    split at hk
    · rename_i h5
      have := E.keccak_len (enc E x)
      rw [hk] at this
      omega
    · rw [he, hc _ ((hlog.here hne).resolve_left hlen) e (hl v hv e he) hk]
  · rintro ⟨v, hv, he⟩
    exact proofStorage_complete h (.inr ⟨v, hv, _, he, by rw [if_neg hlen]⟩)

/-- The answer to an inclusion proof of any origin whose entries are well-formed and which begins
with the root node. -/
theorem Holds.verifyPoi_any {E : Env} {t : MPT} {a : T} (h : Holds E t a)
    (hl : LogOk E t.store.written) (hne : a ≠ empty) {p : Proof Bytes} (ht : p.type = mptPoi)
    (hc : CollFree E (t.store.written ++ checked p))
    (hf : (toNibs p.targetKey).length < E.limit)
    {first : Bytes} (hfirst : p.proof.head? = some first) (hroot : E.keccak first = t.rootHash E)
    (hwf : ∀ v ∈ p.proof, reenc v ≠ none) :
    ((∀ x ∈ trail a (toNibs p.targetKey), (enc E x).length < 32 ∨ ∃ v ∈ p.proof, reenc v = some (enc E x)) →
      t.verifyPoi E p = (verdict (T.seek a (toNibs p.targetKey)).1 (T.seek a (toNibs p.targetKey)).2).map
        (· && (t.rootHash E == p.trieRoot)) ∨
      (verdict (T.seek a (toNibs p.targetKey)).1 (T.seek a (toNibs p.targetKey)).2 = .error .branchPath ∧
        t.verifyPoi E p = .error .assertion)) ∧
    ((∃ x ∈ trail a (toNibs p.targetKey), ¬ ((enc E x).length < 32 ∨ ∃ v ∈ p.proof, reenc v = some (enc E x))) →
      t.verifyPoi E p = .ok false) := by
  obtain ⟨ps, hps⟩ := (proofStorage_ok (E := E) []).2 hwf
  have hin : ∀ v ∈ p.proof, ∀ e, reenc v = some e → e ∈ t.store.written ++ checked p := by
    intro v hv e he
    refine List.mem_append_right _ (List.mem_append_right _ ?_)
    exact List.mem_filterMap.2 ⟨v, hv, he⟩
  have hg : Genuine E (t.store.written ++ checked p) ps :=
    proofStorage_genuine (l := p.proof) (acc := []) hin (by intro k v hk; simp [dget] at hk) hps
  have hlog : Logged E (t.store.written ++ checked p) a := by
    refine Logged.mono ?_ (h.stored.logged h.good)
    intro x hx; exact List.mem_append_left _ hx
  have hrun := verifyPoiAux_any hc hg E.limit h.shape hne h.stored hlog (path := ⟨p.targetKey, 0⟩)
    (NibblePath.WF_bytes _) (by rwa [NibblePath.nibs_bytes])
  rw [NibblePath.nibs_bytes] at hrun
  have hav : ∀ x ∈ trail a (toNibs p.targetKey), (Avail E ps x ↔
      ((enc E x).length < 32 ∨ ∃ v ∈ p.proof, reenc v = some (enc E x))) := fun x hx =>
    avail_iff hc hin hps (trail_ne_empty h.shape hne _ x hx) (trail_logged hlog _ x hx)
  have hv : t.verifyPoi E p = (MPT.verifyPoiAux ps E.limit (ref E a) ⟨p.targetKey, 0⟩).map
      (· && (t.rootHash E == p.trieRoot)) := by
    have hp0 : pyIndex p.proof 0 = .ok first := by
      cases hpp : p.proof with
      | nil => rw [hpp] at hfirst; simp at hfirst
      | cons x xs => rw [hpp] at hfirst; simp at hfirst; subst hfirst; rfl
    unfold MPT.verifyPoi
    rw [h.noRoot hl, Holds.isEmpty_false hne, h.getD hne, if_neg (by simp [ht]), hps, hp0]
    simp only [Bool.false_eq_true, if_false, Except.bind_ok', hroot, ne_eq, not_true]
    cases MPT.verifyPoiAux ps E.limit (ref E a) ⟨p.targetKey, 0⟩ <;> rfl
  rw [hv]
  constructor
  · intro hall
    rcases hrun.1 fun x hx => (hav x hx).2 (hall x hx) with h0 | ⟨h0, h1⟩
    · exact .inl (by rw [h0])
    · exact .inr ⟨h0, by rw [h1]; rfl⟩
  · rintro ⟨x, hx, hx'⟩
    rw [hrun.2 ⟨x, hx, fun h0 => hx' ((hav x hx).1 h0)⟩]
    rfl

theorem Genuine.ddel {E : Env} {log : List Bytes} {ps : Dict Bytes} (h : Genuine E log ps) (k : Bytes) :
    Genuine E log (ddel ps k) := by
  intro k' v hk
  rw [dget_ddel] at hk
  split at hk
  · simp at hk
  · exact h k' v hk

/-- The walk of the checker of exclusion proofs raises only two exceptions on well-formed entries. -/
theorem verifyPoeAux_any {E : Env} {log : List Bytes} (hc : CollFree E log) {kv ps : Dict Bytes}
    (hg : Genuine E log ps) (f : Nat) {t : T} (hsh : t.Shape) (hne : t ≠ empty) (hst : Stored E kv t)
    (hlog : Logged E log t) {path : NibblePath} (hp : path.WF) (hf : path.nibs.length < f) (e : Err)
    (he : MPT.verifyPoeAux f (ref E t) path ps = .error e) : e = .poe ∨ e = .assertion := by
  induction f generalizing t path ps with
  | zero => omega
  | succ f ih =>
    unfold MPT.verifyPoeAux at he
    split at he
    · simp at he
    rename_i hno
    have hav : Avail E ps t := by
      unfold Avail
      by_cases hl : (enc E t).length < 32
      · exact .inl hl
      · refine .inr fun h0 => hno ?_
        rw [ref_of_ne hne, if_neg hl]
        exact ⟨E.keccak_len _, h0⟩
    obtain ⟨hn, n, raw, h2, h3, hrep⟩ := avail_raw hc hg hne hsh (enc_len hst) hlog hav
    rw [h2] at he
    simp only [Except.bind_ok', h3, NibblePath.len_spec hp] at he
    split at he
    · cases he; exact .inl rfl
    cases hpn : path.nibs with
    | nil => simp [hpn] at he
    | cons i p =>
      rw [hpn, if_neg (by simp)] at he
      cases t with
      | empty => exact absurd rfl hne
      | leaf q v => cases n <;> simp [Rep'] at hrep <;> simp at he
      | ext q c =>
        cases n <;> simp only [Rep'] at hrep
        rename_i np nr
        obtain ⟨h1, rfl, rfl⟩ := hrep
        simp only [NibblePath.startsWith_spec hp h1, hpn, Except.bind_ok'] at he
        by_cases hpre : np.nibs <+: i :: p
        · have hpre' := hpre
          rw [← hpn] at hpre'
          simp only [hpre, decide_true, if_true, NibblePath.len_spec h1, Except.bind_ok'] at he
          exact ih (hg.ddel _) hsh.2.2 hsh.child_ne hst.2 hlog.2 (NibblePath.consume_WF hp hpre'.length_le)
            (by rw [NibblePath.consume_nibs]; exact drop_len hsh.1 hpre' hf) he
        · simp [hpre] at he
      | branch cs v =>
        cases n <;> simp only [Rep'] at hrep
        rename_i bs d
        obtain ⟨hbs, rfl⟩ := hrep
        obtain ⟨r, hri, hr'⟩ := hbs i
        simp only [NibblePath.at_zero hpn, Except.bind_ok', pyIndex, hri] at he
        obtain ⟨hw, hcn⟩ := nibs_cons_consume hp hpn
        rcases hr' with rfl | ⟨_, rfl⟩
        · by_cases hemp : (cs i).isEmpty = true
          · simp [ref_length_pos, hemp] at he
          · simp only [ref_length_pos, hemp, if_true] at he
            exact ih (hg.ddel _) (hsh i) (fun e => hemp (isEmpty_iff.2 e)) (hst.2 i) (hlog.2 i) hw
              (by rw [hcn]; rw [hpn] at hf; simp at hf; omega) (by simpa using he)
        · rw [if_pos (by decide)] at he
          cases f with
          | zero => rw [hpn] at hf; simp at hf
          | succ f =>
            simp [MPT.verifyPoeAux, MPT.rawOf, decode_80] at he
            exact .inr he.symm

/-! ### Distinct nodes -/

/-- Heights decrease along the trail. -/
theorem trail_decreasing (t : T) (p : List Nib) : (trail t p).Pairwise fun x y => height y < height x := by
  induction t generalizing p with
  | empty => cases p <;> simp [trail, passed]
  | leaf q v => cases p <;> simp [trail, passed]
  | ext q c ih =>
    cases p with
    | nil => simp [trail]
    | cons i p =>
      by_cases h : q <+: i :: p
      · rw [trail_ext h]
        refine List.pairwise_cons.2 ⟨fun y hy => ?_, ih _⟩
        have := trail_height c _ y hy
        simp only [height]; omega
      · simp [trail, passed, h]
  | branch cs v ih =>
    cases p with
    | nil => simp [trail]
    | cons i p =>
      by_cases h : (cs i).isEmpty = true
      · simp [trail, passed, h]
      · rw [trail_branch h]
        refine List.pairwise_cons.2 ⟨fun y hy => ?_, ih i _⟩
        have := trail_height (cs i) _ y hy
        have := height_child cs v i
        omega

theorem length_le_of_nodup {l m : List Bytes} (h : l.Pairwise (· ≠ ·)) (hs : ∀ x ∈ l, x ∈ m) :
    l.length ≤ m.length := by
  induction l generalizing m with
  | nil => simp
  | cons x l ih =>
    obtain ⟨h1, h2⟩ := List.pairwise_cons.1 h
    have hx := hs x (by simp)
    have := ih (m := m.erase x) h2 fun y hy =>
      (List.mem_erase_of_ne (fun e => h1 y hy e.symm)).2 (hs y (by simp [hy]))
    rw [List.length_erase_of_mem hx] at this
    have := List.length_pos_of_mem hx
    simp only [List.length_cons]; omega

end T
end Pymt
