import Verif.Lemmas.Untrusted
import Verif.Lemmas.Received

/-!
# Objects that have the root hash of a trie

`root_hash()` does not tell whether `root()` is the root node or the hash of it.  What the checkers do with either.
-/

namespace Pymt

/-- The two forms of a root with the hash of the root node of `a`. -/
def RootForm (E : Env) (a : T) (r : Bytes) : Prop :=
  r = E.keccak (T.enc E a) ∨ r = T.enc E a ∧ (T.enc E a).length ≠ 32

namespace T
variable {E : Env} {t t' : MPT} {a : T} {r : Bytes}

theorem enc_ne_empty (h : Holds E t a) (hne : a ≠ empty) : enc E a ≠ Item.encode (.str []) := by
  intro e
  obtain ⟨n, hd, -⟩ := decode_enc hne (enc_len h.stored)
  rw [e] at hd
  have h80 : Node.decode (Item.encode (.str [])) = .error .assertion := by decide
  rw [h80] at hd
  simp at hd

theorem Holds.enc_in_hashed (h : Holds E t a) (hne : a ≠ empty) : enc E a ∈ hashed t := by
  unfold hashed
  rcases h.enc_mem hne with ⟨h1, h2⟩ | h1
  · refine List.mem_append_right _ ?_
    rw [h.getD hne, ref_of_ne hne, if_pos h1]
    rw [if_pos ⟨Item.encode_ne_nil _, h1⟩]
    simp
  · exact List.mem_append_left _ h1

/-- The root of an object with the root hash of a trie. -/
theorem Holds.root_forms (h : Holds E t a) (hne : a ≠ empty) (hh : t'.rootHash E = t.rootHash E)
    (hc : CollFree E (Item.encode (.str []) :: t'.root.getD [] :: hashed t)) :
    ∃ r, t'.root = some r ∧ RootForm E a r ∧ t'.noRoot E = false := by
  have m0 : enc E a ∈ Item.encode (.str []) :: t'.root.getD [] :: hashed t :=
    List.mem_cons_of_mem _ (List.mem_cons_of_mem _ (h.enc_in_hashed hne))
  have hash : E.keccak (enc E a) ≠ emptyHash E := fun e =>
    enc_ne_empty h hne (hc _ m0 _ (by simp) e)
  rw [h.rootHash] at hh
  unfold MPT.rootHash at hh
  cases hr : t'.root with
  | none =>
    rw [hr] at hh
    simp only [Option.getD_none, if_true] at hh
    exact absurd hh.symm hash
  | some r =>
    rw [hr, Option.getD_some] at hh
    simp only at hh
    have form : RootForm E a r := by
      split at hh
      · exact absurd hh.symm hash
      · split at hh
        · exact .inl hh
        · rename_i h32
          have := hc _ (by rw [hr]; simp) _ m0 hh
          exact .inr ⟨this, this ▸ h32⟩
    refine ⟨r, rfl, form, ?_⟩
    unfold MPT.noRoot
    have : r ≠ emptyHash E := by
      rcases form with rfl | ⟨rfl, h32⟩
      · exact hash
      · intro e
        rw [e] at h32
        exact h32 (E.keccak_len _)
    rw [hr]
    simp [this]

/-- The own root of a trie has one of the forms. -/
theorem Holds.own_form (h : Holds E t a) (hne : a ≠ empty) : RootForm E a (t.root.getD []) := by
  rw [h.getD hne, ref_of_ne hne]
  split
  · rename_i h1; exact .inr ⟨rfl, by omega⟩
  · exact .inl rfl

/-- A checker reads the same at two references to the same bytes. -/
theorem verifyPoiAux_raw {ps : Dict Bytes} {r' e : Bytes} (h : MPT.rawOf ps r = .ok e) (h' : MPT.rawOf ps r' = .ok e)
    (f : Nat) (path : NibblePath) : MPT.verifyPoiAux ps f r' path = MPT.verifyPoiAux ps f r path := by
  have no : ∀ {q : Bytes}, MPT.rawOf ps q = .ok e → ¬ (q.length = 32 ∧ dget ps q = none) := by
    rintro q hq ⟨h1, h2⟩
    simp [MPT.rawOf, h1, dgetItem, h2] at hq
  cases f with
  | zero => rfl
  | succ f =>
    unfold MPT.verifyPoiAux
    rw [if_neg (no h), if_neg (no h'), h, h']

/-- A hash that is kept in the storage rebuilt from a proof is the hash of a re-encoded entry of 32 bytes or more. -/
theorem Genuine.key_hash {log : List Bytes} {ps : Dict Bytes} (hg : Genuine E log ps) {x : Bytes}
    (h : dget ps (E.keccak x) ≠ none) : ∃ e ∈ log, E.keccak e = E.keccak x ∧ 32 ≤ e.length := by
  cases hd : dget ps (E.keccak x) with
  | none => exact absurd hd h
  | some v =>
    obtain ⟨n, e, -, -, h3, h4⟩ := hg _ _ hd
    split at h4
    · rename_i h5
      have := E.keccak_len x
      rw [h4] at this
      omega
    · exact ⟨e, h3, h4.symm, by omega⟩

/-- A key kept in that storage has at most 32 bytes. -/
theorem Genuine.key_len {log : List Bytes} {ps : Dict Bytes} (hg : Genuine E log ps) {x : Bytes}
    (h : dget ps x ≠ none) : x.length ≤ 32 := by
  cases hd : dget ps x with
  | none => exact absurd hd h
  | some v =>
    obtain ⟨n, e, -, -, -, h4⟩ := hg _ _ hd
    split at h4
    · rw [h4]; omega
    · rw [h4, E.keccak_len]; omega

/-- A walk that starts at either form of the root and is accepted is accepted from the own root of the trie, too, if the
root node is an entry of the proof. -/
theorem verifyPoiAux_form {log : List Bytes} (hc : CollFree E log) {kv ps : Dict Bytes}
    (hg : Genuine E log ps) (f : Nat) (hsh : a.Shape) (hne : a ≠ empty) (hst : Stored E kv a)
    (hlog : Logged E log a) (hin : enc E a ∈ log) (hr : RootForm E a r)
    (hav : 32 ≤ (enc E a).length → dget ps (E.keccak (enc E a)) ≠ none) {path : NibblePath} (hp : path.WF)
    (h : MPT.verifyPoiAux ps f r path = .ok true) : MPT.verifyPoiAux ps f (ref E a) path = .ok true := by
  by_cases hown : r = ref E a
  · rw [← hown]; exact h
  rw [ref_of_ne hne] at hown
  rcases hr with rfl | ⟨rfl, h32⟩
  · -- the hash of a short node: no entry of the proof is kept under it
    by_cases hs : (enc E a).length < 32
    · cases f with
      | zero => simp [MPT.verifyPoiAux] at h
      | succ f =>
        exfalso
        have : dget ps (E.keccak (enc E a)) = none := by
          refine Classical.byContradiction fun hd => ?_
          obtain ⟨e, h1, h2, h3⟩ := hg.key_hash hd
          rw [hc e h1 _ hin h2] at h3
          omega
        unfold MPT.verifyPoiAux at h
        rw [if_pos ⟨E.keccak_len _, this⟩] at h
        simp at h
    · rw [if_neg hs] at hown
      exact absurd rfl hown
  · -- a long node in place of its hash
    have hs : ¬ (enc E a).length < 32 := fun hs => hown (by rw [if_pos hs])
    have hav := hav (by omega)
    obtain ⟨no', n', raw', hraw', hd', hrep'⟩ :=
      avail_raw hc hg hne hsh (enc_len hst) hlog (.inr hav)
    cases f with
    | zero => simp [MPT.verifyPoiAux] at h
    | succ f =>
      obtain ⟨n, h3, hrep⟩ := decode_enc (E := E) hne (enc_len hst)
      unfold MPT.verifyPoiAux at h ⊢
      rw [if_neg (fun hh => h32 hh.1), show MPT.rawOf ps (enc E a) = .ok (enc E a) by rw [MPT.rawOf, if_neg h32]] at h
      rw [if_neg no', hraw']
      simp only [Except.bind_ok', h3, hd', NibblePath.len_spec hp] at h ⊢
      cases hpn : path.nibs with
      | nil =>
        simp only [hpn, List.length_nil, if_true] at h ⊢
        cases a <;> cases n <;> simp [Rep] at hrep <;> cases n' <;> simp [Rep'] at hrep' <;> exact h
      | cons i p =>
        rw [hpn, if_neg (by simp)] at h
        rw [if_neg (by simp)]
        cases a with
        | empty => exact absurd rfl hne
        | leaf q v =>
          cases n <;> simp only [Rep] at hrep
          cases n' <;> simp only [Rep'] at hrep'
          obtain ⟨h1, rfl, rfl⟩ := hrep
          obtain ⟨h1', h2', -⟩ := hrep'
          simp only [NibblePath.eq_spec h1 hp, NibblePath.eq_spec h1' hp, h2'] at h ⊢
          exact h
        | ext q c =>
          cases n <;> simp only [Rep] at hrep
          cases n' <;> simp only [Rep'] at hrep'
          obtain ⟨h1, rfl, rfl⟩ := hrep
          obtain ⟨h1', h2', rfl⟩ := hrep'
          simp only [NibblePath.startsWith_spec hp h1, NibblePath.startsWith_spec hp h1', NibblePath.len_spec h1,
            NibblePath.len_spec h1', h2', Except.bind_ok'] at h ⊢
          exact h
        | branch cs v =>
          cases n <;> simp only [Rep] at hrep
          cases n' <;> simp only [Rep'] at hrep'
          obtain ⟨rfl, rfl⟩ := hrep
          obtain ⟨hbs, rfl⟩ := hrep'
          obtain ⟨b, hbi, hb'⟩ := hbs i
          simp only [NibblePath.at_zero hpn, Except.bind_ok', refs_get, ref_length_pos] at h
          simp only [NibblePath.at_zero hpn, Except.bind_ok', pyIndex, hbi]
          rcases hb' with rfl | ⟨he, rfl⟩
          · simpa only [ref_length_pos] using h
          · simp [he, isEmpty] at h

/-- An inclusion proof accepted by an object with the root hash of a trie is accepted by the trie. -/
theorem Holds.verifyPoi_form (h : Holds E t a) (hl : LogOk E t.store.written) (hne : a ≠ empty) {p : Proof Bytes}
    (hh : t'.rootHash E = t.rootHash E)
    (hc : CollFree E (Item.encode (.str []) :: t'.root.getD [] :: (hashed t ++ checked p)))
    (hv : t'.verifyPoi E p = .ok true) : t.verifyPoi E p = .ok true := by
  obtain ⟨r, hr, hform, hno⟩ := h.root_forms hne hh (hc.mono fun x hx => by
    simp only [List.mem_cons, List.mem_append] at hx ⊢
    rcases hx with hx | hx | hx <;> simp [hx])
  have hcl : CollFree E (hashed t ++ checked p) := hc.mono fun x hx => by simp [List.mem_append.1 hx]
  have hin : enc E a ∈ hashed t ++ checked p := List.mem_append_left _ (h.enc_in_hashed hne)
  unfold MPT.verifyPoi at hv ⊢
  rw [hno, hr, Option.getD_some, hh] at hv
  rw [h.noRoot hl, Holds.isEmpty_false hne, h.getD hne]
  split at hv
  · simp at hv
  rename_i hty
  rw [if_neg hty]
  simp only [Bool.false_eq_true, if_false] at hv ⊢
  cases hfirst : pyIndex p.proof 0 with
  | error e => rw [hfirst] at hv; cases hv
  | ok first =>
    rw [hfirst] at hv
    simp only [Except.bind_ok'] at hv ⊢
    split at hv
    · cases hv
    rename_i hk
    rw [if_neg hk]
    simp only [ne_eq, Classical.not_not] at hk
    have hmem : first ∈ p.proof := by
      cases hpp : p.proof with
      | nil => rw [hpp] at hfirst; simp [pyIndex] at hfirst
      | cons x xs =>
        rw [hpp] at hfirst
        have : x = first := by simpa [pyIndex] using hfirst
        simp [this]
    have hfe : first = enc E a :=
      hcl _ (List.mem_append_right _ (List.mem_append_left _ hmem)) _ hin (by rw [← hk, h.rootHash])
    cases hps : MPT.proofStorage E p.proof [] with
    | error e =>
      rw [hps] at hv
      cases e <;> cases hv
    | ok ps =>
      rw [hps] at hv
      simp only at hv ⊢
      have hg : Genuine E (hashed t ++ checked p) ps := by
        refine proofStorage_genuine (l := p.proof) (acc := []) ?_ ?_ hps
        · intro v hv e he
          refine List.mem_append_right _ (List.mem_append_right _ ?_)
          exact List.mem_filterMap.2 ⟨v, hv, he⟩
        · intro k v hk; simp [dget] at hk
      have hav : 32 ≤ (enc E a).length → dget ps (E.keccak (enc E a)) ≠ none := by
        intro h32
        obtain ⟨n', hd', hrep⟩ := decode_enc (E := E) hne (enc_len h.stored)
        exact proofStorage_complete hps (.inr ⟨first, hmem, enc E a, by
          simp [reenc, hfe, hd', hrep.encode], by rw [if_neg (by omega)]⟩)
      cases hw : MPT.verifyPoiAux ps E.limit r ⟨p.targetKey, 0⟩ with
      | error e => rw [hw] at hv; cases hv
      | ok b =>
        rw [hw] at hv
        simp only [Except.bind_ok', Except.pure_ok', Except.ok.injEq, Bool.and_eq_true] at hv
        rw [hv.1] at hw
        have hlog : Logged E (hashed t ++ checked p) a := by
          refine Logged.mono ?_ (h.stored.logged h.good)
          intro x hx; exact List.mem_append_left _ (List.mem_append_left _ hx)
        rw [verifyPoiAux_form hcl hg E.limit h.shape hne h.stored hlog hin hform hav (NibblePath.WF_bytes _) hw]
        simp [hv.2]

/-- An object that has the hash of a short root node as its root accepts no inclusion proof. -/
theorem Holds.verifyPoi_small (h : Holds E t a) (hne : a ≠ empty) (hs : (enc E a).length < 32) {p : Proof Bytes}
    (hr : t'.root = some (E.keccak (enc E a))) (hc : CollFree E (hashed t ++ checked p)) :
    t'.verifyPoi E p ≠ .ok true := by
  intro hv
  have hin : enc E a ∈ hashed t ++ checked p := List.mem_append_left _ (h.enc_in_hashed hne)
  unfold MPT.verifyPoi at hv
  rw [hr, Option.getD_some] at hv
  split at hv
  · simp at hv
  split at hv
  · simp at hv
  cases hfirst : pyIndex p.proof 0 with
  | error e => rw [hfirst] at hv; cases hv
  | ok first =>
    rw [hfirst] at hv
    simp only [Except.bind_ok'] at hv
    split at hv
    · cases hv
    cases hps : MPT.proofStorage E p.proof [] with
    | error e =>
      rw [hps] at hv
      cases e <;> cases hv
    | ok ps =>
      rw [hps] at hv
      simp only at hv
      have hg : Genuine E (hashed t ++ checked p) ps := by
        refine proofStorage_genuine (l := p.proof) (acc := []) ?_ ?_ hps
        · intro v hv e he
          refine List.mem_append_right _ (List.mem_append_right _ ?_)
          exact List.mem_filterMap.2 ⟨v, hv, he⟩
        · intro k v hk; simp [dget] at hk
      have : dget ps (E.keccak (enc E a)) = none := by
        refine Classical.byContradiction fun hd => ?_
        obtain ⟨e, h1, h2, h3⟩ := hg.key_hash hd
        rw [hc e h1 _ hin h2] at h3
        omega
      cases hlim : E.limit with
      | zero => rw [hlim] at hv; simp [MPT.verifyPoiAux] at hv
      | succ f =>
        rw [hlim] at hv
        unfold MPT.verifyPoiAux at hv
        rw [if_pos ⟨E.keccak_len _, this⟩] at hv
        cases hv

/-- A proof made by the trie, of which the root node has 32 bytes or more, gets the same answer from either form of the
root. -/
theorem Holds.verifyPoi_made (h : Holds E t a) (hl : LogOk E t.store.written) (hne : a ≠ empty) {p : Proof Bytes}
    (hp : p.proof = (trail a (toNibs p.targetKey)).map (enc E)) (h32 : 32 ≤ (enc E a).length)
    (hr : t'.root = some r) (hform : RootForm E a r) (hno : t'.noRoot E = false)
    (hh : t'.rootHash E = t.rootHash E) : t'.verifyPoi E p = t.verifyPoi E p := by
  have hc : CollFree E t.store.written := hl.coll.mono fun a ha => List.mem_cons_of_mem _ ha
  have hlog := h.stored.logged h.good
  have hne' := trail_ne_empty h.shape hne (toNibs p.targetKey)
  obtain ⟨l, hl0⟩ := trail_head (t := a) (toNibs p.targetKey)
  have hps := proofStorage_encs hne' (trail_len h.stored (toNibs p.targetKey)) []
  rw [← hp] at hps
  have hd := dget_enter hc hne' (fun y hy => trail_logged hlog _ y hy) (x := a) (by rw [hl0]; simp) []
  have hraw : ∀ q, RootForm E a q →
      MPT.rawOf (enter E (trail a (toNibs p.targetKey)) []) q = .ok (enc E a) := by
    rintro q (rfl | ⟨rfl, h0⟩)
    · rw [ref_of_ne hne, if_neg (by omega)] at hd
      rw [MPT.rawOf, if_pos (E.keccak_len _), dgetItem, hd]
    · rw [MPT.rawOf, if_neg h0]
  unfold MPT.verifyPoi
  rw [hno, hh, hps, h.noRoot hl, Holds.isEmpty_false hne]
  simp only
  rw [verifyPoiAux_raw (hraw _ (h.own_form hne)) (hraw (t'.root.getD []) (by rw [hr]; exact hform))]

/-- What is learnt from an exclusion proof accepted by an object with the root hash of a trie: the trie accepts it, too,
or it consists of the root node alone, which is short. -/
theorem Holds.verifyPoe_form (h : Holds E t a) (hne : a ≠ empty) {p : Proof Bytes}
    (hh : t'.rootHash E = t.rootHash E)
    (hc : CollFree E (Item.encode (.str []) :: t'.root.getD [] :: (hashed t ++ checked p)))
    (hv : t'.verifyPoe E p = .ok true) :
    t.verifyPoe E p = .ok true ∨ ((enc E a).length < 32 ∧ p.proof = [enc E a]) := by
  obtain ⟨r, hr, hform, hno⟩ := h.root_forms hne hh (hc.mono fun x hx => by
    simp only [List.mem_cons, List.mem_append] at hx ⊢
    rcases hx with hx | hx | hx <;> simp [hx])
  have hcl : CollFree E (hashed t ++ checked p) := hc.mono fun x hx => by simp [List.mem_append.1 hx]
  have hroot : t.root = some (ref E a) := by
    rcases h.root with ⟨e, _⟩ | ⟨_, e⟩
    · exact absurd e hne
    · exact e
  by_cases hown : r = ref E a
  · left
    have he : t'.root = t.root := by rw [hr, hown, hroot]
    rw [← hv]
    unfold MPT.verifyPoe MPT.noRoot MPT.rootHash
    rw [he]
  rw [ref_of_ne hne] at hown
  unfold MPT.verifyPoe at hv
  rw [hno, hr, Option.getD_some] at hv
  split at hv
  · simp at hv
  simp only [Bool.false_eq_true, if_false] at hv
  cases hfirst : pyIndex p.proof 0 with
  | error e => rw [hfirst] at hv; cases hv
  | ok first =>
    rw [hfirst] at hv
    simp only [Except.bind_ok'] at hv
    split at hv
    · cases hv
    rename_i hk
    simp only [ne_eq, Classical.not_not] at hk
    cases hlast : MPT.lastItem p.proof with
    | error e => rw [hlast] at hv; cases hv
    | ok last =>
      rw [hlast] at hv
      simp only [Except.bind_ok'] at hv
      cases hdl : Node.decode last with
      | error e => rw [hdl] at hv; cases hv
      | ok n =>
        rw [hdl] at hv
        simp only [Except.bind_ok'] at hv
        cases hdd : MPT.nodeData n with
        | error e => rw [hdd] at hv; cases hv
        | ok d =>
          rw [hdd] at hv
          simp only [Except.bind_ok'] at hv
          split at hv
          · cases hv
          cases hps : MPT.proofStorage E p.proof.dropLast [] with
          | error e => rw [hps] at hv; cases hv
          | ok ps =>
            rw [hps] at hv
            simp only [Except.bind_ok'] at hv
            have hg : Genuine E (hashed t ++ checked p) ps := by
              refine proofStorage_genuine (l := p.proof.dropLast) (acc := []) ?_ ?_ hps
              · intro v hv e he
                refine List.mem_append_right _ (List.mem_append_right _ ?_)
                exact List.mem_filterMap.2 ⟨v, (List.dropLast_sublist _).subset hv, he⟩
              · intro k v hk; simp [dget] at hk
            cases hlim : E.limit with
            | zero => rw [hlim] at hv; simp [MPT.verifyPoeAux] at hv
            | succ f =>
              rw [hlim] at hv
              unfold MPT.verifyPoeAux at hv
              rcases hform with rfl | ⟨rfl, h32⟩
              · -- the hash of a short node
                by_cases hs : (enc E a).length < 32
                · have hin : enc E a ∈ hashed t ++ checked p := List.mem_append_left _ (h.enc_in_hashed hne)
                  have hd : dget ps (E.keccak (enc E a)) = none := by
                    refine Classical.byContradiction fun hd => ?_
                    obtain ⟨e, h1, h2, h3⟩ := hg.key_hash hd
                    rw [hcl e h1 _ hin h2] at h3
                    omega
                  rw [if_pos ⟨E.keccak_len _, hd⟩] at hv
                  simp only [Except.bind_ok'] at hv
                  split at hv
                  · cases hv
                  rename_i hlen
                  refine .inr ⟨hs, ?_⟩
                  have hps0 : ps = [] := List.length_eq_zero_iff.1 (by omega)
                  subst hps0
                  cases hpp : p.proof with
                  | nil => rw [hpp] at hfirst; simp [pyIndex] at hfirst
                  | cons x xs =>
                    rw [hpp] at hfirst
                    have hx : x = first := by simpa [pyIndex] using hfirst
                    subst hx
                    have hxe : x = enc E a := by
                      refine hcl _ (List.mem_append_right _ (List.mem_append_left _ (by rw [hpp]; simp))) _ hin ?_
                      rw [← hk, hh, h.rootHash]
                    cases xs with
                    | nil => rw [hxe]
                    | cons y ys =>
                      exfalso
                      rw [hpp, List.dropLast_cons_of_ne_nil (by simp)] at hps
                      obtain ⟨n', hd', hrep⟩ := decode_enc (E := E) hne (enc_len h.stored)
                      have := proofStorage_complete hps (k := enc E a) (.inr ⟨x, by simp, enc E a, by
                        simp [reenc, hxe, hd', hrep.encode], by rw [if_pos hs]⟩)
                      simp [dget] at this
                · rw [if_neg hs] at hown
                  exact absurd rfl hown
              · -- a long node in place of its hash
                exfalso
                by_cases hs : (enc E a).length < 32
                · rw [if_pos hs] at hown
                  exact absurd rfl hown
                obtain ⟨n', hd', hrep⟩ := decode_enc (E := E) hne (enc_len h.stored)
                rw [if_neg (fun hh => h32 hh.1),
                  show MPT.rawOf ps (enc E a) = .ok (enc E a) by rw [MPT.rawOf, if_neg h32]] at hv
                have hd : dget ps (enc E a) = none := by
                  refine Classical.byContradiction fun hd => ?_
                  have := hg.key_len hd
                  omega
                simp [hd', hd] at hv

/-- An object with the root hash of the empty trie accepts no proof. -/
theorem Holds.verify_empty (h : Holds E t empty) {p : Proof Bytes} (hh : t'.rootHash E = t.rootHash E)
    (hc : CollFree E (Item.encode (.str []) :: p.proof)) :
    t'.verifyPoi E p ≠ .ok true ∧ t'.verifyPoe E p ≠ .ok true := by
  have h80 : Node.decode (Item.encode (.str [])) = .error .assertion := by decide
  have he : t'.rootHash E = E.keccak (Item.encode (.str [])) := by rw [hh, h.rootHash]; rfl
  have first : ∀ x, pyIndex p.proof 0 = .ok x → E.keccak x = t'.rootHash E →
      ∃ xs, p.proof = Item.encode (.str []) :: xs := by
    intro x hx hk
    cases hpp : p.proof with
    | nil => rw [hpp] at hx; simp [pyIndex] at hx
    | cons y ys =>
      rw [hpp] at hx
      have : y = x := by simpa [pyIndex] using hx
      subst this
      exact ⟨ys, by rw [hc y (by rw [hpp]; simp) _ (by simp) (hk.trans he)]⟩
  constructor
  · intro hv
    unfold MPT.verifyPoi at hv
    split at hv
    · simp at hv
    split at hv
    · simp at hv
    cases hfirst : pyIndex p.proof 0 with
    | error e => rw [hfirst] at hv; cases hv
    | ok x =>
      rw [hfirst] at hv
      simp only [Except.bind_ok'] at hv
      split at hv
      · cases hv
      rename_i hk
      simp only [ne_eq, Classical.not_not] at hk
      obtain ⟨xs, hxs⟩ := first x hfirst hk.symm
      rw [hxs, MPT.proofStorage, h80] at hv
      cases hv
  · intro hv
    unfold MPT.verifyPoe at hv
    split at hv
    · simp at hv
    split at hv
    · simp at hv
    cases hfirst : pyIndex p.proof 0 with
    | error e => rw [hfirst] at hv; cases hv
    | ok x =>
      rw [hfirst] at hv
      simp only [Except.bind_ok'] at hv
      split at hv
      · cases hv
      rename_i hk
      simp only [ne_eq, Classical.not_not] at hk
      obtain ⟨xs, hxs⟩ := first x hfirst hk.symm
      rw [hxs] at hv
      cases xs with
      | nil =>
        simp only [MPT.lastItem, List.getLast?_singleton, Except.bind_ok', h80] at hv
        cases hv
      | cons y ys =>
        rw [List.dropLast_cons_of_ne_nil (by simp), MPT.proofStorage, h80] at hv
        cases hl : MPT.lastItem (Item.encode (.str []) :: y :: ys) with
        | error e => rw [hl] at hv; cases hv
        | ok z =>
          rw [hl] at hv
          simp only [Except.bind_ok'] at hv
          cases hz : Node.decode z with
          | error e => rw [hz] at hv; cases hv
          | ok n =>
            rw [hz] at hv
            simp only [Except.bind_ok'] at hv
            cases hn : MPT.nodeData n with
            | error e => rw [hn] at hv; cases hv
            | ok d =>
              rw [hn] at hv
              simp only [Except.bind_ok'] at hv
              split at hv <;> cases hv

end T

/-! ### Proofs made by a received object -/

namespace Doubles
variable {E : Env} {u : MPT} {r r' : Bytes}

theorem getPoi (h : Doubles E u r r') (now k : Bytes) :
    ({ u with root := some r' } : MPT).getPoi E now k =
      (u.getPoi E now k).map (fun p => { p with trieRoot := r' }) := by
  unfold MPT.getPoi
  rw [h.noRoot, h.noRoot']
  unfold MPT.keyOf
  simp only [h.root, Option.getD_some, Bool.false_eq_true, if_false]
  have : ∀ f path l, MPT.getPoiAux u.store.kv f r' path l = MPT.getPoiAux u.store.kv f r path l := by
    intro f path l
    cases f with
    | zero => rfl
    | succ f => simp only [MPT.getPoiAux, h.node]
  rw [this]
  cases MPT.getPoiAux u.store.kv E.limit r _ _ <;> rfl

theorem getPoe (h : Doubles E u r r') (hh : ({ u with root := some r' } : MPT).rootHash E = u.rootHash E)
    (now k : Bytes) : ({ u with root := some r' } : MPT).getPoe E now k = u.getPoe E now k := by
  unfold MPT.getPoe
  rw [h.noRoot, h.noRoot', h.contains, hh]
  unfold MPT.keyOf
  simp only [h.root, Option.getD_some, Bool.false_eq_true, if_false]
  have : ∀ f path l, MPT.getPoeAux u.store.kv f r' path l = MPT.getPoeAux u.store.kv f r path l := by
    intro f path l
    cases f with
    | zero => rfl
    | succ f => simp only [MPT.getPoeAux, h.node]
  rw [this]

end Doubles

namespace Twin
variable {E : Env} {t' t : MPT} {a : T} {r' : Bytes}

theorem getPoi (h : Twin E t' t a r') (hb : Bears E t a) (hne : a ≠ .empty) (hl : LogOk E t.store.written)
    {k : Bytes} (hf : Fits E t.secure k) (now : Bytes) :
    t'.getPoi E now k = .error .keyError ∨
    t'.getPoi E now k = (t.getPoi E now k).map (fun p => { p with trieRoot := r' }) := by
  have hb1 := h.bears hb
  have e : (t.plus E (T.enc E a)).getPoi E now k = t.getPoi E now k := by
    rw [hb1.holds.getPoi h.log hne (fits_nibs hf), hb.holds.getPoi hl hne (fits_nibs hf)]; rfl
  have hd := h.doubles hb hne
  rcases h.alike.getPoi (E := E) now k with g | g | g
  · exact .inl g
  · rw [hd.getPoi, e] at g
    have := (hb.holds.never_key hl (k := k) (fits_nibs hf)).2.2.1 now
    cases hp : t.getPoi E now k with
    | ok p => rw [hp] at g; cases g
    | error x =>
      rw [hp] at g
      simp only [Except.map, Except.error.injEq] at g
      rw [hp, g] at this
      exact absurd rfl this
  · rw [hd.getPoi, e] at g
    exact .inr g

theorem getPoe (h : Twin E t' t a r') (hb : Bears E t a) (hne : a ≠ .empty) (hl : LogOk E t.store.written)
    {k : Bytes} (hf : Fits E t.secure k) (now : Bytes) :
    t'.getPoe E now k = .error .keyError ∨ t'.getPoe E now k = t.getPoe E now k := by
  have hb1 := h.bears hb
  have e : (t.plus E (T.enc E a)).getPoe E now k = t.getPoe E now k := by
    rw [hb1.holds.getPoe h.log hne (fits_nibs hf), hb.holds.getPoe hl hne (fits_nibs hf)]; rfl
  have hd := h.doubles hb hne
  have hh : ({ t.plus E (T.enc E a) with root := some r' } : MPT).rootHash E = (t.plus E (T.enc E a)).rootHash E := by
    have h1 : ({ t.plus E (T.enc E a) with root := some r' } : MPT).rootHash E = t'.rootHash E := by
      unfold MPT.rootHash
      rw [h.root']
    rw [h1, h.rootHash hb]
    rfl
  rcases h.alike.getPoe (E := E) now k with g | g | g
  · exact .inl g
  · rw [hd.getPoe hh, e] at g
    exact absurd g ((hb.holds.never_key hl (k := k) (fits_nibs hf)).2.2.2 now)
  · rw [hd.getPoe hh, e] at g
    exact .inr g

end Twin
end Pymt
