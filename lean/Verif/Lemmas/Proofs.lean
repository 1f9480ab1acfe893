import Verif.Lemmas.Root
import Verif.Lemmas.Closed

/-!
# Inclusion and exclusion proofs

What the four walkers do on a stored trie, in terms of `seek` and `passed`.
-/

namespace Pymt
namespace T

/-- Result of `_get_proof_of_inclusion` where the walk stopped. -/
def foundP : T → List Nib → Py T
  | t, [] => .ok t
  | leaf q v, p => if q = p then .ok (leaf q v) else .error .leafPath
  | ext _ _, _ => .error .extensionPath
  | branch _ _, _ => .error .branchPath
  | empty, _ => .error .keyError

theorem foundP_ok {x y : T} {r : List Nib} (h : foundP x r = .ok y) : y = x := by
  cases r with
  | nil => cases x <;> simpa [foundP, eq_comm] using h
  | cons i r =>
    cases x <;> simp [foundP] at h
    rename_i q v
    by_cases hq : q = i :: r
    · simpa [hq, eq_comm] using h
    · simp [hq] at h

theorem getPoiAux_run {E : Env} {kv : Dict Bytes} (f : Nat) {t : T} (hsh : t.Shape) (hne : t ≠ empty)
    (hs : Stored E kv t) {path : NibblePath} (hp : path.WF) (hf : path.nibs.length < f) (acc : List Bytes) :
    MPT.getPoiAux kv f (ref E t) path acc =
      match foundP (T.seek t path.nibs).1 (T.seek t path.nibs).2 with
      | .error e => .error e
      | .ok x => .ok (acc ++ (passed t path.nibs ++ [x]).map (enc E)) := by
  induction f generalizing t path acc with
  | zero => omega
  | succ f ih =>
    obtain ⟨n, hn, hrep⟩ := getNode_ref hs hne
    unfold MPT.getPoiAux
    rw [hn, NibblePath.len_spec hp]
    simp only [Except.bind_ok', hrep.encode]
    cases hpn : path.nibs with
    | nil => simp [foundP]
    | cons i p =>
      rw [if_neg (by simp)]
      cases t with
      | empty => exact absurd rfl hne
      | leaf q v =>
        cases n <;> simp only [Rep] at hrep
        rename_i np d
        obtain ⟨h1, rfl, rfl⟩ := hrep
        simp only [T.seek, foundP, NibblePath.eq_spec h1 hp, hpn, Except.bind_ok', passed]
        by_cases hh : np.nibs = i :: p <;> simp [hh]
      | ext q c =>
        cases n <;> simp only [Rep] at hrep
        rename_i np nr
        obtain ⟨h1, rfl, rfl⟩ := hrep
        simp only [T.seek, passed, NibblePath.startsWith_spec hp h1, hpn, Except.bind_ok']
        by_cases hpre : np.nibs <+: i :: p
        · have hpre' := hpre
          rw [← hpn] at hpre'
          simp only [hpre, decide_true, if_true, NibblePath.len_spec h1, Except.bind_ok']
          rw [ih hsh.2.2 hsh.child_ne hs.2 (NibblePath.consume_WF hp hpre'.length_le)
            (by rw [NibblePath.consume_nibs]; exact drop_len hsh.1 hpre' hf)]
          rw [NibblePath.consume_nibs, hpn]
          simp
        · simp [hpre, foundP]
      | branch cs v =>
        cases n <;> simp only [Rep] at hrep
        rename_i bs d
        obtain ⟨rfl, rfl⟩ := hrep
        simp only [T.seek, passed, NibblePath.at_zero hpn, Except.bind_ok', refs_get, ref_length_pos]
        obtain ⟨hw, hc⟩ := nibs_cons_consume hp hpn
        by_cases he : (cs i).isEmpty = true
        · simp [he, foundP]
        · simp only [he, if_true]
          rw [ih (hsh i) (fun e => he (isEmpty_iff.2 e)) (hs.2 i) hw
            (by rw [hc]; rw [hpn] at hf; simp at hf; omega)]
          rw [hc]
          simp

/-! ### The storage made from a proof -/

/-- Enter nodes under their references. -/
def enter (E : Env) (xs : List T) (d : Dict Bytes) : Dict Bytes :=
  xs.foldl (fun d x => dset d (ref E x) (enc E x)) d

theorem proofStorage_encs {E : Env} {xs : List T} (hne : ∀ x ∈ xs, x ≠ empty)
    (hlen : ∀ x ∈ xs, (enc E x).length < 2 ^ 64) (acc : Dict Bytes) :
    MPT.proofStorage E (xs.map (enc E)) acc = .ok (enter E xs acc) := by
  induction xs generalizing acc with
  | nil => rfl
  | cons x xs ih =>
    obtain ⟨n, h1, h2⟩ := decode_enc (hne x (by simp)) (hlen x (by simp))
    simp only [List.map_cons, MPT.proofStorage, h1, Except.bind_ok', h2.intoReference]
    exact ih (fun y hy => hne y (by simp [hy])) (fun y hy => hlen y (by simp [hy])) _

theorem dget_enter_other {E : Env} {xs : List T} {k : Bytes} (h : ∀ x ∈ xs, ref E x ≠ k) (d : Dict Bytes) :
    dget (enter E xs d) k = dget d k := by
  induction xs generalizing d with
  | nil => rfl
  | cons x xs ih =>
    have : enter E (x :: xs) d = enter E xs (dset d (ref E x) (enc E x)) := rfl
    rw [this, ih (fun y hy => h y (by simp [hy])), dget_dset, if_neg (h x (by simp))]

theorem dget_enter {E : Env} {log : List Bytes} (hc : CollFree E log) {xs : List T}
    (hne : ∀ x ∈ xs, x ≠ empty) (hlog : ∀ x ∈ xs, Logged E log x) {x : T} (hx : x ∈ xs)
    (d : Dict Bytes) : dget (enter E xs d) (ref E x) = some (enc E x) := by
  induction xs generalizing d x with
  | nil => simp at hx
  | cons y xs ih =>
    have : enter E (y :: xs) d = enter E xs (dset d (ref E y) (enc E y)) := rfl
    rw [this]
    by_cases hx' : ∃ z ∈ xs, ref E z = ref E x
    · obtain ⟨z, hz, he⟩ := hx'
      rw [← he, ih (fun y hy => hne y (by simp [hy])) (fun y hy => hlog y (by simp [hy])) hz]
      rw [enc_of_ref hc (hne z (by simp [hz])) (hne x hx) (hlog z (by simp [hz])) (hlog x hx) he]
    · rw [dget_enter_other (fun z hz e => hx' ⟨z, hz, e⟩), dget_dset]
      have : x = y := by
        rcases List.mem_cons.1 hx with h | h
        · exact h
        · exact absurd ⟨x, h, rfl⟩ hx'
      subst this
      simp

/-- The nodes a walk sees. -/
def trail (t : T) (p : List Nib) : List T := passed t p ++ [(T.seek t p).1]

theorem trail_induct {P : T → Prop} (hext : ∀ q c, P (ext q c) → P c)
    (hbr : ∀ cs v i, P (branch cs v) → P (cs i)) {t : T} (h : P t) (p : List Nib) :
    ∀ x ∈ trail t p, P x := by
  obtain ⟨h1, h2⟩ := seek_induct hext hbr h p
  intro x hx
  rcases List.mem_append.1 hx with hx | hx
  · exact h2 x hx
  · simp only [List.mem_singleton] at hx; subst hx; exact h1

theorem trail_stored {E : Env} {kv : Dict Bytes} {t : T} (h : Stored E kv t) (p : List Nib) :
    ∀ x ∈ trail t p, Stored E kv x :=
  trail_induct (fun _ _ h => h.2) (fun _ _ i h => h.2 i) h p

theorem trail_logged {E : Env} {log : List Bytes} {t : T} (h : Logged E log t) (p : List Nib) :
    ∀ x ∈ trail t p, Logged E log x :=
  trail_induct (fun _ _ h => h.2) (fun _ _ i h => h.2 i) h p

theorem passed_ne_empty {t : T} (p : List Nib) : ∀ x ∈ passed t p, x ≠ empty := by
  induction t generalizing p with
  | empty => simp [passed]
  | leaf q v => simp [passed]
  | ext q c ih =>
    cases p with
    | nil => simp
    | cons i p =>
      rw [passed]
      split
      · intro x hx
        rcases List.mem_cons.1 hx with rfl | hx
        · simp
        · exact ih _ x hx
      · simp
  | branch cs v ih =>
    cases p with
    | nil => simp
    | cons i p =>
      rw [passed]
      split
      · simp
      · intro x hx
        rcases List.mem_cons.1 hx with rfl | hx
        · simp
        · exact ih i _ x hx

theorem trail_ne_empty {t : T} (h : t.Shape) (hne : t ≠ empty) (p : List Nib) :
    ∀ x ∈ trail t p, x ≠ empty := by
  intro x hx
  rcases List.mem_append.1 hx with hx | hx
  · exact passed_ne_empty p x hx
  · simp only [List.mem_singleton] at hx; subst hx; exact seek_ne_empty h hne p

/-- The first node of the trail is the top. -/
theorem trail_head {t : T} (p : List Nib) : ∃ l, trail t p = t :: l := by
  cases t with
  | empty => exact ⟨[], by cases p <;> rfl⟩
  | leaf q v => exact ⟨[], by cases p <;> rfl⟩
  | ext q c =>
    cases p with
    | nil => exact ⟨[], rfl⟩
    | cons i p =>
      by_cases h : q <+: i :: p
      · exact ⟨trail c ((i :: p).drop q.length), by simp [trail, passed, T.seek, h]⟩
      · exact ⟨[], by simp [trail, passed, T.seek, h]⟩
  | branch cs v =>
    cases p with
    | nil => exact ⟨[], rfl⟩
    | cons i p =>
      by_cases h : (cs i).isEmpty = true
      · exact ⟨[], by simp [trail, passed, T.seek, h]⟩
      · exact ⟨trail (cs i) p, by simp [trail, passed, T.seek, h]⟩

theorem trail_ext {q : List Nib} {c : T} {i : Nib} {p : List Nib} (h : q <+: i :: p) :
    trail (ext q c) (i :: p) = ext q c :: trail c ((i :: p).drop q.length) := by
  simp [trail, passed, T.seek, h]

theorem trail_branch {cs : Nib → T} {v : Bytes} {i : Nib} {p : List Nib} (h : (cs i).isEmpty ≠ true) :
    trail (branch cs v) (i :: p) = branch cs v :: trail (cs i) p := by
  simp [trail, passed, T.seek, h]

/-! ### Checking an inclusion proof -/

/-- Result of `_verify_proof_of_inclusion` where the walk stopped. -/
def verdict : T → List Nib → Py Bool
  | ext _ _, [] => .ok false
  | _, [] => .ok true
  | leaf q _, p => .ok (decide (q = p))
  | ext _ _, _ => .error .extensionPath
  | branch _ _, _ => .error .branchPath
  | empty, _ => .error .keyError

theorem here_raw {E : Env} {ps : Dict Bytes} {t : T} (hne : t ≠ empty) (hh : Here E ps t) :
    ¬ ((ref E t).length = 32 ∧ dget ps (ref E t) = none) ∧
    ∃ n raw, MPT.rawOf ps (ref E t) = .ok raw ∧
      Node.decode raw = .ok n ∧ Rep E t n := by
  rw [ref_of_ne hne]
  by_cases hl : (enc E t).length < 32
  · rw [if_pos hl]
    obtain ⟨n, h1, h2⟩ := decode_enc hne (E := E) (by omega)
    exact ⟨fun h => by omega, n, enc E t, by rw [MPT.rawOf, if_neg (by omega)], h1, h2⟩
  · rcases hh with hh | ⟨h1, h2⟩
    · exact absurd hh hl
    · rw [if_neg hl]
      obtain ⟨n, h3, h4⟩ := decode_enc hne h2
      exact ⟨fun h => by simp [h1] at h, n, enc E t, by rw [MPT.rawOf, if_pos (E.keccak_len _), dgetItem, h1], h3, h4⟩

theorem verifyPoiAux_run {E : Env} {ps : Dict Bytes} (f : Nat) {t : T} (hsh : t.Shape) (hne : t ≠ empty)
    {path : NibblePath} (hs : ∀ x ∈ trail t path.nibs, Here E ps x) (hp : path.WF)
    (hf : path.nibs.length < f) :
    MPT.verifyPoiAux ps f (ref E t) path = verdict (T.seek t path.nibs).1 (T.seek t path.nibs).2 := by
  induction f generalizing t path with
  | zero => omega
  | succ f ih =>
    obtain ⟨l, hl⟩ := trail_head (t := t) path.nibs
    obtain ⟨hn, n, raw, h2, h3, hrep⟩ := here_raw hne (hs t (by rw [hl]; simp))
    unfold MPT.verifyPoiAux
    rw [if_neg hn, h2]
    simp only [Except.bind_ok', h3, NibblePath.len_spec hp]
    cases hpn : path.nibs with
    | nil =>
      simp only [List.length_nil, if_true, seek_nil]
      cases t <;> cases n <;> simp [Rep] at hrep <;> rfl
    | cons i p =>
      rw [if_neg (by simp)]
      cases t with
      | empty => exact absurd rfl hne
      | leaf q v =>
        cases n <;> simp only [Rep] at hrep
        rename_i np d
        obtain ⟨h1, rfl, rfl⟩ := hrep
        simp only [T.seek, verdict, NibblePath.eq_spec h1 hp, hpn]
      | ext q c =>
        cases n <;> simp only [Rep] at hrep
        rename_i np nr
        obtain ⟨h1, rfl, rfl⟩ := hrep
        simp only [T.seek, NibblePath.startsWith_spec hp h1, hpn, Except.bind_ok']
        by_cases hpre : np.nibs <+: i :: p
        · have hpre' := hpre
          rw [← hpn] at hpre'
          simp only [hpre, decide_true, if_true, NibblePath.len_spec h1, Except.bind_ok']
          rw [ih hsh.2.2 hsh.child_ne ?_ (NibblePath.consume_WF hp hpre'.length_le)
            (by rw [NibblePath.consume_nibs]; exact drop_len hsh.1 hpre' hf), NibblePath.consume_nibs, hpn]
          intro x hx
          rw [NibblePath.consume_nibs, hpn] at hx
          exact hs x (by rw [hpn, trail_ext hpre]; exact List.mem_cons_of_mem _ hx)
        · simp [hpre, verdict]
      | branch cs v =>
        cases n <;> simp only [Rep] at hrep
        rename_i bs d
        obtain ⟨rfl, rfl⟩ := hrep
        simp only [T.seek, NibblePath.at_zero hpn, Except.bind_ok', refs_get, ref_length_pos]
        obtain ⟨hw, hc⟩ := nibs_cons_consume hp hpn
        by_cases he : (cs i).isEmpty = true
        · simp [he, verdict]
        · simp only [he, if_true]
          rw [ih (hsh i) (fun e => he (isEmpty_iff.2 e)) ?_ hw
            (by rw [hc]; rw [hpn] at hf; simp at hf; omega), hc]
          · simp
          intro x hx
          rw [hc] at hx
          exact hs x (by rw [hpn, trail_branch he]; exact List.mem_cons_of_mem _ hx)

/-! ### Forged nodes -/

/-- A node that has the encoding of the top node of a trie.  It may differ from the real node in one
way: an empty slot of a branch may hold the encoding of the empty string. -/
def Rep' (E : Env) : T → Node → Prop
  | leaf p v, .leaf np d => np.WF ∧ np.nibs = p ∧ d = v
  | ext p c, .ext np r => np.WF ∧ np.nibs = p ∧ r = ref E c
  | branch cs v, .branch bs d =>
      (∀ i : Nib, ∃ r, bs[i.val]? = some r ∧ (r = ref E (cs i) ∨ (cs i = empty ∧ r = [0x80]))) ∧ d = v
  | _, _ => False

theorem prepare_inv {r : Bytes} {x : Item} (h : prepareForEncoding r = .ok x) :
    prepareForUsage x = r ∨ (r = x.encode ∧ r.length < 32 ∧ ∃ b, x = .str b) := by
  unfold prepareForEncoding at h
  split at h
  · rename_i hl
    have he := encode_rlpDecode h
    cases x with
    | list l => exact .inl he
    | str b => exact .inr ⟨he.symm, hl.2, b, rfl⟩
  · cases h; exact .inl rfl

theorem prepare_ref {E : Env} {c : T} {r : Bytes} (h : prepareForEncoding r = .ok (refItem E c)) :
    r = ref E c ∨ (c = empty ∧ r = [0x80]) := by
  rcases prepare_inv h with h | ⟨h1, h2, b, hb⟩
  · rw [usage_refItem] at h; exact .inl h.symm
  · by_cases hc : c = empty
    · subst hc
      refine .inr ⟨rfl, ?_⟩
      rw [h1]
      show Item.encode (wrap E (.str [])) = [0x80]
      have : (Item.encode (.str [])).length < 32 := by decide
      rw [wrap, if_pos this]
      decide
    · exfalso
      obtain ⟨l, hl⟩ := item_list (E := E) hc
      rw [refItem, wrap] at hb
      split at hb
      · rw [hl] at hb; simp at hb
      · simp only [Item.str.injEq] at hb
        rw [h1, refItem, wrap] at h2
        split at h2
        · rename_i h3 h4; exact h3 h4
        · have := encStr_length_ge (E.keccak (item E c).encode)
          rw [E.keccak_len] at this
          rw [Item.encode] at h2
          omega

theorem prepareAll_length {rs : List Bytes} {xs : List Item} (h : prepareAll rs = .ok xs) :
    xs.length = rs.length ∧ ∀ i (hi : i < rs.length) (hj : i < xs.length),
      prepareForEncoding rs[i] = .ok xs[i] := by
  induction rs generalizing xs with
  | nil => simp [prepareAll] at h; subst h; simp
  | cons r rs ih =>
    rw [prepareAll] at h
    cases hr : prepareForEncoding r with
    | error e => rw [hr] at h; simp at h
    | ok x =>
      cases hrs : prepareAll rs with
      | error e => rw [hr, hrs] at h; simp at h
      | ok ys =>
        rw [hr, hrs] at h
        simp at h
        subst h
        obtain ⟨h1, h2⟩ := ih hrs
        refine ⟨by simp [h1], fun i hi hj => ?_⟩
        cases i with
        | zero => simpa using hr
        | succ i => simpa using h2 i (by simpa using hi) (by simpa using hj)

/-- The encoding determines the node, up to the difference mentioned at `Rep'`. -/
theorem rep_of_encode {E : Env} {t : T} (hsh : t.Shape) (hlen : (enc E t).length < 2 ^ 64) {n : Node}
    (ha : n.Arity) (h : n.encode = .ok (enc E t)) : Rep' E t n := by
  have inj : ∀ {l : List Item}, Item.encode (.list l) = enc E t → item E t = .list l := by
    intro l hl
    exact Item.encode_inj (by rwa [enc] at hlen) hl.symm
  cases n with
  | leaf p d =>
    rw [Node.encode] at h
    cases hpe : p.encode true with
    | error e => rw [hpe] at h; simp at h
    | ok b =>
      rw [hpe] at h
      simp only [Except.bind_ok', Except.pure_ok', Except.ok.injEq] at h
      obtain ⟨hw, rfl⟩ := NibblePath.encode_wf hpe
      have hi := inj h
      cases t with
      | empty => simp [item] at hi
      | leaf q v =>
        simp only [item, Item.list.injEq, List.cons.injEq, Item.str.injEq, and_true] at hi
        exact ⟨hw, (hp_inj hi.1).2.symm, hi.2.symm⟩
      | ext q c =>
        simp only [item, Item.list.injEq, List.cons.injEq, Item.str.injEq, and_true] at hi
        exact absurd (hp_inj hi.1).1 (by simp)
      | branch cs v =>
        simp only [item, Item.list.injEq] at hi
        have := congrArg List.length hi
        simp at this
  | ext p r =>
    rw [Node.encode] at h
    cases hx : prepareForEncoding r with
    | error e => rw [hx] at h; simp at h
    | ok x =>
      cases hpe : p.encode false with
      | error e => rw [hx, hpe] at h; simp at h
      | ok b =>
        rw [hx, hpe] at h
        simp only [Except.bind_ok', Except.pure_ok', Except.ok.injEq] at h
        obtain ⟨hw, rfl⟩ := NibblePath.encode_wf hpe
        have hi := inj h
        cases t with
        | empty => simp [item] at hi
        | leaf q v =>
          simp only [item, Item.list.injEq, List.cons.injEq, Item.str.injEq, and_true] at hi
          exact absurd (hp_inj hi.1).1 (by simp)
        | ext q c =>
          simp only [item, Item.list.injEq, List.cons.injEq, Item.str.injEq, and_true] at hi
          refine ⟨hw, (hp_inj hi.1).2.symm, ?_⟩
          obtain ⟨_, rfl⟩ := hi
          exact (prepare_ref hx).resolve_right fun e => hsh.child_ne e.1
        | branch cs v =>
          simp only [item, Item.list.injEq] at hi
          have := congrArg List.length hi
          simp at this
  | branch bs d =>
    rw [Node.encode] at h
    cases hx : prepareAll bs with
    | error e => rw [hx] at h; simp at h
    | ok xs =>
      rw [hx] at h
      simp only [Except.bind_ok', Except.pure_ok', Except.ok.injEq] at h
      have hi := inj h
      obtain ⟨h1, h2⟩ := prepareAll_length hx
      cases t with
      | empty => simp [item] at hi
      | leaf q v =>
        simp only [item, Item.list.injEq] at hi
        have hl := congrArg List.length hi
        have h16 : bs.length = 16 := ha
        simp at hl
        omega
      | ext q c =>
        simp only [item, Item.list.injEq] at hi
        have hl := congrArg List.length hi
        have h16 : bs.length = 16 := ha
        simp at hl
        omega
      | branch cs v =>
        simp only [item, Item.list.injEq] at hi
        have hl : xs.length = 16 := by
          have := congrArg List.length hi
          simpa using this.symm
        obtain ⟨h3, h4⟩ := List.append_inj hi (by simp [hl])
        simp only [List.cons.injEq, Item.str.injEq, and_true] at h4
        refine ⟨fun i => ?_, h4.symm⟩
        have hb : i.val < bs.length := by omega
        have hxi : i.val < xs.length := by omega
        refine ⟨bs[i.val], List.getElem?_eq_getElem hb, ?_⟩
        refine prepare_ref (c := cs i) ?_
        rw [h2 i.val hb hxi]
        subst h3
        simp [refItem]

/-- Every entry of a proof storage is the encoding of a node, under the reference of that node; its
re-encoding is listed in `log`. -/
def Genuine (E : Env) (log : List Bytes) (ps : Dict Bytes) : Prop :=
  ∀ k v, dget ps k = some v → ∃ n e, Node.decode v = .ok n ∧ n.encode = .ok e ∧ e ∈ log ∧
    k = if e.length < 32 then e else E.keccak e

theorem proofStorage_genuine {E : Env} {log l : List Bytes} {acc ps : Dict Bytes}
    (hl : ∀ v ∈ l, ∀ e, reenc v = some e → e ∈ log) (ha : Genuine E log acc)
    (h : MPT.proofStorage E l acc = .ok ps) : Genuine E log ps := by
  induction l generalizing acc with
  | nil => simp [MPT.proofStorage] at h; subst h; exact ha
  | cons v l ih =>
    rw [MPT.proofStorage] at h
    cases hd : Node.decode v with
    | error e => rw [hd] at h; simp at h
    | ok n =>
      cases he : n.encode with
      | error e => rw [hd] at h; simp [Node.intoReference, he] at h
      | ok e =>
        have hr : n.intoReference E = .ok (if e.length < 32 then e else E.keccak e) := by
          simp only [Node.intoReference, he, Except.bind_ok', Except.pure_ok']
          split <;> rfl
        rw [hd] at h
        simp only [Except.bind_ok', hr] at h
        refine ih (fun v' hv' => hl v' (by simp [hv'])) ?_ h
        intro k v' hk
        rw [dget_dset] at hk
        by_cases hk' : (if e.length < 32 then e else E.keccak e) = k
        · rw [if_pos hk'] at hk
          cases hk
          exact ⟨n, e, hd, he, hl v (by simp) e (by simp [reenc, hd, he]), hk'.symm⟩
        · rw [if_neg hk'] at hk
          exact ha k v' hk

/-- The node a verifier reads at a reference of a real trie is the real one. -/
theorem genuine_raw {E : Env} {log : List Bytes} (hc : CollFree E log) {ps : Dict Bytes}
    (hg : Genuine E log ps) {t : T} (hne : t ≠ empty) (hsh : t.Shape)
    (hlen : (enc E t).length < 2 ^ 64) (hlog : Logged E log t) {raw : Bytes}
    (h : MPT.rawOf ps (ref E t) = .ok raw) : ∃ n, Node.decode raw = .ok n ∧ Rep' E t n := by
  rw [ref_of_ne hne] at h
  unfold MPT.rawOf at h
  by_cases hl : (enc E t).length < 32
  · rw [if_pos hl, if_neg (by omega)] at h
    cases h
    obtain ⟨n, h1, h2⟩ := decode_enc hne hlen
    exact ⟨n, h1, rep_of_encode hsh hlen (decode_refs h1).1 h2.encode⟩
  · rw [if_neg hl, if_pos (E.keccak_len _), dgetItem] at h
    cases hd : dget ps (E.keccak (enc E t)) with
    | none => rw [hd] at h; simp at h
    | some v =>
      rw [hd] at h
      cases h
      obtain ⟨n, e, h1, h2, h3, h4⟩ := hg _ _ hd
      refine ⟨n, h1, rep_of_encode hsh hlen (decode_refs h1).1 ?_⟩
      split at h4
      · rename_i h5
        have := E.keccak_len (enc E t)
        rw [h4] at this
        omega
      · rw [h2, hc _ ((hlog.here hne).resolve_left hl) e h3 h4]

theorem decode_80 : Node.decode [0x80] = .error .assertion := by decide

/-- Where an accepted walk stopped. -/
def Accepts : T → List Nib → Prop
  | ext _ _, _ => False
  | leaf q _, r => r = [] ∨ q = r
  | branch _ _, r => r = []
  | empty, _ => False

/-- An accepted walk is a walk in the real trie. -/
theorem verifyPoiAux_sound {E : Env} {log : List Bytes} (hc : CollFree E log) {kv ps : Dict Bytes}
    (hg : Genuine E log ps) (f : Nat) {t : T} (hsh : t.Shape) (hne : t ≠ empty) (hst : Stored E kv t)
    (hlog : Logged E log t) {path : NibblePath} (hp : path.WF)
    (h : MPT.verifyPoiAux ps f (ref E t) path = .ok true) :
    Accepts (T.seek t path.nibs).1 (T.seek t path.nibs).2 := by
  induction f generalizing t path with
  | zero => simp [MPT.verifyPoiAux] at h
  | succ f ih =>
    unfold MPT.verifyPoiAux at h
    split at h
    · simp at h
    cases hr : MPT.rawOf ps (ref E t) with
    | error e => rw [hr] at h; simp at h
    | ok raw =>
      obtain ⟨n, h3, hrep⟩ := genuine_raw hc hg hne hsh (enc_len hst) hlog hr
      rw [hr] at h
      simp only [Except.bind_ok', h3, NibblePath.len_spec hp] at h
      cases hpn : path.nibs with
      | nil =>
        simp only [hpn, List.length_nil, if_true] at h
        simp only [seek_nil]
        cases t <;> cases n <;> simp [Rep'] at hrep <;> simp_all [Accepts]
      | cons i p =>
        rw [hpn, if_neg (by simp)] at h
        cases t with
        | empty => exact absurd rfl hne
        | leaf q v =>
          cases n <;> simp only [Rep'] at hrep
          rename_i np d
          obtain ⟨h1, rfl, rfl⟩ := hrep
          simp only [NibblePath.eq_spec h1 hp, hpn, Except.ok.injEq, decide_eq_true_eq] at h
          simp [T.seek, Accepts, h]
        | ext q c =>
          cases n <;> simp only [Rep'] at hrep
          rename_i np nr
          obtain ⟨h1, rfl, rfl⟩ := hrep
          simp only [NibblePath.startsWith_spec hp h1, hpn, Except.bind_ok'] at h
          by_cases hpre : np.nibs <+: i :: p
          · have hpre' := hpre
            rw [← hpn] at hpre'
            simp only [hpre, decide_true, if_true, NibblePath.len_spec h1, Except.bind_ok'] at h
            have := ih hsh.2.2 hsh.child_ne hst.2 hlog.2 (NibblePath.consume_WF hp hpre'.length_le) h
            rw [NibblePath.consume_nibs, hpn] at this
            simpa [T.seek, hpre] using this
          · simp [hpre] at h
        | branch cs v =>
          cases n <;> simp only [Rep'] at hrep
          rename_i bs d
          obtain ⟨hbs, rfl⟩ := hrep
          obtain ⟨r, hri, hr'⟩ := hbs i
          simp only [NibblePath.at_zero hpn, Except.bind_ok', pyIndex, hri] at h
          obtain ⟨hw, hcn⟩ := nibs_cons_consume hp hpn
          rcases hr' with rfl | ⟨he, rfl⟩
          · by_cases he : (cs i).isEmpty = true
            · simp [ref_length_pos, he] at h
            · simp only [ref_length_pos, he, if_true] at h
              have := ih (hsh i) (fun e => he (isEmpty_iff.2 e)) (hst.2 i) (hlog.2 i) hw h
              rw [hcn] at this
              simpa [T.seek, he] using this
          · exfalso
            rw [if_pos (by decide)] at h
            cases f with
            | zero => simp [MPT.verifyPoiAux] at h
            | succ f => simp [MPT.verifyPoiAux, MPT.rawOf, decode_80] at h

/-! ### Nodes on a path have different references -/

/-- Height of a trie. -/
def height : T → Nat
  | empty => 0
  | leaf _ _ => 0
  | ext _ c => height c + 1
  | branch cs _ => ((List.finRange 16).map fun i => height (cs i)).foldr max 0 + 1

theorem le_foldr_max {l : List Nat} {n : Nat} (h : n ∈ l) : n ≤ l.foldr max 0 := by
  induction l with
  | nil => simp at h
  | cons a l ih =>
    simp only [List.foldr_cons]
    rcases List.mem_cons.1 h with rfl | h
    · exact Nat.le_max_left _ _
    · exact Nat.le_trans (ih h) (Nat.le_max_right _ _)

theorem height_child (cs : Nib → T) (v : Bytes) (i : Nib) : height (cs i) < height (branch cs v) := by
  have : height (cs i) ≤ ((List.finRange 16).map fun i => height (cs i)).foldr max 0 :=
    le_foldr_max (List.mem_map.2 ⟨i, List.mem_finRange i, rfl⟩)
  simp only [height]
  omega

theorem trail_height (t : T) (p : List Nib) : ∀ x ∈ trail t p, height x ≤ height t := by
  refine trail_induct (P := fun x => height x ≤ height t) ?_ ?_ (Nat.le_refl _) p
  · intro q c h; simp only [height] at h; omega
  · intro cs v i h; have := height_child cs v i; omega

theorem ref_inj {E : Env} {log : List Bytes} (hc : CollFree E log)
    (hsz : ∀ x ∈ log, x.length < 2 ^ 64) {a b : T} (ha : a ≠ empty) (hb : b ≠ empty)
    (hla : Logged E log a) (hlb : Logged E log b) (h : ref E a = ref E b) : a = b := by
  refine enc_inj hc hsz hla hlb ?_ (enc_of_ref hc ha hb hla hlb h)
  rcases hla.here ha with h0 | h0
  · omega
  · exact hsz _ h0

/-! ### Exclusion proofs -/

/-- The nodes an exclusion proof lists: all on the way, except an extension that leads elsewhere. -/
def shown (t : T) (p : List Nib) : List T :=
  match T.seek t p with
  | (ext _ _, _ :: _) => passed t p
  | _ => trail t p

theorem shown_ext {q : List Nib} {c : T} {i : Nib} {p : List Nib} (h : q <+: i :: p) :
    shown (ext q c) (i :: p) = ext q c :: shown c ((i :: p).drop q.length) := by
  simp only [shown, T.seek, h, if_true, trail, passed]
  split <;> simp_all

theorem shown_branch {cs : Nib → T} {v : Bytes} {i : Nib} {p : List Nib} (h : (cs i).isEmpty ≠ true) :
    shown (branch cs v) (i :: p) = branch cs v :: shown (cs i) p := by
  simp only [shown, T.seek, h, if_false, trail, passed, Bool.false_eq_true]
  split <;> simp_all

theorem getPoeAux_run {E : Env} {kv : Dict Bytes} (f : Nat) {t : T} (hsh : t.Shape) (hne : t ≠ empty)
    (hs : Stored E kv t) {path : NibblePath} (hp : path.WF) (hf : path.nibs.length < f) (acc : List Bytes) :
    ∃ n path', MPT.getPoeAux kv f (ref E t) path acc =
        .ok (n, acc ++ (shown t path.nibs).map (enc E), path') ∧
      Rep E (T.seek t path.nibs).1 n ∧ path'.WF ∧ path'.nibs = (T.seek t path.nibs).2 := by
  induction f generalizing t path acc with
  | zero => omega
  | succ f ih =>
    obtain ⟨n, hn, hrep⟩ := getNode_ref hs hne
    unfold MPT.getPoeAux
    rw [hn, NibblePath.len_spec hp]
    simp only [Except.bind_ok', hrep.encode]
    cases hpn : path.nibs with
    | nil =>
      refine ⟨n, path, ?_, by simpa using hrep, hp, by simpa using hpn⟩
      have : shown t [] = [t] := by cases t <;> rfl
      simp [this]
    | cons i p =>
      rw [if_neg (by simp)]
      cases t with
      | empty => exact absurd rfl hne
      | leaf q v =>
        cases n <;> simp only [Rep] at hrep
        rename_i np d
        exact ⟨.leaf np d, path, by simp [shown, T.seek, trail, passed], hrep, hp, hpn⟩
      | ext q c =>
        cases n <;> simp only [Rep] at hrep
        rename_i np nr
        obtain ⟨h1, rfl, rfl⟩ := hrep
        simp only [NibblePath.startsWith_spec hp h1, hpn, Except.bind_ok']
        by_cases hpre : np.nibs <+: i :: p
        · have hpre' := hpre
          rw [← hpn] at hpre'
          simp only [hpre, decide_true, if_true, NibblePath.len_spec h1, Except.bind_ok']
          obtain ⟨n', path', g1, g2, g3, g4⟩ := ih hsh.2.2 hsh.child_ne hs.2 (NibblePath.consume_WF hp hpre'.length_le)
            (by rw [NibblePath.consume_nibs]; exact drop_len hsh.1 hpre' hf) (acc ++ [enc E (ext np.nibs c)])
          rw [NibblePath.consume_nibs, hpn] at g1 g2 g4
          refine ⟨n', path', ?_, by simpa [T.seek, hpre] using g2, g3, by simpa [T.seek, hpre] using g4⟩
          rw [g1, shown_ext hpre]
          simp
        · refine ⟨.ext np (ref E c), path, ?_, by simp [T.seek, hpre, Rep, h1], hp, by simp [T.seek, hpre, hpn]⟩
          simp [hpre, shown, T.seek, passed]
      | branch cs v =>
        cases n <;> simp only [Rep] at hrep
        rename_i bs d
        obtain ⟨rfl, rfl⟩ := hrep
        simp only [NibblePath.at_zero hpn, Except.bind_ok', refs_get, ref_length_pos]
        obtain ⟨hw, hc⟩ := nibs_cons_consume hp hpn
        by_cases he : (cs i).isEmpty = true
        · refine ⟨.branch (refs E cs) d, path, ?_, by simp [T.seek, he, Rep], hp, by simp [T.seek, he, hpn]⟩
          simp [he, shown, T.seek, trail, passed]
        · simp only [he, if_true]
          obtain ⟨n', path', g1, g2, g3, g4⟩ := ih (hsh i) (fun e => he (isEmpty_iff.2 e)) (hs.2 i) hw
            (by rw [hc]; rw [hpn] at hf; simp at hf; omega) (acc ++ [enc E (branch cs d)])
          rw [hc] at g1 g2 g4
          refine ⟨n', path', ?_, by simpa [T.seek, he] using g2, g3, by simpa [T.seek, he] using g4⟩
          rw [g1, shown_branch he]
          simp

/-- Take the nodes out of a dictionary. -/
def takeOut (E : Env) (xs : List T) (d : Dict Bytes) : Dict Bytes :=
  xs.foldl (fun d x => ddel d (ref E x)) d

theorem dget_takeOut {E : Env} {xs : List T} {k : Bytes} (d : Dict Bytes) :
    dget (takeOut E xs d) k = if ∃ x ∈ xs, ref E x = k then none else dget d k := by
  induction xs generalizing d with
  | nil => simp [takeOut]
  | cons x xs ih =>
    have : takeOut E (x :: xs) d = takeOut E xs (ddel d (ref E x)) := rfl
    rw [this, ih, dget_ddel]
    by_cases h1 : ∃ y ∈ xs, ref E y = k
    · have : ∃ y ∈ x :: xs, ref E y = k := by
        obtain ⟨y, hy, he⟩ := h1; exact ⟨y, by simp [hy], he⟩
      rw [if_pos h1, if_pos this]
    · rw [if_neg h1]
      by_cases h2 : ref E x = k
      · rw [if_pos h2, if_pos ⟨x, by simp, h2⟩]
      · rw [if_neg h2, if_neg]
        rintro ⟨y, hy, he⟩
        rcases List.mem_cons.1 hy with rfl | hy
        · exact h2 he
        · exact h1 ⟨y, hy, he⟩

theorem nil_of_dget {d : Dict Bytes} (h : ∀ k, dget d k = none) : d = [] := by
  cases d with
  | nil => rfl
  | cons e d => have := h e.1; simp [dget] at this

theorem dget_enter_nil {E : Env} {xs : List T} {k : Bytes} (h : ∀ x ∈ xs, ref E x ≠ k) :
    dget (enter E xs []) k = none := by
  rw [dget_enter_other h]; rfl

/-- All nodes of a proof are used up. -/
theorem takeOut_enter (E : Env) (xs : List T) : takeOut E xs (enter E xs []) = [] := by
  refine nil_of_dget fun k => ?_
  rw [dget_takeOut]
  split
  · rfl
  · rename_i h
    exact dget_enter_nil fun x hx e => h ⟨x, hx, e⟩

/-- Assumptions under which nodes are named by their references. -/
structure Named (E : Env) (log : List Bytes) : Prop where
  coll : CollFree E log
  size : ∀ x ∈ log, x.length < 2 ^ 64

theorem raw_of_dget {E : Env} {ps : Dict Bytes} {t : T} (hne : t ≠ empty)
    (hlen : (enc E t).length < 2 ^ 64) (h : dget ps (ref E t) = some (enc E t)) :
    ∃ n, MPT.rawOf ps (ref E t) = .ok (enc E t) ∧ Node.decode (enc E t) = .ok n ∧ Rep E t n := by
  obtain ⟨n, h1, h2⟩ := decode_enc hne hlen
  refine ⟨n, ?_, h1, h2⟩
  unfold MPT.rawOf
  split
  · rw [dgetItem, h]
  · rename_i hl
    rw [ref_of_ne hne] at hl ⊢
    split
    · rfl
    · rename_i h3; rw [if_neg h3] at hl; exact absurd (E.keccak_len _) hl

theorem verifyPoeAux_run {E : Env} {log : List Bytes} (hlg : Named E log) (f : Nat) {t : T}
    (hsh : t.Shape) (hne : t ≠ empty) (hlog : Logged E log t) {path : NibblePath} {ps : Dict Bytes}
    (hs : ∀ x ∈ trail t path.nibs, dget ps (ref E x) = some (enc E x)) (hp : path.WF)
    (hf : path.nibs.length < f) :
    ∃ n, MPT.verifyPoeAux f (ref E t) path ps = .ok (some n, takeOut E (trail t path.nibs) ps) ∧
      Rep E (T.seek t path.nibs).1 n := by
  have hlen : (enc E t).length < 2 ^ 64 := by
    rcases hlog.here hne with h0 | h0
    · omega
    · exact hlg.size _ h0
  induction f generalizing t path ps with
  | zero => omega
  | succ f ih =>
    obtain ⟨l, hl⟩ := trail_head (t := t) path.nibs
    have hget := hs t (by rw [hl]; simp)
    obtain ⟨n, h2, h3, hrep⟩ := raw_of_dget hne hlen hget
    unfold MPT.verifyPoeAux
    rw [if_neg (by simp [hget]), h2]
    simp only [Except.bind_ok', h3, NibblePath.len_spec hp, hget]
    simp only [reduceCtorEq, if_false]
    have hkid : ∀ c p, c ≠ empty → c.Shape → height c < height t → Logged E log c →
        (∀ x ∈ trail c p, dget ps (ref E x) = some (enc E x)) →
        ∀ x ∈ trail c p, dget (ddel ps (ref E t)) (ref E x) = some (enc E x) := by
      intro c p hcn hcs hh hlc hx x hxm
      rw [dget_ddel, if_neg, hx x hxm]
      intro e
      have hxe := trail_ne_empty hcs hcn p x hxm
      have := ref_inj hlg.coll hlg.size hne hxe hlog (trail_logged hlc p x hxm) e
      subst this
      have := trail_height c p t hxm
      omega
    have hclen : ∀ c, Logged E log c → c ≠ empty → (enc E c).length < 2 ^ 64 := by
      intro c hc hcn
      rcases hc.here hcn with h0 | h0
      · omega
      · exact hlg.size _ h0
    cases hpn : path.nibs with
    | nil =>
      have : trail t [] = [t] := by simp [trail]
      exact ⟨n, by simp [this, takeOut], by simpa using hrep⟩
    | cons i p =>
      rw [if_neg (by simp)]
      rw [hpn] at hs
      cases t with
      | empty => exact absurd rfl hne
      | leaf q v =>
        cases n <;> simp only [Rep] at hrep
        rename_i np d
        exact ⟨.leaf np d, by simp [trail, T.seek, passed, takeOut], hrep⟩
      | ext q c =>
        cases n <;> simp only [Rep] at hrep
        rename_i np nr
        obtain ⟨h1, rfl, rfl⟩ := hrep
        simp only [NibblePath.startsWith_spec hp h1, hpn, Except.bind_ok']
        by_cases hpre : np.nibs <+: i :: p
        · have hpre' := hpre
          rw [← hpn] at hpre'
          simp only [hpre, decide_true, if_true, NibblePath.len_spec h1, Except.bind_ok']
          rw [trail_ext hpre] at hs ⊢
          have hcs : ∀ x ∈ trail c ((i :: p).drop np.nibs.length), dget ps (ref E x) = some (enc E x) :=
            fun x hx => hs x (List.mem_cons_of_mem _ hx)
          have hk := hkid c _ hsh.child_ne hsh.2.2 (by simp [height]) hlog.2 hcs
          obtain ⟨n', g1, g2⟩ := ih (path := path.consume np.nibs.length) hsh.2.2 hsh.child_ne hlog.2
            (by rw [NibblePath.consume_nibs, hpn]; exact hk) (NibblePath.consume_WF hp hpre'.length_le)
            (by rw [NibblePath.consume_nibs]; exact drop_len hsh.1 hpre' hf) (hclen c hlog.2 hsh.child_ne)
          rw [NibblePath.consume_nibs, hpn] at g1 g2
          exact ⟨n', by rw [g1]; rfl, by simpa [T.seek, hpre] using g2⟩
        · exact ⟨.ext np (ref E c), by simp [hpre, trail, T.seek, passed, takeOut],
            by simp [T.seek, hpre, Rep, h1]⟩
      | branch cs v =>
        cases n <;> simp only [Rep] at hrep
        rename_i bs d
        obtain ⟨rfl, rfl⟩ := hrep
        simp only [NibblePath.at_zero hpn, Except.bind_ok', refs_get, ref_length_pos]
        obtain ⟨hw, hc⟩ := nibs_cons_consume hp hpn
        by_cases he : (cs i).isEmpty = true
        · exact ⟨.branch (refs E cs) d, by simp [he, trail, T.seek, passed, takeOut],
            by simp [T.seek, he, Rep]⟩
        · have hci : cs i ≠ empty := fun e => he (isEmpty_iff.2 e)
          simp only [he, if_true]
          rw [trail_branch he] at hs ⊢
          have hcs : ∀ x ∈ trail (cs i) p, dget ps (ref E x) = some (enc E x) :=
            fun x hx => hs x (List.mem_cons_of_mem _ hx)
          have hk := hkid (cs i) _ hci (hsh i) (height_child cs d i) (hlog.2 i) hcs
          obtain ⟨n', g1, g2⟩ := ih (path := path.consume 1) (hsh i) hci (hlog.2 i)
            (by rw [hc]; exact hk) hw (by rw [hc]; rw [hpn] at hf; simp at hf; omega)
            (hclen _ (hlog.2 i) hci)
          rw [hc] at g1 g2
          exact ⟨n', by rw [g1]; rfl, by simpa [T.seek, he] using g2⟩

end T
end Pymt
