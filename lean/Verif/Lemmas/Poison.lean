import Verif.Lemmas.Dynamic
import Verif.Lemmas.Read
import Verif.Lemmas.Delete

/-!
# Lemmas: tries with a list in one of their leaves
-/

namespace Pymt

/-- A reference that goes through `_prepare_reference_for_encoding` and `_prepare_reference_for_usage` unchanged. -/
def Prep (ref : Bytes) : Prop := ∃ it, prepareForEncoding ref = .ok it ∧ prepareForUsage it = ref

theorem prep_ref (E : Env) (t : T) : Prep (T.ref E t) := ⟨_, T.encoding_ref E t, T.usage_refItem E t⟩

theorem prepareAll_prep : (l : List Bytes) → (∀ r ∈ l, Prep r) →
    ∃ rs, prepareAll l = .ok rs ∧ rs.map prepareForUsage = l
  | [], _ => ⟨[], rfl, rfl⟩
  | r :: l, h => by
    obtain ⟨it, h1, h2⟩ := h r (by simp)
    obtain ⟨rs, h3, h4⟩ := prepareAll_prep l (fun r hr => h r (List.mem_cons_of_mem _ hr))
    exact ⟨it :: rs, by simp [prepareAll, h1, h3], by simp [h2, h4]⟩

/-- The reference of an encoded list, and the storage with it (`_store_node`, `/repo/src/pymt/mpt.py:1224-1241`). -/
def named (E : Env) (w : Bytes) (st : Store) : Bytes × Store :=
  if w.length < 32 then (w, st) else (E.keccak w, st.set (E.keccak w) w)

theorem storeNode_named {E : Env} {n : Node} {w : Bytes} (h : n.encode = .ok w) (st : Store) :
    MPT.storeNode E n st = (.ok (named E w st).1, (named E w st).2) := by
  unfold MPT.storeNode Node.intoReference named
  rw [h]
  by_cases hl : w.length < 32
  · have : w.length ≠ 32 := by omega
    simp [hl, this]
  · simp [hl, E.keccak_len]

theorem storeLeafVal_named {E : Env} {p : NibblePath} (hw : p.WF) {v : Val} {i : Item} (h : v.item = .ok i)
    (st : Store) : MPT.storeLeafVal E p v st =
      (.ok (named E (Item.encode (.list [.str (hp true p.nibs), i])) st).1,
        (named E (Item.encode (.list [.str (hp true p.nibs), i])) st).2) := by
  unfold MPT.storeLeafVal named
  simp only [M.bind_apply, M.lift_apply, NibblePath.encode_spec hw, h]
  by_cases hl : (Item.encode (.list [.str (Pymt.hp true p.nibs), i])).length < 32
  · have : (Item.encode (.list [.str (Pymt.hp true p.nibs), i])).length ≠ 32 := by omega
    simp [hl, this]
  · simp [hl, E.keccak_len]

theorem named_spec {E : Env} {l : List Item} {st : Store}
    (hl : LogOk E (named E (Item.encode (.list l)) st).2.written) :
    rlpDecode (Item.encode (.list l)) = .ok (.list l) ∧
    MPT.getNode (named E (Item.encode (.list l)) st).2.kv (named E (Item.encode (.list l)) st).1 =
      Node.decode (Item.encode (.list l)) ∧
    Prep (named E (Item.encode (.list l)) st).1 ∧ (named E (Item.encode (.list l)) st).1 ≠ [] := by
  unfold named at hl ⊢
  by_cases h : (Item.encode (.list l)).length < 32
  · rw [if_pos h] at hl ⊢
    have hd := rlpDecode_encode (.list l) (Nat.lt_of_lt_of_le h (by decide))
    refine ⟨hd, ?_, ⟨.list l, ?_, rfl⟩, Item.encode_ne_nil _⟩
    · have : (Item.encode (.list l)).length ≠ 32 := by omega
      simp [MPT.getNode, this]
    · rw [prepareForEncoding, if_pos ⟨Item.encode_length_pos _, h⟩, hd]
  · rw [if_neg h] at hl ⊢
    refine ⟨rlpDecode_encode (.list l) (hl.size _ (by simp [Store.set])), ?_, ⟨.str _, ?_, rfl⟩, ?_⟩
    · simp [MPT.getNode, E.keccak_len, dgetItem, Store.set, dget_dset]
    · rw [prepareForEncoding, if_neg (by rw [E.keccak_len]; omega)]
    · intro e
      have := E.keccak_len (Item.encode (.list l))
      simp only at e
      rw [e] at this
      simp at this

theorem getNode_mono {kv kv' : Dict Bytes} (hs : ∀ k v, dget kv k = some v → dget kv' k = some v) {ref : Bytes}
    (h : MPT.getNode kv ref ≠ .error .keyError) : MPT.getNode kv' ref = MPT.getNode kv ref := by
  unfold MPT.getNode at h ⊢
  by_cases h32 : ref.length = 32
  · rw [if_pos h32] at h
    rw [if_pos h32, if_pos h32]
    unfold dgetItem at h ⊢
    cases hd : dget kv ref with
    | none => rw [hd] at h; exact absurd rfl h
    | some v => rw [hs _ _ hd]
  · rw [if_neg h32, if_neg h32]

namespace T

/-- The reference names a trie like `t`, except that the leaf at path `p` holds a list. -/
inductive Sim (E : Env) (kv : Dict Bytes) : Bytes → T → List Nib → Prop
  | leaf {ref : Bytes} (q : List Nib) (w : Bytes) (h : MPT.getNode kv ref = .error .typeError) :
      Sim E kv ref (leaf q w) q
  | ext {ref r : Bytes} {np : NibblePath} {c : T} {p : List Nib} (h : MPT.getNode kv ref = .ok (.ext np r))
      (hw : np.WF) (hne : np.nibs ≠ []) (hc : Sim E kv r c p) : Sim E kv ref (ext np.nibs c) (np.nibs ++ p)
  | branch {ref r d : Bytes} {cs : Nib → T} {i : Nib} {p : List Nib}
      (h : MPT.getNode kv ref = .ok (.branch ((refs E cs).set i.val r) d)) (hr : r ≠ [])
      (hs : ∀ j, j ≠ i → Stored E kv (cs j)) (hsh : ∀ j, (cs j).Shape) (hc : Sim E kv r (cs i) p) :
      Sim E kv ref (branch cs d) (i :: p)

theorem Sim.mono {E : Env} {kv kv' : Dict Bytes} (hs : ∀ k v, dget kv k = some v → dget kv' k = some v)
    {ref : Bytes} {t : T} {p : List Nib} (h : Sim E kv ref t p) : Sim E kv' ref t p := by
  induction h with
  | leaf q w h => exact .leaf q w (by rw [getNode_mono hs (by rw [h]; simp), h])
  | ext h hw hne _ ih => exact .ext (by rw [getNode_mono hs (by rw [h]; simp), h]) hw hne ih
  | branch h hr hst hsh _ ih =>
    exact .branch (by rw [getNode_mono hs (by rw [h]; simp), h]) hr (fun j hj => (hst j hj).mono hs) hsh ih

theorem refs_set_get (E : Env) (cs : Nib → T) (i : Nib) (r : Bytes) (j : Nib) :
    pyIndex ((refs E cs).set i.val r) j.val = .ok (if j = i then r else ref E (cs j)) := by
  have hl : (refs E cs).length = 16 := by simp [refs]
  have : ((refs E cs).set i.val r)[j.val]? = some (if j = i then r else ref E (cs j)) := by
    rw [List.getElem?_set]
    by_cases h : j = i
    · subst h; simp [hl]
    · have h' : i.val ≠ j.val := fun e => h (Fin.ext e.symm)
      simp [h, h', refs]
  rw [pyIndex, this]

/-- The list is in the way of the lookups of its own key. -/
theorem Sim.bad {E : Env} {kv : Dict Bytes} {ref : Bytes} {t : T} {p : List Nib} (h : Sim E kv ref t p)
    {f : Nat} {path : NibblePath} (hp : path.WF) (hn : path.nibs = p) (hf : p.length < f) :
    MPT.getAux kv f ref path = .error .typeError ∧ MPT.containsAux false kv f ref path = .error .typeError := by
  induction h generalizing f path with
  | leaf q w h =>
    cases f with
    | zero => omega
    | succ f => unfold MPT.getAux MPT.containsAux; rw [h]; exact ⟨rfl, rfl⟩
  | @ext ref r np c p h hw hne _ ih =>
    cases f with
    | zero => omega
    | succ f =>
      have hpre : np.nibs <+: path.nibs := by rw [hn]; exact List.prefix_append _ _
      have hlen : path.nibs.length ≠ 0 := by
        rw [hn, List.length_append]
        have := List.length_pos_iff.2 hne
        omega
      have hA : (path.consume np.nibs.length).WF := NibblePath.consume_WF hp hpre.length_le
      have hAn : (path.consume np.nibs.length).nibs = p := by rw [NibblePath.consume_nibs, hn]; simp
      have := ih (f := f) hA hAn (by
        rw [List.length_append] at hf
        have := List.length_pos_iff.2 hne
        omega)
      unfold MPT.getAux MPT.containsAux
      rw [h]
      simp only [Except.bind_ok', NibblePath.len_spec hp, hlen, if_false, NibblePath.startsWith_spec hp hw, hpre,
        decide_true, if_true, NibblePath.len_spec hw, Bool.false_eq_true]
      exact this
  | @branch ref r d cs i p h hr _ _ _ ih =>
    cases f with
    | zero => omega
    | succ f =>
      obtain ⟨hA, hAn⟩ := nibs_cons_consume hp hn
      have := ih (f := f) hA hAn (by simp only [List.length_cons] at hf; omega)
      have hpos : r.length > 0 := List.length_pos_iff.2 hr
      unfold MPT.getAux MPT.containsAux
      rw [h]
      simp only [Except.bind_ok', NibblePath.len_spec hp, hn, List.length_cons, Nat.succ_ne_zero, if_false,
        NibblePath.at_zero hn, refs_set_get, if_true, hpos, Bool.false_eq_true]
      exact this

/-- `_get` of a key of the trie. -/
theorem getAux_present {E : Env} {kv : Dict Bytes} (f : Nat) {t : T} (hsh : t.Shape)
    (hs : Stored E kv t) {path : NibblePath} (hp : path.WF) (hf : path.nibs.length < f) {w : Bytes}
    (hl : lookup t path.nibs = some w) :
    ∃ n, MPT.getAux kv f (ref E t) path = .ok n ∧ ((∃ q, n = .leaf q w) ∨ ∃ bs, n = .branch bs w) := by
  have hne : t ≠ empty := by rintro rfl; simp [lookup] at hl
  have hrun := getAux_run f hsh hne hs hp hf
  have hst := seek_stuck hsh hne path.nibs
  have hs' := hsh.seek path.nibs
  rw [lookup_seek] at hl
  generalize T.seek t path.nibs = s at *
  obtain ⟨x, r⟩ := s
  simp only at hl hst hs' hrun
  have hx : (∃ q, x = leaf q w ∧ q = r) ∨ (∃ cs, x = branch cs w ∧ r = []) := by
    cases x with
    | empty => simp [lookup] at hl
    | leaf q v =>
      simp only [lookup] at hl
      split at hl
      · rename_i e
        simp only [Option.some.injEq] at hl
        exact .inl ⟨q, by rw [hl], e⟩
      · exact absurd hl (by simp)
    | ext q c =>
      rcases hst with rfl | h0
      · simp [lookup, hs'.1] at hl
      · simp [lookup_ext_none c h0] at hl
    | branch cs d =>
      rcases hst with rfl | ⟨i, r', rfl, h1⟩
      · simp only [lookup] at hl
        split at hl
        · exact absurd hl (by simp)
        · simp only [Option.some.injEq] at hl
          exact .inr ⟨cs, by rw [hl], rfl⟩
      · simp [lookup, h1] at hl
  rcases hx with ⟨q, rfl, rfl⟩ | ⟨cs, rfl, rfl⟩
  · have : found (leaf q w) q = .ok (leaf q w) := by cases q <;> simp [found]
    rw [this] at hrun
    obtain ⟨n, h1, h2⟩ := hrun
    cases n <;> simp only [Rep] at h2
    obtain ⟨_, _, rfl⟩ := h2
    exact ⟨_, h1, .inl ⟨_, rfl⟩⟩
  · have : found (branch cs w) [] = .ok (branch cs w) := rfl
    rw [this] at hrun
    obtain ⟨n, h1, h2⟩ := hrun
    cases n <;> simp only [Rep] at h2
    obtain ⟨_, rfl⟩ := h2
    exact ⟨_, h1, .inr ⟨_, rfl⟩⟩

/-- The list is not in the way of other keys of the trie. -/
theorem Sim.get {E : Env} {kv : Dict Bytes} {ref : Bytes} {t : T} {p : List Nib} (h : Sim E kv ref t p)
    {f : Nat} {path : NibblePath} (hp : path.WF) (hn : path.nibs ≠ p) (hf : path.nibs.length < f) {w : Bytes}
    (hl : lookup t path.nibs = some w) :
    ∃ n, MPT.getAux kv f ref path = .ok n ∧ ((∃ q, n = .leaf q w) ∨ ∃ bs, n = .branch bs w) := by
  induction h generalizing f path with
  | leaf q w h =>
    simp only [lookup] at hl
    split at hl
    · rename_i e; exact absurd e.symm hn
    · exact absurd hl (by simp)
  | @ext ref r np c p h hw hne _ ih =>
    cases f with
    | zero => omega
    | succ f =>
      have hpre : np.nibs <+: path.nibs := by
        apply Classical.byContradiction
        intro g
        rw [lookup_ext_none c g] at hl
        exact absurd hl (by simp)
      have hpos := List.length_pos_iff.2 hne
      have hle := hpre.length_le
      have hlen : path.nibs.length ≠ 0 := by omega
      have hA : (path.consume np.nibs.length).WF := NibblePath.consume_WF hp hpre.length_le
      have hAn : (path.consume np.nibs.length).nibs = path.nibs.drop np.nibs.length := NibblePath.consume_nibs _ _
      have := ih (f := f) hA (by
        rw [hAn]
        intro e
        apply hn
        rw [← e]
        exact List.prefix_iff_eq_append.1 hpre |>.symm) (by rw [hAn, List.length_drop]; omega) (by
        rw [hAn, ← hl]
        simp only [lookup, hpre, if_true])
      unfold MPT.getAux
      rw [h]
      simp only [Except.bind_ok', NibblePath.len_spec hp, hlen, if_false, NibblePath.startsWith_spec hp hw, hpre,
        decide_true, if_true, NibblePath.len_spec hw]
      exact this
  | @branch ref r d cs i p h hr hst hsh _ ih =>
    cases f with
    | zero => omega
    | succ f =>
      unfold MPT.getAux
      rw [h]
      cases hpn : path.nibs with
      | nil =>
        simp only [Except.bind_ok', NibblePath.len_spec hp, hpn, List.length_nil, if_true, Except.pure_ok']
        rw [hpn] at hl
        simp only [lookup] at hl
        split at hl
        · exact absurd hl (by simp)
        · simp only [Option.some.injEq] at hl
          subst hl
          exact ⟨_, rfl, .inr ⟨_, rfl⟩⟩
      | cons j q =>
        obtain ⟨hA, hAn⟩ := nibs_cons_consume hp hpn
        have hlj : lookup (cs j) q = some w := by rw [hpn] at hl; exact hl
        have hlt : q.length < f := by rw [hpn] at hf; simp only [List.length_cons] at hf; omega
        simp only [Except.bind_ok', NibblePath.len_spec hp, hpn, List.length_cons, Nat.succ_ne_zero, if_false,
          NibblePath.at_zero hpn, refs_set_get]
        by_cases hj : j = i
        · subst hj
          have hpos : r.length > 0 := List.length_pos_iff.2 hr
          simp only [if_true, hpos]
          refine ih hA (by rw [hAn]; intro e; exact hn (by rw [hpn, e])) (by rw [hAn]; exact hlt) (by rw [hAn]; exact hlj)
        · have hne : cs j ≠ empty := by intro e; rw [e] at hlj; simp [lookup] at hlj
          have hpos : (T.ref E (cs j)).length > 0 := List.length_pos_iff.2 (ref_ne_nil hne)
          simp only [if_neg hj, hpos, if_true]
          exact getAux_present f (hsh j) (hst j hj) hA (by rw [hAn]; exact hlt) (by rw [hAn]; exact hlj)

theorem updateValAux_list {E : Env} (f : Nat) {t : T} (hsh : t.Shape) {st st' : Store} {r : Py Bytes}
    {path : NibblePath} (hp : path.WF) {v : Val} {l : List Item} (hv : v.item = .ok (.list l))
    (hf : path.nibs.length < f) (hk : kind t path.nibs = .leaf)
    (hrun : MPT.updateValAux E f (ref E t) path v st = (r, st'))
    (hg : Good E st) (hl : LogOk E st'.written) (hs : Stored E st.kv t) :
    ∃ ref', r = .ok ref' ∧ ref' ≠ [] ∧ Prep ref' ∧ Sim E st'.kv ref' t path.nibs := by
  induction f generalizing t path st' r with
  | zero => omega
  | succ f ih =>
    have hstep := step_writes (Writes.updateValAux _ _ _ _) hrun hg hl
    have hne : t ≠ empty := by rintro rfl; simp [kind] at hk
    have hc : ¬ (ref E t = [] ∨ ref E t = emptyHash E) := by
      rintro (h | h)
      · exact ref_ne_nil hne h
      · exact ref_ne_emptyHash hg hstep.log hs hne h
    unfold MPT.updateValAux at hrun
    simp only [if_neg hc] at hrun
    obtain ⟨n, hn, hrep⟩ := getNodeM_ref hs hne
    simp only [M.bind_apply, hn] at hrun
    cases t with
    | empty => exact absurd rfl hne
    | leaf q w =>
      cases n <;> simp only [Rep] at hrep
      rename_i np d
      obtain ⟨hnp, rfl, rfl⟩ := hrep
      have he : np.nibs = path.nibs := by
        apply Classical.byContradiction
        intro g
        simp only [kind, if_neg g] at hk
        split at hk <;> exact absurd hk (by simp)
      simp only [M.bind_apply, M.lift_apply, NibblePath.eq_spec hnp hp, he, decide_true, if_true,
        storeLeafVal_named hnp hv, Prod.mk.injEq] at hrun
      obtain ⟨rfl, rfl⟩ := hrun
      obtain ⟨g1, g2, g3, g4⟩ := named_spec hl
      refine ⟨_, rfl, g4, g3, ?_⟩
      rw [he]
      refine .leaf _ _ ?_
      rw [g2]
      obtain ⟨p', h1, _⟩ := NibblePath.decodeWithType_spec true path.nibs
      unfold Node.decode
      rw [g1]
      simp [h1, Node.asBytes]
    | ext q c =>
      cases n <;> simp only [Rep] at hrep
      rename_i np nr
      obtain ⟨hnp, rfl, rfl⟩ := hrep
      have he : np.nibs <+: path.nibs := by
        apply Classical.byContradiction
        intro g
        simp only [kind, if_neg g] at hk
        split at hk <;> exact absurd hk (by simp)
      simp only [kind, if_pos he] at hk
      have hA : (path.consume np.nibs.length).WF := NibblePath.consume_WF hp he.length_le
      have hAn : (path.consume np.nibs.length).nibs = path.nibs.drop np.nibs.length :=
        NibblePath.consume_nibs _ _
      have hlen : (path.consume np.nibs.length).nibs.length < f := by
        rw [hAn, List.length_drop]
        have : 0 < np.nibs.length := List.length_pos_iff.2 hsh.1
        have := he.length_le
        omega
      simp only [M.bind_apply, M.lift_apply, NibblePath.startsWith_spec hp hnp, he, decide_true, if_true,
        NibblePath.len_spec hnp] at hrun
      cases hrec : MPT.updateValAux E f (ref E c) (path.consume np.nibs.length) v st with
      | mk r1 st1 =>
        rw [hrec] at hrun
        have hg1 : Good E st1 := good_writes (Writes.updateValAux _ _ _ _) hrec hg
        have hl1 : LogOk E st1.written := by
          cases r1 with
          | error e =>
            simp only [Prod.mk.injEq] at hrun
            rw [hrun.2]; exact hl
          | ok x => exact (step_writes (Writes.storeNode _) hrun hg1 hl).log
        obtain ⟨x, rfl, hx0, ⟨it, hx1, hx2⟩, hx3⟩ := ih hsh.2.2 hA hlen (by rw [hAn]; exact hk) hrec hl1 hs.2
        simp only at hrun
        have henc : (Node.ext np x).encode = .ok (Item.encode (.list [.str (Pymt.hp false np.nibs), it])) := by
          rw [Node.encode, hx1, NibblePath.encode_spec hnp]; rfl
        have hst2 := step_writes (Writes.storeNode _) hrun hg1 hl
        rw [storeNode_named henc] at hrun
        simp only [Prod.mk.injEq] at hrun
        obtain ⟨rfl, rfl⟩ := hrun
        obtain ⟨g1, g2, g3, g4⟩ := named_spec hl
        refine ⟨_, rfl, g4, g3, ?_⟩
        obtain ⟨p', h1, h2, h3⟩ := NibblePath.decodeWithType_spec false np.nibs
        have hdec : Node.decode (Item.encode (.list [.str (Pymt.hp false np.nibs), it])) = .ok (.ext p' x) := by
          unfold Node.decode
          rw [g1]
          simp [h1, hx2]
        rw [hdec] at g2
        have hsim := Sim.ext g2 h2 (by rw [h3]; exact hsh.1) (hx3.mono hst2.keep)
        rw [hAn, h3] at hsim
        rw [List.prefix_iff_eq_append.1 he] at hsim
        exact hsim
    | branch cs w =>
      cases n <;> simp only [Rep] at hrep
      rename_i bs d
      obtain ⟨rfl, rfl⟩ := hrep
      simp only [M.bind_apply, M.lift_apply, NibblePath.len_spec hp] at hrun
      cases hn : path.nibs with
      | nil => rw [hn] at hk; simp [kind] at hk
      | cons i p =>
        obtain ⟨hA, hAn⟩ := nibs_cons_consume hp hn
        have hlen : (path.consume 1).nibs.length < f := by
          rw [hAn]; rw [hn] at hf; simp at hf; omega
        rw [hn] at hk
        simp only [kind] at hk
        simp only [hn, List.length_cons, Nat.succ_ne_zero, if_false, M.bind_apply, M.lift_apply,
          NibblePath.at_zero hn, refs_get] at hrun
        have hpy : ∀ x, pySet (refs E cs) i.val x = .ok ((refs E cs).set i.val x) := by
          intro x
          rw [pySet, if_pos (by simp [refs])]
        cases hrec : MPT.updateValAux E f (ref E (cs i)) (path.consume 1) v st with
        | mk r1 st1 =>
          rw [hrec] at hrun
          have hg1 : Good E st1 := good_writes (Writes.updateValAux _ _ _ _) hrec hg
          have hl1 : LogOk E st1.written := by
            cases r1 with
            | error e =>
              simp only [Prod.mk.injEq] at hrun
              rw [hrun.2]; exact hl
            | ok x =>
              simp only [hpy] at hrun
              exact (step_writes (Writes.storeNode _) hrun hg1 hl).log
          obtain ⟨x, rfl, hx0, hx1, hx3⟩ := ih (hsh i) hA hlen (by rw [hAn]; exact hk) hrec hl1 (hs.2 i)
          simp only [hpy] at hrun
          obtain ⟨rs, h1, h2⟩ := prepareAll_prep ((refs E cs).set i.val x) (by
            intro r hr
            rcases List.mem_or_eq_of_mem_set hr with hr | rfl
            · simp only [refs, List.mem_map] at hr
              obtain ⟨j, _, rfl⟩ := hr
              exact prep_ref E _
            · exact hx1)
          have henc : (Node.branch ((refs E cs).set i.val x) d).encode = .ok (Item.encode (.list (rs ++ [.str d]))) := by
            rw [Node.encode, h1]; rfl
          have hst2 := step_writes (Writes.storeNode _) hrun hg1 hl
          rw [storeNode_named henc] at hrun
          simp only [Prod.mk.injEq] at hrun
          obtain ⟨rfl, rfl⟩ := hrun
          obtain ⟨g1, g2, g3, g4⟩ := named_spec hl
          refine ⟨_, rfl, g4, g3, ?_⟩
          have hrl : rs.length = 16 := by
            have := congrArg List.length h2
            simpa [refs] using this
          have hdec : Node.decode (Item.encode (.list (rs ++ [.str d]))) = .ok (.branch ((refs E cs).set i.val x) d) := by
            unfold Node.decode
            rw [g1]
            simp only [Except.bind_ok', List.length_append, hrl, List.length_cons, List.length_nil, Nat.reduceAdd,
              if_true]
            rw [List.getElem?_append_right (by rw [hrl]; exact Nat.le_refl _), hrl,
              List.take_append_of_le_length (by rw [hrl]; exact Nat.le_refl _),
              List.take_of_length_le (by rw [hrl]; exact Nat.le_refl _), h2]
            rfl
          rw [hdec] at g2
          have hsim := Sim.branch g2 hx0 (fun j _ => hstep.stored (hs.2 j)) hsh (hx3.mono hst2.keep)
          rw [hAn] at hsim
          exact hsim

theorem Sim.node {E : Env} {kv : Dict Bytes} {ref : Bytes} {t : T} {p : List Nib} (h : Sim E kv ref t p) :
    MPT.getNode kv ref ≠ .error .keyError ∧ MPT.getNode kv ref ≠ .error .assertion := by
  cases h with
  | leaf q w h => rw [h]; simp
  | ext h => rw [h]; simp
  | branch h => rw [h]; simp

theorem Sim.ne_emptyHash {E : Env} {st : Store} {ref : Bytes} {t : T} {p : List Nib} (h : Sim E st.kv ref t p)
    (hg : Good E st) (hl : LogOk E st.written) : ref ≠ emptyHash E := by
  rintro rfl
  obtain ⟨h1, h2⟩ := h.node
  have h32 : (emptyHash E).length = 32 := E.keccak_len _
  unfold MPT.getNode dgetItem at h1 h2
  rw [if_pos h32] at h1 h2
  cases hd : dget st.kv (emptyHash E) with
  | none => rw [hd] at h1; exact h1 rfl
  | some v =>
    obtain ⟨g2, g3⟩ := hg _ _ hd
    have : v = Item.encode (.str []) := (hl.coll _ List.mem_cons_self _ (List.mem_cons_of_mem _ g3) g2).symm
    subst this
    rw [hd] at h2
    exact h2 (by decide)

end T
end Pymt
