import Verif.Lemmas.Missing
import Verif.Lemmas.Raises

/-!
# Which entries a call reads

On a storage that agrees with that of a trie, walking down a path raises KeyError exactly when a node on
the way is missing.
-/

namespace Pymt

/-! ### Computations that never raise KeyError -/

/-- No KeyError. -/
def NoKey {α : Type} (m : Py α) : Prop := m ≠ .error .keyError

namespace NoKey
variable {α β : Type}

theorem ok (a : α) : NoKey (.ok a : Py α) := by simp [NoKey]
theorem pure' (a : α) : NoKey (pure a : Py α) := by simp [NoKey]
theorem bind {m : Py α} {f : α → Py β} (h : NoKey m) (hf : ∀ a, NoKey (f a)) : NoKey (m >>= f) := by
  cases m with
  | error e => simpa [NoKey] using h
  | ok a => exact hf a

theorem len (p : NibblePath) : NoKey p.len := by
  unfold NibblePath.len; split <;> simp [NoKey]
theorem nibbleAt (p : NibblePath) (i : Nat) : NoKey (p.nibbleAt i) := by
  unfold NibblePath.nibbleAt; simp only; split <;> simp [NoKey]
theorem sameFrom (p q : NibblePath) (i k : Nat) : NoKey (p.sameFrom q i k) := by
  induction k generalizing i with
  | zero => exact ok _
  | succ k ih =>
    unfold NibblePath.sameFrom
    refine (nibbleAt p i).bind fun a => (nibbleAt q i).bind fun b => ?_
    split
    · exact pure' _
    · exact ih _
theorem eq (p q : NibblePath) : NoKey (p.eq q) := by
  unfold NibblePath.eq
  refine (len p).bind fun n => (len q).bind fun m => ?_
  split
  · exact pure' _
  · exact sameFrom _ _ _ _
theorem startsWith (p q : NibblePath) : NoKey (p.startsWith q) := by
  unfold NibblePath.startsWith
  refine (len q).bind fun n => (len p).bind fun m => ?_
  split
  · exact pure' _
  · exact sameFrom _ _ _ _
theorem packFrom {f : Nat → Py Nat} (hf : ∀ i, NoKey (f i)) (i k : Nat) : NoKey (NibblePath.packFrom f i k) := by
  induction k generalizing i with
  | zero => exact ok _
  | succ k ih =>
    unfold NibblePath.packFrom
    exact (hf i).bind fun _ => (hf _).bind fun _ => (ih _).bind fun _ => pure' _
theorem createNew {f : Nat → Py Nat} (hf : ∀ i, NoKey (f i)) (n : Nat) : NoKey (NibblePath.createNew f n) := by
  unfold NibblePath.createNew
  split
  · exact (hf 0).bind fun _ => (packFrom hf _ _).bind fun _ => pure' _
  · exact (packFrom hf _ _).bind fun _ => pure' _
theorem commonFrom (p q : NibblePath) (i k : Nat) : NoKey (p.commonFrom q i k) := by
  induction k generalizing i with
  | zero => exact ok _
  | succ k ih =>
    unfold NibblePath.commonFrom
    refine (nibbleAt p i).bind fun a => (nibbleAt q i).bind fun b => ?_
    split
    · exact pure' _
    · exact (ih _).bind fun _ => pure' _
theorem commonPrefix (p q : NibblePath) : NoKey (p.commonPrefix q) := by
  unfold NibblePath.commonPrefix
  exact (len p).bind fun _ => (len q).bind fun _ => (commonFrom _ _ _ _).bind fun _ => createNew (nibbleAt p) _
theorem pathEncode (p : NibblePath) (b : Bool) : NoKey (p.encode b) := by
  unfold NibblePath.encode
  refine (len p).bind fun n => ?_
  simp only
  split
  · exact (nibbleAt p 0).bind fun _ => (packFrom (nibbleAt p) _ _).bind fun _ => pure' _
  · exact (packFrom (nibbleAt p) _ _).bind fun _ => pure' _
theorem index {α : Type} (l : List α) (i : Nat) : NoKey (pyIndex l i) := by
  unfold pyIndex; split <;> simp [NoKey]
theorem pySet {α : Type} (l : List α) (i : Nat) (x : α) : NoKey (Pymt.pySet l i x) := by
  unfold Pymt.pySet; split <;> simp [NoKey]
theorem prepare (r : Bytes) : NoKey (prepareForEncoding r) := fun h => by
  have := prepareForEncoding_only r _ h; simp at this
theorem prepareAll (l : List Bytes) : NoKey (Pymt.prepareAll l) := fun h => by
  have := prepareAll_only l _ h; simp at this
theorem encode (n : Node) : NoKey n.encode := by
  cases n with
  | leaf p d => rw [Node.encode]; exact (pathEncode _ _).bind fun _ => pure' _
  | ext p r => rw [Node.encode]; exact (prepare _).bind fun _ => (pathEncode _ _).bind fun _ => pure' _
  | branch bs d => rw [Node.encode]; exact (prepareAll _).bind fun _ => pure' _
theorem intoReference (E : Env) (n : Node) : NoKey (n.intoReference E) := by
  unfold Node.intoReference
  refine (encode n).bind fun e => ?_
  split <;> exact pure' _

end NoKey

/-- No KeyError, whatever the storage. -/
def NoKeyM {α : Type} (m : M Store α) : Prop := ∀ st, NoKey (m st).1

namespace NoKeyM
variable {E : Env} {α β : Type}

theorem pure (a : α) : NoKeyM (Pure.pure a : M Store α) := fun _ => NoKey.ok a
theorem lift {m : Py α} (h : NoKey m) : NoKeyM (M.lift m : M Store α) := fun _ => h
theorem raise {e : Err} (h : e ≠ .keyError) : NoKeyM (M.raise e : M Store α) := fun _ => by simpa [NoKey] using h
theorem bind {m : M Store α} {f : α → M Store β} (hm : NoKeyM m) (hf : ∀ a, NoKeyM (f a)) :
    NoKeyM (m >>= f) := by
  intro st
  have := hm st
  simp only [M.bind_apply]
  revert this
  cases m st with
  | mk r s =>
    cases r with
    | error e => exact fun h => by simpa [NoKey] using h
    | ok a => exact fun _ => hf a s

theorem storeNode (n : Node) : NoKeyM (MPT.storeNode E n) := by
  unfold MPT.storeNode
  refine (lift (NoKey.intoReference E n)).bind fun r => ?_
  split
  · exact (lift (NoKey.encode n)).bind fun enc => fun st => NoKey.ok _
  · exact pure _

theorem createBranchLeaf (path : NibblePath) (v : Bytes) (bs : List Bytes) :
    NoKeyM (MPT.createBranchLeaf E path v bs) := by
  unfold MPT.createBranchLeaf
  refine (lift (NoKey.len _)).bind fun n => ?_
  split
  · exact (lift (NoKey.nibbleAt _ _)).bind fun _ => (storeNode _).bind fun _ => lift (NoKey.pySet _ _ _)
  · exact pure _

theorem createBranchExtension (path : NibblePath) (r : Bytes) (bs : List Bytes) :
    NoKeyM (MPT.createBranchExtension E path r bs) := by
  unfold MPT.createBranchExtension
  refine (lift (NoKey.len _)).bind fun n => ?_
  split
  · exact raise (by decide)
  · split
    · exact (lift (NoKey.nibbleAt _ _)).bind fun _ => lift (NoKey.pySet _ _ _)
    · exact (lift (NoKey.nibbleAt _ _)).bind fun _ => (storeNode _).bind fun _ => lift (NoKey.pySet _ _ _)

theorem createBranchNode (pa : NibblePath) (va : Bytes) (pb : NibblePath) (vb : Bytes) :
    NoKeyM (MPT.createBranchNode E pa va pb vb) := by
  unfold MPT.createBranchNode
  refine (lift (NoKey.len _)).bind fun a => (lift (NoKey.len _)).bind fun b => ?_
  split
  · exact raise (by decide)
  · exact (createBranchLeaf _ _ _).bind fun _ => (createBranchLeaf _ _ _).bind fun _ => storeNode _

end NoKeyM

/-! ### Walks -/

namespace T

/-- A node of the trie on the way is missing from the storage. -/
def Blocked (E : Env) (kv : Dict Bytes) (t : T) (p : List Nib) : Prop := ∃ x ∈ trail t p, ¬ Avail E kv x

theorem light_node {E : Env} {kv kv' : Dict Bytes} (hag : Agree kv' kv) {t : T} (hne : t ≠ empty)
    (hs : Stored E kv t) :
    (Avail E kv' t → ∃ n, MPT.getNode kv' (ref E t) = .ok n ∧ Rep E t n) ∧
    (¬ Avail E kv' t → MPT.getNode kv' (ref E t) = .error .keyError) := by
  obtain ⟨n, hn, hrep⟩ := getNode_ref hs hne
  refine ⟨fun ha => ⟨n, ?_, hrep⟩, fun ha => ?_⟩
  · rcases SameR.getNode hag (ref E t) with h | h | h
    · exfalso
      rw [ref_of_ne hne] at h
      unfold Avail at ha
      unfold MPT.getNode at h
      by_cases hl : (enc E t).length < 32
      · rw [if_pos hl, if_neg (by omega)] at h
        simp only [Except.bind_ok'] at h
        have := decode_only _ _ h
        simp at this
      · rw [if_neg hl, if_pos (E.keccak_len _)] at h
        unfold dgetItem at h
        cases hd : dget kv' (E.keccak (enc E t)) with
        | none => exact (ha.resolve_left hl) hd
        | some v =>
          rw [hd] at h
          simp only [Except.bind_ok'] at h
          have := decode_only _ _ h
          simp at this
    · rw [hn] at h; simp at h
    · rw [h, hn]
  · unfold Avail at ha
    simp only [not_or, ne_eq, Classical.not_not] at ha
    rw [ref_of_ne hne, if_neg ha.1, MPT.getNode, if_pos (E.keccak_len _), dgetItem, ha.2]
    rfl

theorem blocked_self {E : Env} {kv : Dict Bytes} {t : T} (h : ¬ Avail E kv t) (p : List Nib) :
    Blocked E kv t p := by
  obtain ⟨l, hl⟩ := trail_head (t := t) p
  exact ⟨t, by rw [hl]; simp, h⟩

theorem blocked_nil {E : Env} {kv : Dict Bytes} {t : T} (h : Avail E kv t) : ¬ Blocked E kv t [] := by
  rintro ⟨x, hx, hx'⟩
  have : x = t := by simpa [trail] using hx
  exact hx' (this ▸ h)

theorem blocked_leaf {E : Env} {kv : Dict Bytes} {q : List Nib} {v : Bytes} (h : Avail E kv (leaf q v))
    (p : List Nib) : ¬ Blocked E kv (leaf q v) p := by
  rintro ⟨x, hx, hx'⟩
  have : x = leaf q v := by cases p <;> simpa [trail, T.seek, passed] using hx
  exact hx' (this ▸ h)

theorem blocked_ext {E : Env} {kv : Dict Bytes} {q : List Nib} {c : T} (h : Avail E kv (ext q c)) (i : Nib)
    (p : List Nib) : Blocked E kv (ext q c) (i :: p) ↔
      q <+: i :: p ∧ Blocked E kv c ((i :: p).drop q.length) := by
  by_cases hq : q <+: i :: p
  · simp only [Blocked, trail_ext hq, hq, true_and, List.mem_cons]
    constructor
    · rintro ⟨x, rfl | hx, hx'⟩
      · exact absurd h hx'
      · exact ⟨x, hx, hx'⟩
    · rintro ⟨x, hx, hx'⟩
      exact ⟨x, .inr hx, hx'⟩
  · simp only [hq, false_and, iff_false]
    rintro ⟨x, hx, hx'⟩
    have : x = ext q c := by simpa [trail, T.seek, passed, hq] using hx
    exact hx' (this ▸ h)

theorem blocked_branch {E : Env} {kv : Dict Bytes} {cs : Nib → T} {v : Bytes} (h : Avail E kv (branch cs v))
    (i : Nib) (p : List Nib) : Blocked E kv (branch cs v) (i :: p) ↔
      (cs i).isEmpty ≠ true ∧ Blocked E kv (cs i) p := by
  by_cases he : (cs i).isEmpty = true
  · simp only [he, ne_eq, not_true_eq_false, false_and, iff_false]
    rintro ⟨x, hx, hx'⟩
    have : x = branch cs v := by simpa [trail, T.seek, passed, he] using hx
    exact hx' (this ▸ h)
  · simp only [Blocked, trail_branch he, List.mem_cons]
    constructor
    · rintro ⟨x, rfl | hx, hx'⟩
      · exact absurd h hx'
      · exact ⟨he, x, hx, hx'⟩
    · rintro ⟨_, x, hx, hx'⟩
      exact ⟨x, .inr hx, hx'⟩

theorem getAux_light {E : Env} {kv kv' : Dict Bytes} (hag : Agree kv' kv) (f : Nat) {t : T} (hsh : t.Shape)
    (hne : t ≠ empty) (hs : Stored E kv t) {path : NibblePath} (hp : path.WF) (hf : path.nibs.length < f) :
    MPT.getAux kv' f (ref E t) path = .error .keyError ↔ Blocked E kv' t path.nibs := by
  induction f generalizing t path with
  | zero => omega
  | succ f ih =>
    unfold MPT.getAux
    by_cases hav : Avail E kv' t
    case neg =>
      rw [(light_node hag hne hs).2 hav]
      simp [blocked_self hav]
    obtain ⟨n, hn, hrep⟩ := (light_node hag hne hs).1 hav
    rw [hn, NibblePath.len_spec hp]
    simp only [Except.bind_ok', Bool.false_eq_true, if_false]
    cases hpn : path.nibs with
    | nil =>
      simp only [blocked_nil hav, iff_false, List.length_nil, if_true]
      simp
    | cons i p =>
      rw [if_neg (by simp)]
      cases t with
      | empty => exact absurd rfl hne
      | leaf q v =>
        cases n <;> simp only [Rep] at hrep
        rename_i np d
        simp only [blocked_leaf hav, iff_false]
        refine (NoKey.eq _ _).bind fun b => ?_
        split <;> simp [NoKey]
      | ext q c =>
        cases n <;> simp only [Rep] at hrep
        rename_i np nr
        obtain ⟨h1, rfl, rfl⟩ := hrep
        rw [blocked_ext hav]
        simp only [NibblePath.startsWith_spec hp h1, hpn, Except.bind_ok']
        by_cases hpre : np.nibs <+: i :: p
        · have hpre' := hpre
          rw [← hpn] at hpre'
          simp only [hpre, decide_true, if_true, NibblePath.len_spec h1, Except.bind_ok', true_and]
          have := ih hsh.2.2 hsh.child_ne hs.2 (NibblePath.consume_WF hp hpre'.length_le)
            (by rw [NibblePath.consume_nibs]; exact drop_len hsh.1 hpre' hf)
          simpa only [NibblePath.consume_nibs, hpn] using this
        · simp [hpre]
      | branch cs v =>
        cases n <;> simp only [Rep] at hrep
        rename_i bs d
        obtain ⟨rfl, rfl⟩ := hrep
        rw [blocked_branch hav]

        simp only [NibblePath.at_zero hpn, Except.bind_ok', refs_get, ref_length_pos]
        obtain ⟨hw, hc⟩ := nibs_cons_consume hp hpn
        by_cases he : (cs i).isEmpty = true
        · simp [he]
        · simp only [he, if_true, ne_eq, not_false_eq_true, true_and, Bool.false_eq_true]
          have := ih (hsh i) (fun e => he (isEmpty_iff.2 e)) (hs.2 i) hw
            (by rw [hc]; rw [hpn] at hf; simp at hf; omega)
          simpa only [hc] using this

theorem containsAux_light {E : Env} {kv kv' : Dict Bytes} (hag : Agree kv' kv) (f : Nat) {t : T} (hsh : t.Shape)
    (hne : t ≠ empty) (hs : Stored E kv t) {path : NibblePath} (hp : path.WF) (hf : path.nibs.length < f) :
    MPT.containsAux false kv' f (ref E t) path = .error .keyError ↔ Blocked E kv' t path.nibs := by
  induction f generalizing t path with
  | zero => omega
  | succ f ih =>
    unfold MPT.containsAux
    by_cases hav : Avail E kv' t
    case neg =>
      rw [(light_node hag hne hs).2 hav]
      simp [blocked_self hav]
    obtain ⟨n, hn, hrep⟩ := (light_node hag hne hs).1 hav
    rw [hn, NibblePath.len_spec hp]
    simp only [Except.bind_ok', Bool.false_eq_true, if_false]
    cases hpn : path.nibs with
    | nil =>
      simp only [blocked_nil hav, iff_false, List.length_nil, if_true]
      simp
    | cons i p =>
      rw [if_neg (by simp)]
      cases t with
      | empty => exact absurd rfl hne
      | leaf q v =>
        cases n <;> simp only [Rep] at hrep
        rename_i np d
        simp only [blocked_leaf hav, iff_false]
        simp
      | ext q c =>
        cases n <;> simp only [Rep] at hrep
        rename_i np nr
        obtain ⟨h1, rfl, rfl⟩ := hrep
        rw [blocked_ext hav]
        simp only [NibblePath.startsWith_spec hp h1, hpn, Except.bind_ok']
        by_cases hpre : np.nibs <+: i :: p
        · have hpre' := hpre
          rw [← hpn] at hpre'
          simp only [hpre, decide_true, if_true, NibblePath.len_spec h1, Except.bind_ok', true_and]
          have := ih hsh.2.2 hsh.child_ne hs.2 (NibblePath.consume_WF hp hpre'.length_le)
            (by rw [NibblePath.consume_nibs]; exact drop_len hsh.1 hpre' hf)
          simpa only [NibblePath.consume_nibs, hpn] using this
        · simp [hpre]
      | branch cs v =>
        cases n <;> simp only [Rep] at hrep
        rename_i bs d
        obtain ⟨rfl, rfl⟩ := hrep
        rw [blocked_branch hav]

        simp only [NibblePath.at_zero hpn, Except.bind_ok', refs_get, ref_length_pos]
        obtain ⟨hw, hc⟩ := nibs_cons_consume hp hpn
        by_cases he : (cs i).isEmpty = true
        · simp [he]
        · simp only [he, if_true, ne_eq, not_false_eq_true, true_and, Bool.false_eq_true]
          have := ih (hsh i) (fun e => he (isEmpty_iff.2 e)) (hs.2 i) hw
            (by rw [hc]; rw [hpn] at hf; simp at hf; omega)
          simpa only [hc] using this

theorem getPoiAux_light {E : Env} {kv kv' : Dict Bytes} (hag : Agree kv' kv) (f : Nat) {t : T} (hsh : t.Shape)
    (hne : t ≠ empty) (hs : Stored E kv t) {path : NibblePath} (hp : path.WF) (hf : path.nibs.length < f) (l : List Bytes) :
    MPT.getPoiAux kv' f (ref E t) path l = .error .keyError ↔ Blocked E kv' t path.nibs := by
  induction f generalizing t path l with
  | zero => omega
  | succ f ih =>
    unfold MPT.getPoiAux
    by_cases hav : Avail E kv' t
    case neg =>
      rw [(light_node hag hne hs).2 hav]
      simp [blocked_self hav]
    obtain ⟨n, hn, hrep⟩ := (light_node hag hne hs).1 hav
    have hE := hrep.encode
    rw [hn, NibblePath.len_spec hp]
    simp only [Except.bind_ok', Bool.false_eq_true, if_false]
    cases hpn : path.nibs with
    | nil =>
      simp only [blocked_nil hav, iff_false, List.length_nil, if_true]
      exact (NoKey.encode n).bind fun _ => NoKey.pure' _
    | cons i p =>
      rw [if_neg (by simp)]
      cases t with
      | empty => exact absurd rfl hne
      | leaf q v =>
        cases n <;> simp only [Rep] at hrep
        rename_i np d
        simp only [blocked_leaf hav, iff_false]
        refine (NoKey.eq _ _).bind fun b => ?_
        split
        · exact (NoKey.encode _).bind fun _ => NoKey.pure' _
        · simp [NoKey]
      | ext q c =>
        cases n <;> simp only [Rep] at hrep
        rename_i np nr
        obtain ⟨h1, rfl, rfl⟩ := hrep
        rw [blocked_ext hav]
        simp only [NibblePath.startsWith_spec hp h1, hpn, Except.bind_ok']
        by_cases hpre : np.nibs <+: i :: p
        · have hpre' := hpre
          rw [← hpn] at hpre'
          simp only [hpre, decide_true, if_true, NibblePath.len_spec h1, Except.bind_ok', true_and, hE]
          have := ih hsh.2.2 hsh.child_ne hs.2 (NibblePath.consume_WF hp hpre'.length_le)
            (by rw [NibblePath.consume_nibs]; exact drop_len hsh.1 hpre' hf)
          simpa only [NibblePath.consume_nibs, hpn] using this _
        · simp [hpre]
      | branch cs v =>
        cases n <;> simp only [Rep] at hrep
        rename_i bs d
        obtain ⟨rfl, rfl⟩ := hrep
        rw [blocked_branch hav]

        simp only [NibblePath.at_zero hpn, Except.bind_ok', refs_get, ref_length_pos, hE]
        obtain ⟨hw, hc⟩ := nibs_cons_consume hp hpn
        by_cases he : (cs i).isEmpty = true
        · simp [he]
        · simp only [he, if_true, ne_eq, not_false_eq_true, true_and, Bool.false_eq_true]
          have := ih (hsh i) (fun e => he (isEmpty_iff.2 e)) (hs.2 i) hw
            (by rw [hc]; rw [hpn] at hf; simp at hf; omega)
          simpa only [hc] using this _

theorem getPoeAux_light {E : Env} {kv kv' : Dict Bytes} (hag : Agree kv' kv) (f : Nat) {t : T} (hsh : t.Shape)
    (hne : t ≠ empty) (hs : Stored E kv t) {path : NibblePath} (hp : path.WF) (hf : path.nibs.length < f) (l : List Bytes) :
    MPT.getPoeAux kv' f (ref E t) path l = .error .keyError ↔ Blocked E kv' t path.nibs := by
  induction f generalizing t path l with
  | zero => omega
  | succ f ih =>
    unfold MPT.getPoeAux
    by_cases hav : Avail E kv' t
    case neg =>
      rw [(light_node hag hne hs).2 hav]
      simp [blocked_self hav]
    obtain ⟨n, hn, hrep⟩ := (light_node hag hne hs).1 hav
    have hE := hrep.encode
    rw [hn, NibblePath.len_spec hp]
    simp only [Except.bind_ok', Bool.false_eq_true, if_false]
    cases hpn : path.nibs with
    | nil =>
      simp only [blocked_nil hav, iff_false, List.length_nil, if_true]
      exact (NoKey.encode n).bind fun _ => NoKey.pure' _
    | cons i p =>
      rw [if_neg (by simp)]
      cases t with
      | empty => exact absurd rfl hne
      | leaf q v =>
        cases n <;> simp only [Rep] at hrep
        rename_i np d
        simp only [blocked_leaf hav, iff_false]
        exact (NoKey.encode _).bind fun _ => NoKey.pure' _
      | ext q c =>
        cases n <;> simp only [Rep] at hrep
        rename_i np nr
        obtain ⟨h1, rfl, rfl⟩ := hrep
        rw [blocked_ext hav]
        simp only [NibblePath.startsWith_spec hp h1, hpn, Except.bind_ok']
        by_cases hpre : np.nibs <+: i :: p
        · have hpre' := hpre
          rw [← hpn] at hpre'
          simp only [hpre, decide_true, if_true, NibblePath.len_spec h1, Except.bind_ok', true_and, hE]
          have := ih hsh.2.2 hsh.child_ne hs.2 (NibblePath.consume_WF hp hpre'.length_le)
            (by rw [NibblePath.consume_nibs]; exact drop_len hsh.1 hpre' hf)
          simpa only [NibblePath.consume_nibs, hpn] using this _
        · simp [hpre]
      | branch cs v =>
        cases n <;> simp only [Rep] at hrep
        rename_i bs d
        obtain ⟨rfl, rfl⟩ := hrep
        rw [blocked_branch hav]

        simp only [NibblePath.at_zero hpn, Except.bind_ok', refs_get, ref_length_pos, hE]
        obtain ⟨hw, hc⟩ := nibs_cons_consume hp hpn
        by_cases he : (cs i).isEmpty = true
        · simp [he]
        · simp only [he, if_true, ne_eq, not_false_eq_true, true_and, Bool.false_eq_true]
          have := ih (hsh i) (fun e => he (isEmpty_iff.2 e)) (hs.2 i) hw
            (by rw [hc]; rw [hpn] at hf; simp at hf; omega)
          simpa only [hc] using this _

theorem updateAux_nil (E : Env) (f : Nat) (path : NibblePath) (v : Bytes) :
    NoKeyM (MPT.updateAux E f [] path v) := by
  cases f with
  | zero => exact NoKeyM.raise (by decide)
  | succ f =>
    unfold MPT.updateAux
    rw [if_pos (.inl rfl)]
    exact NoKeyM.storeNode _

/-- A computation that starts with one that raises KeyError exactly when `b` holds. -/
theorem bind_key {α β : Type} {m : M Store α} {g : α → M Store β} {st : Store} {b : Prop}
    (h : (m st).1 = .error .keyError ↔ b) (hg : ∀ a, NoKeyM (g a)) :
    ((m >>= g) st).1 = .error .keyError ↔ b := by
  simp only [M.bind_apply]
  rw [← h]
  cases m st with
  | mk r s =>
    cases r with
    | error e => simp
    | ok a => simp only [reduceCtorEq, iff_false]; exact hg a s

theorem updateAux_light {E : Env} {st st' : Store} (hag : Agree st'.kv st.kv) (hg : Good E st)
    (hl : LogOk E st.written) (f : Nat) {t : T} (hsh : t.Shape)
    (hne : t ≠ empty) (hs : Stored E st.kv t) {path : NibblePath} (hp : path.WF) (v : Bytes)
    (hf : path.nibs.length < f) :
    (MPT.updateAux E f (ref E t) path v st').1 = .error .keyError ↔ Blocked E st'.kv t path.nibs := by
  induction f generalizing t path with
  | zero => omega
  | succ f ih =>
    unfold MPT.updateAux
    rw [if_neg (by
      rintro (h | h)
      · exact ref_ne_nil hne h
      · exact ref_ne_emptyHash hg hl hs hne h)]
    by_cases hav : Avail E st'.kv t
    case neg =>
      have := (light_node hag hne hs).2 hav
      simp [MPT.getNodeM, this, blocked_self hav]
    obtain ⟨n, hn, hrep⟩ := (light_node hag hne hs).1 hav
    have hn' : MPT.getNodeM (ref E t) st' = (.ok n, st') := by simp [MPT.getNodeM, hn]
    rw [M.bind_apply, hn']
    simp only
    cases t with
    | empty => exact absurd rfl hne
    | leaf q w =>
      cases n <;> simp only [Rep] at hrep
      rename_i np d
      simp only [blocked_leaf hav, iff_false]
      have : NoKeyM (do
          let same ← M.lift (np.eq path)
          if same then MPT.storeNode E (.leaf np v)
          else do
            let common ← M.lift (path.commonPrefix np)
            let c ← M.lift common.len
            let branchRef ← MPT.createBranchNode E (path.consume c) v (np.consume c) d
            if c ≠ 0 then MPT.storeNode E (.ext common branchRef)
            else return branchRef) := by
        refine (NoKeyM.lift (NoKey.eq _ _)).bind fun same => ?_
        split
        · exact NoKeyM.storeNode _
        · refine (NoKeyM.lift (NoKey.commonPrefix _ _)).bind fun c => (NoKeyM.lift (NoKey.len _)).bind fun n =>
            (NoKeyM.createBranchNode _ _ _ _).bind fun r => ?_
          split
          · exact NoKeyM.storeNode _
          · exact NoKeyM.pure _
      exact this st'
    | ext q c =>
      cases n <;> simp only [Rep] at hrep
      rename_i np nr
      obtain ⟨h1, rfl, rfl⟩ := hrep
      simp only [M.bind_apply (M.lift _), M.lift_apply, NibblePath.startsWith_spec hp h1]
      by_cases hpre : np.nibs <+: path.nibs
      · simp only [hpre, decide_true, if_true, NibblePath.len_spec h1, M.bind_apply (M.lift _), M.lift_apply]
        have := ih hsh.2.2 hsh.child_ne hs.2 (NibblePath.consume_WF hp hpre.length_le)
          (by rw [NibblePath.consume_nibs]; exact drop_len hsh.1 hpre hf)
        rw [NibblePath.consume_nibs] at this
        rw [bind_key this fun a => NoKeyM.storeNode _]
        cases hpn : path.nibs with
        | nil =>
          rw [hpn] at hpre
          exact absurd (List.prefix_nil.1 hpre) hsh.1
        | cons i p =>
          rw [blocked_ext hav, ← hpn]
          simp [hpre]
      · have hb : ¬ Blocked E st'.kv (ext np.nibs c) path.nibs := by
          cases hpn : path.nibs with
          | nil => exact blocked_nil hav
          | cons i p =>
            rw [blocked_ext hav, ← hpn]
            exact fun h => hpre h.1
        simp only [hb, iff_false, hpre, decide_false, Bool.false_eq_true, if_false]
        refine ((NoKeyM.lift (NoKey.commonPrefix _ _)).bind fun c => (NoKeyM.lift (NoKey.len _)).bind fun n =>
          (NoKeyM.lift (NoKey.len _)).bind fun m =>
          (NoKeyM.createBranchLeaf _ _ _).bind fun _ => (NoKeyM.createBranchExtension _ _ _).bind fun _ =>
          (NoKeyM.storeNode _).bind fun r => ?_) st'
        split
        · exact NoKeyM.storeNode _
        · exact NoKeyM.pure _
    | branch cs w =>
      cases n <;> simp only [Rep] at hrep
      rename_i bs d
      obtain ⟨rfl, rfl⟩ := hrep
      simp only [M.bind_apply (M.lift _), M.lift_apply, NibblePath.len_spec hp]
      cases hpn : path.nibs with
      | nil =>
        simp only [blocked_nil hav, iff_false, List.length_nil, if_true]
        exact NoKeyM.storeNode _ st'
      | cons i p =>
        rw [if_neg (by simp), blocked_branch hav]
        simp only [NibblePath.at_zero hpn, M.bind_apply (M.lift _), M.lift_apply, refs_get]
        obtain ⟨hw, hc⟩ := nibs_cons_consume hp hpn
        have htail : ∀ a, NoKeyM (do
            let branches ← M.lift (Pymt.pySet (refs E cs) i.val a)
            MPT.storeNode E (.branch branches d)) := fun a =>
          (NoKeyM.lift (NoKey.pySet _ _ _)).bind fun _ => NoKeyM.storeNode _
        by_cases he : (cs i).isEmpty = true
        · simp only [he, ne_eq, not_true_eq_false, false_and, iff_false]
          rw [isEmpty_iff.1 he]
          exact ((updateAux_nil E f _ v).bind htail) st'
        · simp only [he, ne_eq, not_false_eq_true, true_and, Bool.false_eq_true]
          have := ih (hsh i) (fun e => he (isEmpty_iff.2 e)) (hs.2 i) hw
            (by rw [hc]; rw [hpn] at hf; simp at hf; omega)
          rw [hc] at this
          exact bind_key this htail

section
variable {E : Env} {t t' : MPT} {a : T}

theorem Holds.get_light (h : Holds E t a) (hne : a ≠ empty) (hal : Alike t' t) {key : Bytes}
    (hk : (toNibs (t.keyOf E key)).length < E.limit) :
    t'.get E key = .error .keyError ↔ Blocked E t'.store.kv a (toNibs (t.keyOf E key)) := by
  have hr := getAux_light hal.agree E.limit h.shape hne h.stored (NibblePath.WF_bytes (t.keyOf E key))
    (by rwa [NibblePath.nibs_bytes])
  rw [NibblePath.nibs_bytes] at hr
  rw [← hr]
  have hf := h.rootFalsy hne
  unfold MPT.get
  unfold MPT.rootFalsy at hf ⊢
  rw [hal.root, hf, h.getD hne, hal.keyOf]
  simp only [Bool.false_eq_true, if_false]
  cases MPT.getAux t'.store.kv E.limit (ref E a) { data := t.keyOf E key } with
  | error e => simp
  | ok n => cases n <;> simp

theorem Holds.contains_light (h : Holds E t a) (hl : LogOk E t.store.written) (hne : a ≠ empty)
    (hal : Alike t' t) {key : Bytes} (hk : (toNibs (t.keyOf E key)).length < E.limit) :
    t'.contains E key = .error .keyError ↔ Blocked E t'.store.kv a (toNibs (t.keyOf E key)) := by
  have hr := containsAux_light hal.agree E.limit h.shape hne h.stored (NibblePath.WF_bytes (t.keyOf E key))
    (by rwa [NibblePath.nibs_bytes])
  rw [NibblePath.nibs_bytes] at hr
  rw [← hr]
  have hf := h.rootFalsy hne
  have hn := h.noRoot hl
  rw [Holds.isEmpty_false hne] at hn
  unfold MPT.contains
  unfold MPT.rootFalsy at hf ⊢
  unfold MPT.noRoot at hn ⊢
  rw [hal.root, hf, hn, h.getD hne, hal.keyOf]
  simp only [Bool.false_eq_true, if_false]
  cases MPT.containsAux false t'.store.kv E.limit (ref E a) { data := t.keyOf E key } with
  | error e => simp
  | ok x =>
    obtain ⟨n, q⟩ := x
    simp only [Except.bind_ok', reduceCtorEq, iff_false]
    split
    · simp
    · simp
    · exact NoKey.eq _ _
    · simp

theorem Holds.getPoi_light (h : Holds E t a) (hl : LogOk E t.store.written) (hne : a ≠ empty)
    (hal : Alike t' t) {now key : Bytes} (hk : (toNibs (t.keyOf E key)).length < E.limit) :
    t'.getPoi E now key = .error .keyError ↔ Blocked E t'.store.kv a (toNibs (t.keyOf E key)) := by
  have hr := getPoiAux_light hal.agree E.limit h.shape hne h.stored (NibblePath.WF_bytes (t.keyOf E key))
    (by rwa [NibblePath.nibs_bytes]) []
  rw [NibblePath.nibs_bytes] at hr
  rw [← hr]
  have hn := h.noRoot hl
  rw [Holds.isEmpty_false hne] at hn
  unfold MPT.getPoi
  unfold MPT.noRoot at hn ⊢
  rw [hal.root, hn, h.getD hne, hal.keyOf]
  simp only [Bool.false_eq_true, if_false]
  cases MPT.getPoiAux t'.store.kv E.limit (ref E a) { data := t.keyOf E key } [] with
  | error e => simp
  | ok n => simp

theorem Holds.getPoe_light (h : Holds E t a) (hl : LogOk E t.store.written) (hne : a ≠ empty)
    (hal : Alike t' t) {now key : Bytes} (hk : (toNibs (t.keyOf E key)).length < E.limit) :
    t'.getPoe E now key = .error .keyError ↔ Blocked E t'.store.kv a (toNibs (t.keyOf E key)) := by
  have hc := h.contains_light hl hne hal hk
  have hr := getPoeAux_light hal.agree E.limit h.shape hne h.stored (NibblePath.WF_bytes (t.keyOf E key))
    (by rwa [NibblePath.nibs_bytes]) []
  rw [NibblePath.nibs_bytes] at hr
  have hn := h.noRoot hl
  rw [Holds.isEmpty_false hne] at hn
  unfold MPT.getPoe
  unfold MPT.noRoot at hn ⊢
  rw [hal.root, hn, h.getD hne, hal.keyOf]
  simp only [Bool.false_eq_true, if_false]
  by_cases hb : Blocked E t'.store.kv a (toNibs (t.keyOf E key))
  · rw [hc.2 hb]; simp [hb]
  · simp only [hb, iff_false] at hc hr ⊢
    refine NoKey.bind hc fun b => ?_
    split
    · simp [NoKey]
    · refine NoKey.bind hr fun x => (NoKey.encode _).bind fun _ => ?_
      split
      · split <;> simp [NoKey]
      · refine (NoKey.eq _ _).bind fun _ => ?_
        split <;> simp [NoKey]
      · simp [NoKey]

theorem Holds.update_light (h : Holds E t a) (hl : LogOk E t.store.written) (hne : a ≠ empty)
    (hal : Alike t' t) {key v : Bytes} (hk : (toNibs (t.keyOf E key)).length < E.limit) :
    (MPT.update E key v t').1 = .error .keyError ↔ Blocked E t'.store.kv a (toNibs (t.keyOf E key)) := by
  have hr := updateAux_light hal.agree h.good hl E.limit h.shape hne h.stored
    (NibblePath.WF_bytes (t.keyOf E key)) v (by rwa [NibblePath.nibs_bytes])
  rw [NibblePath.nibs_bytes] at hr
  rw [← hr, update_eq, hal.root, h.getD hne, hal.keyOf]
  cases MPT.updateAux E E.limit (ref E a) ⟨t.keyOf E key, 0⟩ v t'.store with
  | mk r s => cases r <;> simp

end

end T
end Pymt
