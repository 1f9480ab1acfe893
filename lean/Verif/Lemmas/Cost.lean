import Verif.Lemmas.DeleteFail

/-!
# How much a call writes
-/

namespace Pymt

/-- At most `n` writes from this state. -/
def Adds {α : Type} (m : M Store α) (st : Store) (n : Nat) : Prop :=
  (m st).2.written.length ≤ st.written.length + n

/-- At most `n` writes from any state. -/
def AddsU {α : Type} (m : M Store α) (n : Nat) : Prop := ∀ st, Adds m st n

namespace AddsU
variable {E : Env} {α β : Type}

theorem lift (m : Py α) : AddsU (M.lift m : M Store α) 0 := fun st => by simp [Adds]
theorem raise (e : Err) {n : Nat} : AddsU (M.raise e : M Store α) n := fun st => by simp [Adds]
theorem pure (a : α) {n : Nat} : AddsU (Pure.pure a : M Store α) n := fun st => by simp [Adds]
theorem getNodeM (r : Bytes) : AddsU (MPT.getNodeM r) 0 := fun st => by simp [Adds, MPT.getNodeM]

theorem mono {m : M Store α} {a b : Nat} (h : AddsU m a) (hab : a ≤ b) : AddsU m b :=
  fun st => Nat.le_trans (h st) (by omega)

theorem _root_.Pymt.Adds.bind {m : M Store α} {f : α → M Store β} {st : Store} {a b : Nat}
    (hm : Adds m st a) (hf : ∀ x, AddsU (f x) b) : Adds (m >>= f) st (a + b) := by
  unfold Adds at *
  rw [M.bind_apply]
  cases h : m st with
  | mk r st1 =>
    rw [h] at hm
    cases r with
    | error e => simp only at hm ⊢; omega
    | ok x =>
      have := hf x st1
      unfold Adds at this
      simp only at hm ⊢
      omega

theorem bind {m : M Store α} {f : α → M Store β} {a b : Nat} (hm : AddsU m a) (hf : ∀ x, AddsU (f x) b) :
    AddsU (m >>= f) (a + b) := fun st => (hm st).bind hf

/-- A step that writes nothing. -/
theorem bind0 {m : M Store α} {f : α → M Store β} {b : Nat} (hm : AddsU m 0) (hf : ∀ x, AddsU (f x) b) :
    AddsU (m >>= f) b := by simpa using hm.bind hf

theorem storeNode (n : Node) : AddsU (MPT.storeNode E n) 1 := by
  intro st
  unfold MPT.storeNode Node.intoReference Adds
  cases h : n.encode with
  | error e => simp
  | ok enc =>
    by_cases hl : enc.length < 32
    · have : enc.length ≠ 32 := by omega
      simp [hl, this]
    · simp [hl, E.keccak_len, Store.set]

theorem store1 (n : Node) (g : Bytes → MPT.DeleteAction) :
    AddsU (MPT.storeNode E n >>= fun r => (Pure.pure (g r) : M Store _)) 1 :=
  (storeNode n).bind (b := 0) fun _ => pure _

theorem createBranchLeaf {path : NibblePath} (hp : path.WF) (v : Bytes) (bs : List Bytes) :
    AddsU (MPT.createBranchLeaf E path v bs) (min 1 path.nibs.length) := by
  intro st
  unfold MPT.createBranchLeaf Adds
  rw [M.bind_apply, NibblePath.len_spec hp, M.lift_apply]
  simp only
  split
  · rename_i h
    have : min 1 path.nibs.length = 1 := by omega
    rw [this]
    exact ((lift _).bind0 fun _ => (storeNode _).bind (b := 0) fun _ => lift _) st
  · exact pure (n := min 1 path.nibs.length) bs st

theorem createBranchExtension (path : NibblePath) (r : Bytes) (bs : List Bytes) :
    AddsU (MPT.createBranchExtension E path r bs) 1 := by
  unfold MPT.createBranchExtension
  refine (lift _).bind0 fun n => ?_
  split
  · exact raise _
  · split
    · exact ((lift _).bind0 fun _ => lift _).mono (by omega)
    · exact (lift _).bind0 fun _ => (storeNode _).bind (b := 0) fun _ => lift _

theorem createBranchNode {pa pb : NibblePath} (ha : pa.WF) (hb : pb.WF) (va vb : Bytes) :
    AddsU (MPT.createBranchNode E pa va pb vb) (min 1 pa.nibs.length + 2) := by
  unfold MPT.createBranchNode
  refine (lift _).bind0 fun a => (lift _).bind0 fun b => ?_
  split
  · exact raise _
  · refine (createBranchLeaf ha _ _).bind fun _ => ?_
    exact (((createBranchLeaf hb _ _).mono (Nat.min_le_left _ _)).bind fun _ => storeNode _)

theorem buildFromLastBranch (bs : List Bytes) : AddsU (MPT.buildFromLastBranch E bs) 1 := by
  unfold MPT.buildFromLastBranch
  refine (lift _).bind0 fun r => (getNodeM _).bind0 fun n => ?_
  split
  · exact (lift _).bind0 fun _ => store1 _ _
  · exact (lift _).bind0 fun _ => store1 _ _
  · exact store1 _ _

theorem afterDeleted (bs : List Bytes) (d : Bytes) : AddsU (MPT.afterDeleted E bs d) 1 := by
  unfold MPT.afterDeleted
  simp only
  split
  · exact pure _
  · split
    · exact store1 _ _
    · split
      · exact buildFromLastBranch _
      · exact store1 _ _

end AddsU

namespace T

theorem Adds.run {α β : Type} {m : M Store α} {f : α → M Store β} {st : Store} {x : α} {n : Nat}
    (h : m st = (.ok x, st)) (hf : Adds (f x) st n) : Adds (m >>= f) st n := by
  unfold Adds at *
  rwa [M.bind_apply, h]

theorem Adds.lift {α β : Type} {p : Py α} {f : α → M Store β} {st : Store} {x : α} {n : Nat}
    (h : p = .ok x) (hf : Adds (f x) st n) : Adds (M.lift p >>= f) st n :=
  Adds.run (by rw [M.lift_apply, h]) hf

theorem updateAux_cost {E : Env} (f : Nat) {t : T} (hsh : t.Shape) {st : Store}
    {path : NibblePath} (hp : path.WF) (v : Bytes) (hs : Stored E st.kv t) :
    Adds (MPT.updateAux E f (ref E t) path v) st (path.nibs.length + 2) := by
  induction f generalizing t path with
  | zero => exact AddsU.raise _ st
  | succ f ih =>
    unfold MPT.updateAux
    split
    · exact (AddsU.storeNode _).mono (by omega) st
    rename_i hne
    have hne : t ≠ empty := by rintro rfl; exact hne (.inl rfl)
    obtain ⟨n, hn, hrep⟩ := getNodeM_ref hs hne
    refine Adds.run hn ?_
    cases t with
    | empty => exact absurd rfl hne
    | leaf q w =>
      cases n <;> simp only [Rep] at hrep
      rename_i np d
      obtain ⟨hnp, rfl, rfl⟩ := hrep
      simp only
      refine Adds.lift (NibblePath.eq_spec hnp hp) ?_
      split
      · exact (AddsU.storeNode _).mono (by omega) st
      · obtain ⟨cp, hc, hcw, hcn⟩ := NibblePath.commonPrefix_spec hp hnp
        refine Adds.lift hc (Adds.lift (NibblePath.len_spec hcw) ?_)
        have hle : cp.nibs.length ≤ path.nibs.length := by rw [hcn]; exact (lcp_prefix_left _ _).length_le
        have hle' : cp.nibs.length ≤ np.nibs.length := by rw [hcn]; exact (lcp_prefix_right _ _).length_le
        have h1 := AddsU.createBranchNode (E := E) (NibblePath.consume_WF hp hle) (NibblePath.consume_WF hnp hle') v d
        rw [NibblePath.consume_nibs, List.length_drop] at h1
        by_cases h0 : cp.nibs.length ≠ 0
        · simp only [h0, ne_eq, not_false_eq_true, if_true]
          exact (h1.bind fun _ => AddsU.storeNode _).mono (by omega) st
        · simp only [h0, if_false]
          exact (h1.bind (b := 0) fun _ => AddsU.pure _).mono (by omega) st
    | ext q c =>
      cases n <;> simp only [Rep] at hrep
      rename_i np nr
      obtain ⟨hnp, rfl, rfl⟩ := hrep
      simp only
      refine Adds.lift (NibblePath.startsWith_spec hp hnp) ?_
      by_cases hpre : np.nibs <+: path.nibs
      · simp only [hpre, decide_true, if_true]
        refine Adds.lift (NibblePath.len_spec hnp) ?_
        have := ih hsh.2.2 (NibblePath.consume_WF hp hpre.length_le) hs.2
        rw [NibblePath.consume_nibs, List.length_drop] at this
        have h0 : 0 < np.nibs.length := List.length_pos_iff.2 hsh.1
        have h1 := hpre.length_le
        refine Nat.le_trans (this.bind (b := 1) fun _ => AddsU.storeNode _) ?_
        omega
      · simp only [hpre, decide_false, Bool.false_eq_true, if_false]
        obtain ⟨cp, hc, hcw, hcn⟩ := NibblePath.commonPrefix_spec hp hnp
        refine Adds.lift hc (Adds.lift (NibblePath.len_spec hcw) ?_)
        have hle : cp.nibs.length ≤ path.nibs.length := by rw [hcn]; exact (lcp_prefix_left _ _).length_le
        have hw := NibblePath.consume_WF hp hle
        refine Adds.lift (NibblePath.len_spec hw) ?_
        have h1 := fun bs => AddsU.createBranchLeaf (E := E) hw v bs
        rw [NibblePath.consume_nibs, List.length_drop] at h1
        refine Nat.le_trans (((h1 _).bind fun _ => (AddsU.createBranchExtension _ _ _).bind fun _ =>
          (AddsU.storeNode _).bind (b := if cp.nibs.length ≠ 0 then 1 else 0) fun _ => ?_) st) ?_
        · split
          · exact AddsU.storeNode _
          · exact AddsU.pure _
        · split <;> omega
    | branch cs w =>
      cases n <;> simp only [Rep] at hrep
      rename_i bs d
      obtain ⟨rfl, rfl⟩ := hrep
      simp only
      refine Adds.lift (NibblePath.len_spec hp) ?_
      cases hpn : path.nibs with
      | nil => exact (AddsU.storeNode _).mono (by simp) st
      | cons i p =>
        obtain ⟨hw, hc⟩ := nibs_cons_consume hp hpn
        rw [if_neg (by simp)]
        refine Adds.lift (NibblePath.at_zero hpn) (Adds.lift (refs_get E cs i) ?_)
        have := ih (hsh i) hw (hs.2 i)
        rw [hc] at this
        refine Nat.le_trans (this.bind (b := 1) fun _ => (AddsU.lift _).bind0 fun _ => AddsU.storeNode _) ?_
        simp only [List.length_cons]
        omega

theorem deleteAux_cost {E : Env} (f : Nat) {t : T} (hsh : t.Shape) (hne : t ≠ empty) {st : Store}
    {path : NibblePath} (hp : path.WF) (hs : Stored E st.kv t) :
    Adds (MPT.deleteAux E f (ref E t) path) st (path.nibs.length + 1) := by
  induction f generalizing t path with
  | zero => exact AddsU.raise _ st
  | succ f ih =>
    unfold MPT.deleteAux
    obtain ⟨n, hn, hrep⟩ := getNodeM_ref hs hne
    refine Adds.run hn ?_
    cases t with
    | empty => exact absurd rfl hne
    | leaf q w =>
      cases n <;> simp only [Rep] at hrep
      rename_i np d
      refine ((AddsU.lift _).bind0 fun same => ?_) st
      split
      · exact AddsU.pure _
      · exact AddsU.raise _
    | ext q c =>
      cases n <;> simp only [Rep] at hrep
      rename_i np nr
      obtain ⟨hnp, rfl, rfl⟩ := hrep
      simp only
      refine Adds.lift (NibblePath.startsWith_spec hp hnp) ?_
      by_cases hpre : np.nibs <+: path.nibs
      · simp only [hpre, decide_true, not_true, if_false]
        refine Adds.lift (NibblePath.len_spec hnp) ?_
        have := ih hsh.2.2 hsh.child_ne (NibblePath.consume_WF hp hpre.length_le) hs.2
        rw [NibblePath.consume_nibs, List.length_drop] at this
        have h0 : 0 < np.nibs.length := List.length_pos_iff.2 hsh.1
        have h1 := hpre.length_le
        refine Nat.le_trans (this.bind (b := 1) fun act => ?_) (by omega)
        cases act with
        | deleted => exact AddsU.pure _
        | updated r => exact AddsU.store1 _ _
        | useless p r =>
          refine (AddsU.getNodeM _).bind0 fun n => ?_
          cases n <;> exact (AddsU.lift _).bind0 fun _ => AddsU.store1 _ _
      · simp only [hpre, decide_false, Bool.false_eq_true, not_false_eq_true, if_true]
        exact AddsU.raise _ st
    | branch cs w =>
      cases n <;> simp only [Rep] at hrep
      rename_i bs d
      obtain ⟨rfl, rfl⟩ := hrep
      simp only
      refine Adds.lift (NibblePath.len_spec hp) ?_
      split
      · exact AddsU.raise _ st
      split
      · exact AddsU.raise _ st
      split
      · exact (AddsU.afterDeleted _ _).mono (by omega) st
      rename_i h1 h2 h3
      cases hpn : path.nibs with
      | nil => rw [hpn] at h1 h2 h3; simp at h1 h2 h3; exact absurd h3 h1
      | cons i p =>
        obtain ⟨hw, hc⟩ := nibs_cons_consume hp hpn
        refine Adds.lift (NibblePath.at_zero hpn) (Adds.lift (refs_get E cs i) ?_)
        split
        · exact AddsU.raise _ st
        · rename_i hemp
          have hne' : cs i ≠ empty := by
            intro h; rw [h] at hemp; simp [ref] at hemp
          have := ih (hsh i) hne' hw (hs.2 i)
          rw [hc] at this
          refine Nat.le_trans (this.bind (b := 1) fun act => ?_) ?_
          · cases act with
            | deleted => exact (AddsU.lift _).bind0 fun _ => AddsU.afterDeleted _ _
            | updated r => exact (AddsU.lift _).bind0 fun _ => AddsU.store1 _ _
            | useless p r => exact (AddsU.lift _).bind0 fun _ => AddsU.store1 _ _
          · simp only [List.length_cons]; omega

/-! ### Objects -/

theorem Holds.update_cost {E : Env} {t : MPT} {a : T} (h : Holds E t a) (key v : Bytes) :
    (MPT.update E key v t).2.store.written.length ≤
      t.store.written.length + (2 * (t.keyOf E key).length + 2) := by
  have hnib := NibblePath.nibs_bytes (t.keyOf E key)
  have : Adds (MPT.updateAux E E.limit (t.root.getD []) ⟨t.keyOf E key, 0⟩ v) t.store
      ((toNibs (t.keyOf E key)).length + 2) := by
    rcases h.root with ⟨rfl, h1 | h1⟩ | ⟨h1, h2⟩
    · rw [h1, ← hnib]
      exact updateAux_cost (t := empty) _ trivial (NibblePath.WF_bytes _) _ trivial
    · rw [h1]
      cases E.limit with
      | zero => exact AddsU.raise _ _
      | succ f =>
        unfold MPT.updateAux
        simp only [Option.getD_some, or_true, if_true]
        exact (AddsU.storeNode _).mono (by omega) _
    · rw [h2, ← hnib]
      exact updateAux_cost _ h.shape (NibblePath.WF_bytes _) _ h.stored
  rw [toNibs_length, Nat.mul_comm] at this
  rw [update_eq]
  unfold Adds at this
  revert this
  cases MPT.updateAux E E.limit (t.root.getD []) ⟨t.keyOf E key, 0⟩ v t.store with
  | mk r st => cases r <;> exact id

theorem Holds.delete_cost {E : Env} {t : MPT} {a : T} (h : Holds E t a) (key : Bytes) :
    (MPT.delete E key t).2.store.written.length ≤
      t.store.written.length + (2 * (t.keyOf E key).length + 1) := by
  rw [delete_eq]
  split
  · simp only; omega
  rename_i hno
  have hnib := NibblePath.nibs_bytes (t.keyOf E key)
  rcases h.root with ⟨rfl, h1 | h1⟩ | ⟨h1, h2⟩
  · exact absurd (by simp [MPT.noRoot, h1]) hno
  · exact absurd (by simp [MPT.noRoot, h1]) hno
  · have := deleteAux_cost E.limit h.shape h1 (path := ⟨t.keyOf E key, 0⟩) (NibblePath.WF_bytes _) h.stored
    rw [hnib, toNibs_length, Nat.mul_comm] at this
    rw [h2]
    unfold Adds at this
    revert this
    simp only [Option.getD_some]
    cases MPT.deleteAux E E.limit (ref E a) ⟨t.keyOf E key, 0⟩ t.store with
    | mk r st => cases r <;> exact id

end T

theorem dset_length_le {β : Type} (d : Dict β) (k : Bytes) (v : β) : (dset d k v).length ≤ d.length + 1 := by
  induction d with
  | nil => simp [dset]
  | cons e d ih =>
    simp only [dset]
    split
    · simp
    · simp only [List.length_cons]; omega

/-- The storage does not have more entries than were written. -/
theorem replay_length (E : Env) (ws : List Bytes) (st : Store) :
    (replay E ws st).kv.length ≤ st.kv.length + ws.length := by
  induction ws generalizing st with
  | nil => simp [replay]
  | cons w ws ih =>
    have h1 := ih (st.set (E.keccak w) w)
    have h2 := dset_length_le st.kv (E.keccak w) w
    simp only [replay, List.foldl_cons, List.length_cons] at h1 ⊢
    simp only [Store.set] at h1 h2 ⊢
    omega

theorem len_le_writes {E : Env} {st st' : Store} (h : ∃ ws, st' = replay E ws st) {n : Nat}
    (hn : st'.written.length ≤ st.written.length + n) : st'.kv.length ≤ st.kv.length + n := by
  obtain ⟨ws, rfl⟩ := h
  have := replay_length E ws st
  rw [replay_written, List.length_append] at hn
  omega

end Pymt
