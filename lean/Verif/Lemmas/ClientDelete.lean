import Verif.Lemmas.Client

/-!
# A storage that has the nodes on the way of some keys, and deletes of these keys

Besides the nodes on the way of the key, `_delete` reads one more node: the last child of a branch that is left with
one child and no value.
-/

namespace Pymt
namespace T

/-- The child that is left alone in a branch without a value. -/
def lastOf (cs : Nib → T) (v : Bytes) : Option T :=
  if occ cs = 1 ∧ v = [] then (firstChild cs).map cs else none

/-- The node beside the way that is read when the path is deleted. -/
def neighbour : T → List Nib → Option T
  | empty, _ => none
  | leaf _ _, _ => none
  | ext q c, p => if q <+: p then neighbour c (p.drop q.length) else none
  | branch cs v, [] => if v = [] then none else lastOf cs []
  | branch cs v, i :: p =>
    if (cs i).isEmpty then none
    else
      match remove (cs i) p with
      | .ok .deleted => lastOf (fset cs i empty) v
      | _ => neighbour (cs i) p

theorem afterDel_deleted {cs : Nib → T} {v : Bytes} (h : afterDel cs v = .deleted) : occ cs = 0 := by
  unfold afterDel at h
  split at h
  · rename_i h0; exact h0.1
  · split at h
    · cases h
    · split at h
      · rename_i h1
        obtain ⟨i, hi, hne⟩ := firstChild_some (cs := cs) (by omega)
        unfold fromLast at h
        rw [hi] at h
        simp only at h
        cases hc : cs i with
        | empty => exact absurd hc hne
        | leaf _ _ => rw [hc] at h; cases h
        | ext _ _ => rw [hc] at h; cases h
        | branch _ _ => rw [hc] at h; cases h
      · cases h

theorem lastOf_deleted {cs : Nib → T} {v : Bytes} (h : afterDel cs v = .deleted) : lastOf cs v = none := by
  unfold lastOf
  rw [if_neg]
  rw [afterDel_deleted h]
  simp

theorem neighbour_deleted {t : T} {p : List Nib} (h : remove t p = .ok .deleted) : neighbour t p = none := by
  induction t generalizing p with
  | empty => rfl
  | leaf _ _ => rfl
  | ext q c ih =>
    rw [remove] at h
    rw [neighbour]
    split at h
    · rename_i hq
      rw [if_pos hq]
      cases hr : remove c (p.drop q.length) with
      | error e => rw [hr] at h; cases h
      | ok d =>
        rw [hr] at h
        cases d with
        | deleted => exact ih hr
        | updated _ => cases h
        | useless _ _ => cases h
    · cases h
  | branch cs v ih =>
    cases p with
    | nil =>
      rw [remove] at h
      rw [neighbour]
      split at h
      · cases h
      · rename_i hv
        rw [if_neg hv]
        exact lastOf_deleted (by injection h)
    | cons i p =>
      rw [remove] at h
      rw [neighbour]
      split at h
      · cases h
      · rename_i he
        rw [if_neg he]
        cases hr : remove (cs i) p with
        | error e => rw [hr] at h; cases h
        | ok d =>
          rw [hr] at h
          cases d with
          | deleted => exact lastOf_deleted (by injection h)
          | updated _ => cases h
          | useless _ _ => cases h

theorem remove_noKey (t : T) (p : List Nib) : remove t p ≠ .error .keyError := by
  induction t generalizing p with
  | empty => simp [remove]
  | leaf q v => rw [remove]; split <;> simp
  | ext q c ih =>
    rw [remove]
    split
    · cases hr : remove c (p.drop q.length) with
      | error e => have := ih (p.drop q.length); rw [hr] at this; simpa using this
      | ok d => cases d <;> simp
    · simp
  | branch cs v ih =>
    cases p with
    | nil => rw [remove]; split <;> simp
    | cons i p =>
      rw [remove]
      split
      · simp
      · cases hr : remove (cs i) p with
        | error e => have := ih i p; rw [hr] at this; simpa using this
        | ok d => cases d <;> simp

/-- The ways in a branch that lost a child or its value. -/
theorem mem_trail_afterDel {cs : Nib → T} (hsh : ∀ i, (cs i).Shape) {v : Bytes} {q : List Nib} {x : T}
    (h : x ∈ trail (afterDel cs v).tree q) :
    x = (afterDel cs v).tree ∨ ∃ i q', q = i :: q' ∧ x ∈ trail (cs i) q' := by
  unfold afterDel at h ⊢
  split at h
  · rename_i h0
    rw [if_pos h0]
    exact .inl (mem_trail_empty h)
  · rename_i h0
    rw [if_neg h0]
    split at h
    · rename_i h1
      rw [if_pos h1]
      exact .inl (mem_trail_leaf h)
    · rename_i h1
      rw [if_neg h1]
      split at h
      · rename_i h2
        rw [if_pos h2]
        obtain ⟨i, hi, hne⟩ := firstChild_some (cs := cs) (by omega)
        have hsi := hsh i
        unfold fromLast at h ⊢
        rw [hi] at h ⊢
        simp only at h ⊢
        cases hc : cs i with
        | empty => exact absurd hc hne
        | leaf p w =>
          rw [hc] at h
          exact .inl (mem_trail_leaf h)
        | ext p c =>
          rw [hc] at h hsi
          rcases mem_trail_ext h with h | ⟨h3, h4, h5⟩
          · exact .inl h
          right
          cases q with
          | nil => exact absurd rfl h3
          | cons j q =>
            obtain ⟨rfl, h6⟩ := List.cons_prefix_cons.1 h4
            refine ⟨i, q, rfl, ?_⟩
            rw [hc]
            cases q with
            | nil => exact absurd (List.prefix_nil.1 h6) hsi.1
            | cons j q =>
              rw [trail_ext h6]
              exact List.mem_cons_of_mem _ (by simpa using h5)
        | branch ds w =>
          rw [hc] at h
          rcases mem_trail_ext h with h | ⟨h3, h4, h5⟩
          · exact .inl h
          right
          cases q with
          | nil => exact absurd rfl h3
          | cons j q =>
            obtain ⟨rfl, -⟩ := List.cons_prefix_cons.1 h4
            exact ⟨i, q, rfl, by rw [hc]; simpa using h5⟩
      · rename_i h2
        rw [if_neg h2]
        exact mem_trail_branch h

/-- What `_delete` does with the result for the node below an extension, `/repo/src/pymt/mpt.py:1311-1342`. -/
def extCont (E : Env) (np : NibblePath) (action : MPT.DeleteAction) : M Store MPT.DeleteAction :=
  match action with
  | .deleted => return .deleted
  | .updated childRef => do
    let newRef ← MPT.storeNode E (.ext np childRef)
    return .updated newRef
  | .useless storedPath storedRef => do
    let child ← MPT.getNodeM storedRef
    match child with
    | .leaf p d => do
      let path ← M.lift (np.combine p)
      let newRef ← MPT.storeNode E (.leaf path d)
      return .updated newRef
    | .ext p r => do
      let path ← M.lift (np.combine p)
      let newRef ← MPT.storeNode E (.ext path r)
      return .updated newRef
    | .branch _ _ => do
      let path ← M.lift (np.combine storedPath)
      let newRef ← MPT.storeNode E (.ext path storedRef)
      return .updated newRef

/-- What `_delete` does with the result for the node below a branch, `/repo/src/pymt/mpt.py:1372-1408`. -/
def branchCont (E : Env) (bs : List Bytes) (d : Bytes) (idx : Nat) (action : MPT.DeleteAction) :
    M Store MPT.DeleteAction :=
  match action with
  | .deleted => do
    let branches ← M.lift (pySet bs idx [])
    MPT.afterDeleted E branches d
  | .updated nextRef => do
    let branches ← M.lift (pySet bs idx nextRef)
    let ref ← MPT.storeNode E (.branch branches d)
    return .updated ref
  | .useless _ nextRef => do
    let branches ← M.lift (pySet bs idx nextRef)
    let ref ← MPT.storeNode E (.branch branches d)
    return .updated ref

theorem extCont_writes (E : Env) (np : NibblePath) (a : MPT.DeleteAction) : Writes E (extCont E np a) := by
  cases a with
  | deleted => exact Writes.pure _
  | updated _ => exact (Writes.storeNode _).bind fun _ => Writes.pure _
  | useless _ _ =>
    refine (Writes.getNodeM _).bind fun n => ?_
    split <;> exact (Writes.lift _).bind fun _ => (Writes.storeNode _).bind fun _ => Writes.pure _

theorem branchCont_writes (E : Env) (bs : List Bytes) (d : Bytes) (i : Nat) (a : MPT.DeleteAction) :
    Writes E (branchCont E bs d i a) := by
  cases a with
  | deleted => exact (Writes.lift _).bind fun _ => Writes.afterDeleted _ _
  | updated _ => exact (Writes.lift _).bind fun _ => (Writes.storeNode _).bind fun _ => Writes.pure _
  | useless _ _ => exact (Writes.lift _).bind fun _ => (Writes.storeNode _).bind fun _ => Writes.pure _

theorem deleteAux_ext {E : Env} {f : Nat} {q : List Nib} {c : T} {path np : NibblePath} {nr : Bytes} {st : Store}
    (hp : path.WF) (hnp : np.WF) (hn : MPT.getNodeM (ref E (ext q c)) st = (.ok (.ext np nr), st))
    (hq : np.nibs <+: path.nibs) :
    MPT.deleteAux E (f + 1) (ref E (ext q c)) path st =
      (MPT.deleteAux E f nr (path.consume np.nibs.length) >>= extCont E np) st := by
  rw [MPT.deleteAux, M.bind_apply, hn]
  simp only [M.bind_apply (M.lift _), M.lift_apply, NibblePath.startsWith_spec hp hnp, hq, decide_true, not_true,
    if_false, NibblePath.len_spec hnp]
  rfl

theorem deleteAux_branch {E : Env} {f : Nat} {cs : Nib → T} {v : Bytes} {i : Nib} {p : List Nib} {path : NibblePath}
    {st : Store} (hp : path.WF) (hpn : path.nibs = i :: p) (hne : (cs i).isEmpty = false)
    (hn : MPT.getNodeM (ref E (branch cs v)) st = (.ok (.branch (refs E cs) v), st)) :
    MPT.deleteAux E (f + 1) (ref E (branch cs v)) path st =
      (MPT.deleteAux E f (ref E (cs i)) (path.consume 1) >>= branchCont E (refs E cs) v i.val) st := by
  have hcl : ¬ (ref E (cs i)).length = 0 := by
    have := (ref_length_pos (E := E)).2 hne
    omega
  rw [MPT.deleteAux, M.bind_apply, hn]
  simp only [M.bind_apply (M.lift _), M.lift_apply, NibblePath.len_spec hp, hpn, List.length_cons, Nat.succ_ne_zero,
    ne_eq, not_false_eq_true, true_or, not_true, if_false, false_and, NibblePath.at_zero hpn, refs_get, hcl]
  rfl

theorem bind_log {E : Env} {α β : Type} {m : M Store α} {k : α → M Store β} {st : Store}
    (hk : ∀ a, Writes E (k a)) (hl : LogOk E ((m >>= k) st).2.written) : LogOk E (m st).2.written := by
  rw [M.bind_apply] at hl
  cases h : m st with
  | mk r s =>
    rw [h] at hl
    cases r with
    | error e => exact hl
    | ok a => exact log_of_replay (hk a s) hl

theorem writes_grows {E : Env} {α : Type} {m : M Store α} (hm : Writes E m) (st : Store) : Grows st (m st).2 := by
  obtain ⟨ws, hw⟩ := hm st
  rw [hw]
  clear hw
  induction ws generalizing st with
  | nil => exact Grows.refl _
  | cons w ws ih => exact (Grows.set st _ _).trans (ih _)

/-- A result that is not a KeyError, with its new node in the storage. -/
structure Done (E : Env) (d : DelRes) (st : Store) (o : Py MPT.DeleteAction × Store) : Prop where
  ok : o.1 ≠ .error .keyError
  same : d = .deleted → o.2 = st
  top : Avail E o.2.kv d.tree

theorem afterDeleted_client {E : Env} {cs : Nib → T} {v : Bytes} {st st' : Store} (hag : Agree st'.kv st.kv)
    (hs : ∀ i, Stored E st.kv (cs i)) :
    (∃ y, lastOf cs v = some y ∧ ¬ Avail E st'.kv y ∧
      (MPT.afterDeleted E (refs E cs) v st').1 = .error .keyError) ∨
    ((∀ y, lastOf cs v = some y → Avail E st'.kv y) ∧
      Done E (afterDel cs v) st' (MPT.afterDeleted E (refs E cs) v st')) := by
  unfold MPT.afterDeleted
  simp only [nonEmptyCount_refs, ne_eq, List.length_eq_zero_iff]
  unfold afterDel lastOf
  by_cases h1 : occ cs = 0 ∧ v = []
  · rw [if_pos h1, if_pos h1, if_neg (by omega)]
    exact .inr ⟨by simp, by simp [M.pure_apply], fun _ => rfl, avail_empty _ _⟩
  rw [if_neg h1, if_neg h1]
  by_cases h2 : occ cs = 0 ∧ ¬ v = []
  · rw [if_pos h2, if_pos h2, if_neg (by omega)]
    have hw : (NibblePath.mk [] 0).WF := NibblePath.WF_bytes _
    have hnn : (NibblePath.mk [] 0).nibs = [] := by simp [NibblePath.nibs, toNibs]
    have hr : Rep E (leaf [] v) (.leaf ⟨[], 0⟩ v) := ⟨hw, hnn, rfl⟩
    simp only [M.bind_apply, storeNode_run hr, M.pure_apply]
    exact .inr ⟨by simp, by simp, by simp, avail_put _ _ _⟩
  rw [if_neg h2, if_neg h2]
  by_cases h3 : occ cs = 1 ∧ v = []
  · rw [if_pos h3, if_pos h3, if_pos h3]
    obtain ⟨i, hi, hne⟩ := firstChild_some (cs := cs) (by omega)
    rw [hi]
    simp only [Option.map_some, Option.some.injEq]
    unfold MPT.buildFromLastBranch
    obtain ⟨hw, hpn⟩ := prefixNibble_spec i
    simp only [firstNonEmpty_refs E hi, M.bind_apply (M.lift _), M.lift_apply, refs_get]
    rw [M.bind_apply]
    by_cases ha : Avail E st'.kv (cs i)
    · right
      refine ⟨by rintro y rfl; exact ha, ?_⟩
      obtain ⟨n, hn, hrep⟩ := (light_node hag hne (hs i)).1 ha
      have hn' : MPT.getNodeM (ref E (cs i)) st' = (.ok n, st') := by simp [MPT.getNodeM, hn]
      rw [hn']
      simp only
      unfold fromLast
      rw [hi]
      simp only
      cases hc : cs i with
      | empty => exact absurd hc hne
      | leaf p w =>
        rw [hc] at hrep
        cases n <;> simp only [Rep] at hrep
        rename_i np d
        obtain ⟨g1, rfl, rfl⟩ := hrep
        obtain ⟨q, hq, hqw, hqn⟩ := NibblePath.combine_spec hw g1
        rw [hpn] at hqn
        have hr : Rep E (leaf (i :: np.nibs) d) (.leaf q d) := ⟨hqw, hqn, rfl⟩
        simp only [M.bind_apply, M.lift_apply, hq, storeNode_run hr, M.pure_apply]
        exact ⟨by simp, by simp, avail_put _ _ _⟩
      | ext p c =>
        rw [hc] at hrep
        cases n <;> simp only [Rep] at hrep
        rename_i np d
        obtain ⟨g1, rfl, rfl⟩ := hrep
        obtain ⟨q, hq, hqw, hqn⟩ := NibblePath.combine_spec hw g1
        rw [hpn] at hqn
        have hr : Rep E (ext (i :: np.nibs) c) (.ext q (ref E c)) := ⟨hqw, hqn, rfl⟩
        simp only [M.bind_apply, M.lift_apply, hq, storeNode_run hr, M.pure_apply]
        exact ⟨by simp, by simp, avail_put _ _ _⟩
      | branch ds w =>
        rw [hc] at hrep
        cases n <;> simp only [Rep] at hrep
        have hr : Rep E (ext [i] (branch ds w)) (.ext ⟨[UInt8.ofNat i.val], 1⟩ (ref E (branch ds w))) :=
          ⟨hw, hpn, rfl⟩
        simp only [M.bind_apply, storeNode_run hr, M.pure_apply]
        exact ⟨by simp, by simp, avail_put _ _ _⟩
    · left
      refine ⟨_, rfl, ha, ?_⟩
      have hn' : MPT.getNodeM (ref E (cs i)) st' = (.error .keyError, st') := by
        simp [MPT.getNodeM, (light_node hag hne (hs i)).2 ha]
      rw [hn']
  · rw [if_neg h3, if_neg h3, if_neg h3]
    have hr : Rep E (branch cs v) (.branch (refs E cs) v) := ⟨rfl, rfl⟩
    simp only [M.bind_apply, storeNode_run hr, M.pure_apply]
    exact .inr ⟨by simp, by simp, by simp, avail_put _ _ _⟩

/-- What a delete needs: the nodes on the way and the neighbour. -/
def Lacks (E : Env) (kv : Dict Bytes) (t : T) (p : List Nib) : Prop :=
  Blocked E kv t p ∨ ∃ y, neighbour t p = some y ∧ ¬ Avail E kv y

/-- `_delete` on a storage that agrees with that of the trie. -/
def DelClient (E : Env) (t : T) (p : List Nib) (st : Store) (o : Py MPT.DeleteAction × Store) : Prop :=
  (Lacks E st.kv t p ∧ o.1 = .error .keyError) ∨
  (¬ Lacks E st.kv t p ∧ o.1 ≠ .error .keyError ∧ ∀ d, remove t p = .ok d → Done E d st o ∧
    ∀ q, ∀ x ∈ trail d.tree q, x ∈ trail t q ∨ Avail E o.2.kv x)

theorem mem_trail_child {cs : Nib → T} {v : Bytes} {i : Nib} {q : List Nib} {x : T} {E : Env} {kv : Dict Bytes}
    (h : x ∈ trail (cs i) q) : x ∈ trail (branch cs v) (i :: q) ∨ Avail E kv x := by
  by_cases hem : (cs i).isEmpty = true
  · rw [isEmpty_iff.1 hem] at h
    rw [mem_trail_empty h]
    exact .inr (avail_empty _ _)
  · left; rw [trail_branch hem]; exact List.mem_cons_of_mem _ h

theorem lacks_ext {E : Env} {kv : Dict Bytes} {q : List Nib} {c : T} {p : List Nib} (hq0 : q ≠ [])
    (ha : Avail E kv (ext q c)) (hq : q <+: p) : Lacks E kv (ext q c) p ↔ Lacks E kv c (p.drop q.length) := by
  unfold Lacks
  rw [neighbour, if_pos hq]
  cases p with
  | nil => exact absurd (List.prefix_nil.1 hq) hq0
  | cons i p => rw [blocked_ext ha]; simp only [hq, true_and]

theorem lacks_branch {E : Env} {kv : Dict Bytes} {cs : Nib → T} {v : Bytes} {i : Nib} {p : List Nib}
    (ha : Avail E kv (branch cs v)) (hne : (cs i).isEmpty = false) :
    Lacks E kv (branch cs v) (i :: p) ↔ Lacks E kv (cs i) p ∨
      (remove (cs i) p = .ok .deleted ∧ ∃ y, lastOf (fset cs i empty) v = some y ∧ ¬ Avail E kv y) := by
  unfold Lacks
  rw [neighbour, hne, blocked_branch ha, hne]
  simp only [Bool.false_eq_true, if_false, ne_eq, not_false_eq_true, true_and]
  cases hr : remove (cs i) p with
  | error e => simp
  | ok d =>
    cases d with
    | deleted => simp [neighbour_deleted hr]
    | updated _ => simp
    | useless _ _ => simp

/-- The run on the storage of the trie ends as removal says, hence so does the other if it does not raise KeyError. -/
theorem deleteAux_same {E : Env} (f : Nat) {t : T} (hsh : t.Shape) (hne : t ≠ empty) {st st' : Store}
    {path : NibblePath} (hp : path.WF) (hf : path.nibs.length < f) (hg : Good E st) (hs : Stored E st.kv t)
    (hag : Agree st'.kv st.kv) (hl : LogOk E (MPT.deleteAux E f (ref E t) path st).2.written)
    (hk : (MPT.deleteAux E f (ref E t) path st').1 ≠ .error .keyError) :
    Agree (MPT.deleteAux E f (ref E t) path st').2.kv (MPT.deleteAux E f (ref E t) path st).2.kv ∧
    match remove t path.nibs with
    | .error e => (MPT.deleteAux E f (ref E t) path st').1 = .error e
    | .ok d => ∃ a, (MPT.deleteAux E f (ref E t) path st').1 = .ok a ∧ ActRep E d a ∧
        Stored E (MPT.deleteAux E f (ref E t) path st).2.kv d.tree := by
  have full := deleteAux_run f hsh hne hp hf hg hs rfl hl
  have hno := remove_noKey t path.nibs
  rcases SameM.deleteAux (E := E) f (ref E t) path st' st hag with h | h | ⟨h, ha⟩
  · exact absurd h hk
  · cases hr : remove t path.nibs with
    | error e =>
      rw [hr] at full hno
      rw [full.1] at h
      exact absurd (by injection h with h; rw [h]) hno
    | ok d =>
      rw [hr] at full
      obtain ⟨a, h1, -⟩ := full
      rw [h1] at h; cases h
  · refine ⟨ha, ?_⟩
    rw [h]
    cases hr : remove t path.nibs with
    | error e => rw [hr] at full; exact full.1
    | ok d => rw [hr] at full; exact full

theorem deleteAux_client {E : Env} (f : Nat) {t : T} (hsh : t.Shape) (hne : t ≠ empty) {st st' : Store}
    {path : NibblePath} (hp : path.WF) (hf : path.nibs.length < f) (hg : Good E st) (hs : Stored E st.kv t)
    (hag : Agree st'.kv st.kv) (hl : LogOk E (MPT.deleteAux E f (ref E t) path st).2.written) :
    DelClient E t path.nibs st' (MPT.deleteAux E f (ref E t) path st') := by
  induction f generalizing t path with
  | zero => omega
  | succ f ih =>
    by_cases hav : Avail E st'.kv t
    case neg =>
      refine .inl ⟨.inl (blocked_self hav _), ?_⟩
      have hn' : MPT.getNodeM (ref E t) st' = (.error .keyError, st') := by
        simp [MPT.getNodeM, (light_node hag hne hs).2 hav]
      rw [MPT.deleteAux, M.bind_apply, hn']
    obtain ⟨n, hn, hrep⟩ := (light_node hag hne hs).1 hav
    have hn' : MPT.getNodeM (ref E t) st' = (.ok n, st') := by simp [MPT.getNodeM, hn]
    obtain ⟨m, hm, hrep'⟩ := getNodeM_ref hs hne
    have hnm : n = m := by
      rcases SameR.getNode hag (ref E t) with h | h | h
      · rw [hn] at h; cases h
      · simp [MPT.getNodeM, h] at hm
      · rw [hn] at h; simp [MPT.getNodeM, ← h] at hm; exact hm
    subst hnm
    clear hrep'
    cases t with
    | empty => exact absurd rfl hne
    | leaf q w =>
      cases n <;> simp only [Rep] at hrep
      rename_i np d
      obtain ⟨hnp, rfl, rfl⟩ := hrep
      rw [MPT.deleteAux, M.bind_apply, hn']
      simp only [M.bind_apply, M.lift_apply, NibblePath.eq_spec hp hnp]
      have hno : ¬ Lacks E st'.kv (leaf np.nibs d) path.nibs := by
        rintro (h | ⟨y, h, -⟩)
        · exact blocked_leaf hav _ h
        · cases h
      refine .inr ⟨hno, ?_, ?_⟩
      · split <;> simp [M.pure_apply, M.raise_apply]
      · intro d' hd
        rw [remove] at hd
        split at hd
        · rename_i he
          cases hd
          simp only [he, decide_true, if_true, M.pure_apply]
          exact ⟨⟨by simp, fun _ => rfl, avail_empty _ _⟩, fun q x hx => .inr (by
            rw [mem_trail_empty hx]; exact avail_empty _ _)⟩
        · cases hd
    | ext q c =>
      cases n <;> simp only [Rep] at hrep
      rename_i np nr
      obtain ⟨hnp, rfl, rfl⟩ := hrep
      by_cases he : np.nibs <+: path.nibs
      · have hA : (path.consume np.nibs.length).WF := NibblePath.consume_WF hp he.length_le
        have hAn : (path.consume np.nibs.length).nibs = path.nibs.drop np.nibs.length :=
          NibblePath.consume_nibs _ _
        have hlen : (path.consume np.nibs.length).nibs.length < f := by
          rw [hAn]; exact drop_len hsh.1 he hf
        have hce : c ≠ empty := by rintro rfl; simp [Shape, isBranch] at hsh
        rw [deleteAux_ext hp hnp hm he] at hl
        rw [deleteAux_ext hp hnp hn' he]
        have hl1 := bind_log (extCont_writes E np) hl
        have ihc := ih hsh.2.2 hce hA hlen hs.2 hl1
        have hrun := deleteAux_same f hsh.2.2 hce hA hlen hg hs.2 hag hl1
        rw [hAn] at ihc hrun
        rw [DelClient, lacks_ext hsh.1 hav he, remove, if_pos he]
        rw [M.bind_apply]
        have hgr := writes_grows (Writes.deleteAux (E := E) f (ref E c) (path.consume np.nibs.length)) st'
        generalize (MPT.deleteAux E f (ref E c) (path.consume np.nibs.length) st) = full at hl1 hrun
        generalize (MPT.deleteAux E f (ref E c) (path.consume np.nibs.length) st') = cl at ihc hrun hgr
        obtain ⟨r1, s1⟩ := cl
        rcases ihc with ⟨i1, i2⟩ | ⟨i1, i2, i3⟩
        · simp only at i2
          subst i2
          exact .inl ⟨i1, rfl⟩
        · obtain ⟨ha1, hres⟩ := hrun i2
          right
          cases hrm : remove c (path.nibs.drop np.nibs.length) with
          | error e =>
            rw [hrm] at hres
            simp only at hres
            subst hres
            exact ⟨i1, i2, by simp⟩
          | ok d1 =>
            rw [hrm] at hres
            obtain ⟨a, rfl, hact, hst⟩ := hres
            obtain ⟨i4, i5⟩ := i3 _ hrm
            have old : ∀ {q x}, q ≠ [] → np.nibs <+: q → x ∈ trail d1.tree (q.drop np.nibs.length) →
                x ∈ trail (ext np.nibs c) q ∨ Avail E s1.kv x := by
              intro q x h0 hq hx
              refine (i5 _ x hx).imp (fun hx => ?_) id
              cases q with
              | nil => exact absurd rfl h0
              | cons j q => rw [trail_ext hq]; exact List.mem_cons_of_mem _ hx
            cases d1 with
            | deleted =>
              cases a <;> simp only [ActRep] at hact
              refine ⟨i1, by simp [extCont, M.pure_apply], fun d hd => ?_⟩
              cases hd
              refine ⟨⟨by simp [extCont, M.pure_apply], fun _ => i4.same rfl, avail_empty _ _⟩, fun q x hx => .inr ?_⟩
              rw [mem_trail_empty hx]; exact avail_empty _ _
            | updated c' =>
              cases a <;> simp only [ActRep] at hact
              subst hact
              have hr : Rep E (ext np.nibs c') (.ext np (ref E c')) := ⟨hnp, rfl, rfl⟩
              simp only [extCont, M.bind_apply, storeNode_run hr, M.pure_apply]
              refine ⟨i1, by simp, fun d hd => ?_⟩
              cases hd
              refine ⟨⟨by simp, by simp, avail_put _ _ _⟩, fun q x hx => ?_⟩
              rcases mem_trail_ext hx with rfl | ⟨h0, h1, hx⟩
              · exact .inr (avail_put _ _ _)
              · exact (old h0 h1 hx).imp id (Grows.avail (grows_put _ _ _))
            | useless sp c' =>
              cases a <;> simp only [ActRep] at hact
              rename_i spn sr
              obtain ⟨hspw, hspn, rfl⟩ := hact
              have hok := remove_Ok hrm
              have hcne : c' ≠ empty := by
                rcases hok with ⟨w, rfl⟩ | ⟨d, rfl⟩ <;> simp
              obtain ⟨n', hn', hrep'⟩ := (light_node ha1 hcne hst).1 i4.top
              have hn'' : MPT.getNodeM (ref E c') s1 = (.ok n', s1) := by simp [MPT.getNodeM, hn']
              have hcomb : extCont E np (.useless spn (ref E c')) s1 =
                  (.ok (.updated (ref E (mergeExt np.nibs sp c'))), put E s1 (mergeExt np.nibs sp c')) := by
                rw [← Rep.combine hrep' hnp hok s1 spn (ref E c')]
                unfold extCont
                simp only
                rw [M.bind_apply, hn'']
                rfl
              simp only [hcomb]
              refine ⟨i1, by simp, fun d hd => ?_⟩
              cases hd
              refine ⟨⟨by simp, by simp, avail_put _ _ _⟩, fun q x hx => ?_⟩
              rcases hok with ⟨w, rfl⟩ | ⟨d, rfl⟩
              · simp only [DelRes.tree, mergeExt] at hx
                rw [mem_trail_leaf hx]
                exact .inr (avail_put _ _ _)
              · simp only [DelRes.tree, mergeExt] at hx
                rcases mem_trail_ext hx with rfl | ⟨h0, h1, hx⟩
                · exact .inr (avail_put _ _ _)
                · have h2 := (List.prefix_append _ _).trans h1
                  obtain ⟨q', rfl⟩ := h2
                  have h3 := (List.prefix_append_right_inj _).1 h1
                  have hx' : x ∈ trail (ext sp d) q' := by
                    have hsp : (ext sp d).Shape := Shape.remove hsh.2.2 hrm
                    cases q' with
                    | nil => exact absurd (List.prefix_nil.1 h3) hsp.1
                    | cons j q' =>
                      rw [trail_ext h3]
                      refine List.mem_cons_of_mem _ ?_
                      rw [List.length_append, ← List.drop_drop, List.drop_left] at hx
                      exact hx
                  exact (old h0 (List.prefix_append _ _) (by simpa [DelRes.tree] using hx')).imp id
                    (Grows.avail (grows_put _ _ _))
      · rw [MPT.deleteAux, M.bind_apply, hn']
        simp only [M.bind_apply, M.lift_apply, NibblePath.startsWith_spec hp hnp, he, decide_false, Bool.false_eq_true,
          not_false_eq_true, if_true, M.raise_apply]
        refine .inr ⟨?_, by simp, fun d hd => ?_⟩
        · rintro (h | ⟨y, h, -⟩)
          · cases hpn : path.nibs with
            | nil => rw [hpn] at h; exact blocked_nil hav h
            | cons i p =>
              rw [hpn] at he h
              exact he ((blocked_ext hav _ _).1 h).1
          · rw [neighbour, if_neg he] at h; cases h
        · rw [remove, if_neg he] at hd; cases hd
    | branch cs w =>
      cases n <;> simp only [Rep] at hrep
      rename_i bs d
      obtain ⟨rfl, rfl⟩ := hrep
      cases hpn : path.nibs with
      | nil =>
        rw [MPT.deleteAux, M.bind_apply, hn']
        simp only [M.bind_apply (M.lift _), M.lift_apply, NibblePath.len_spec hp, hpn, List.length_nil, ne_eq,
          not_true, List.length_eq_zero_iff, false_or, true_and]
        by_cases hd : d = []
        · subst hd
          simp only [not_true, not_false_eq_true, if_true, M.raise_apply]
          refine .inr ⟨?_, by simp, fun d hd => ?_⟩
          · rintro (h | ⟨y, h, -⟩)
            · exact blocked_nil hav h
            · simp [neighbour] at h
          · simp [remove] at hd
        · simp only [hd, not_false_eq_true, not_true, if_false, if_true]
          rcases afterDeleted_client (v := []) hag hs.2 with ⟨y, h1, h2, h3⟩ | ⟨h1, h2⟩
          · exact .inl ⟨.inr ⟨y, by rw [neighbour, if_neg hd]; exact h1, h2⟩, h3⟩
          · refine .inr ⟨?_, h2.ok, fun d' hd' => ?_⟩
            · rintro (h | ⟨y, h, h'⟩)
              · exact blocked_nil hav h
              · rw [neighbour, if_neg hd] at h
                exact h' (h1 y h)
            · rw [remove, if_neg hd] at hd'
              cases hd'
              refine ⟨h2, fun q x hx => ?_⟩
              rcases mem_trail_afterDel hsh hx with rfl | ⟨i, q', rfl, hy⟩
              · exact .inr h2.top
              · exact mem_trail_child hy
      | cons i p =>
        obtain ⟨hA, hAn⟩ := nibs_cons_consume hp hpn
        cases hem : (cs i).isEmpty with
        | true =>
          have : (ref E (cs i)).length = 0 := by
            rw [isEmpty_iff.1 hem]; rfl
          rw [MPT.deleteAux, M.bind_apply, hn']
          simp only [M.bind_apply (M.lift _), M.lift_apply, NibblePath.len_spec hp, hpn, List.length_cons, Nat.succ_ne_zero,
            ne_eq, not_false_eq_true, true_or, not_true, if_false, false_and, NibblePath.at_zero hpn, refs_get, this,
            if_true, M.raise_apply]
          refine .inr ⟨?_, by simp, fun d hd => ?_⟩
          · rintro (h | ⟨y, h, -⟩)
            · exact ((blocked_branch hav _ _).1 h).1 hem
            · rw [neighbour, hem] at h; cases h
          · rw [remove, hem] at hd; cases hd
        | false =>
          have hce : cs i ≠ empty := by intro e; rw [e] at hem; simp [isEmpty] at hem
          have hlen : (path.consume 1).nibs.length < f := by
            rw [hAn]; rw [hpn] at hf; simp at hf; omega
          rw [deleteAux_branch hp hpn hem hm] at hl
          rw [deleteAux_branch hp hpn hem hn']
          have hl1 := bind_log (branchCont_writes E (refs E cs) d i.val) hl
          have ihc := ih (hsh i) hce hA hlen (hs.2 i) hl1
          have hrun := deleteAux_same f (hsh i) hce hA hlen hg (hs.2 i) hag hl1
          rw [hAn] at ihc hrun
          rw [DelClient, lacks_branch hav hem, remove, hem]
          simp only [Bool.false_eq_true, if_false]
          rw [M.bind_apply]
          have hgr := writes_grows (Writes.deleteAux (E := E) f (ref E (cs i)) (path.consume 1)) st'
          have hstep := step_writes (Writes.deleteAux (E := E) f (ref E (cs i)) (path.consume 1)) rfl hg hl1
          generalize (MPT.deleteAux E f (ref E (cs i)) (path.consume 1) st) = full at hl1 hrun hstep
          generalize (MPT.deleteAux E f (ref E (cs i)) (path.consume 1) st') = cl at ihc hrun hgr
          obtain ⟨r1, s1⟩ := cl
          rcases ihc with ⟨i1, i2⟩ | ⟨i1, i2, i3⟩
          · simp only at i2
            subst i2
            exact .inl ⟨.inl i1, rfl⟩
          · obtain ⟨ha1, hres⟩ := hrun i2
            have keySet : ∀ c', (do
                let branches ← M.lift (pySet (refs E cs) i.val (ref E c'))
                let ref ← MPT.storeNode E (.branch branches d)
                return MPT.DeleteAction.updated ref : M Store MPT.DeleteAction) s1 =
                (.ok (.updated (ref E (branch (fset cs i c') d))), put E s1 (branch (fset cs i c') d)) := by
              intro c'
              have hr : Rep E (branch (fset cs i c') d) (.branch (refs E (fset cs i c')) d) := ⟨rfl, rfl⟩
              simp only [M.bind_apply, M.lift_apply, refs_set, storeNode_run hr, M.pure_apply]
            have upd : ∀ c', (∀ q, ∀ x ∈ trail c' q, x ∈ trail (cs i) q ∨ Avail E s1.kv x) →
                Done E (.updated (branch (fset cs i c') d)) st'
                  (.ok (.updated (ref E (branch (fset cs i c') d))), put E s1 (branch (fset cs i c') d)) ∧
                ∀ q, ∀ x ∈ trail (branch (fset cs i c') d) q, x ∈ trail (branch cs d) q ∨
                  Avail E (put E s1 (branch (fset cs i c') d)).kv x := by
              intro c' hc'
              refine ⟨⟨by simp, by simp, avail_put _ _ _⟩, fun q x hx => ?_⟩
              rcases mem_trail_branch hx with rfl | ⟨j, q', rfl, hy⟩
              · exact .inr (avail_put _ _ _)
              · simp only [fset] at hy
                split at hy
                · rename_i hij
                  subst hij
                  rcases hc' _ x hy with hy | hy
                  · exact mem_trail_child hy
                  · exact .inr (Grows.avail (grows_put _ _ _) hy)
                · exact mem_trail_child hy
            cases hrm : remove (cs i) p with
            | error e =>
              rw [hrm] at hres
              simp only at hres
              subst hres
              exact .inr ⟨fun h => h.elim i1 (fun h => nomatch h.1), i2, by simp⟩
            | ok d1 =>
              rw [hrm] at hres
              obtain ⟨a, rfl, hact, hst⟩ := hres
              obtain ⟨i4, i5⟩ := i3 _ hrm
              cases d1 with
              | deleted =>
                cases a <;> simp only [ActRep] at hact
                have hss : s1 = st' := i4.same rfl
                have hset : pySet (refs E cs) i.val [] = .ok (refs E (fset cs i empty)) := refs_set E cs i empty
                simp only [branchCont, M.bind_apply, M.lift_apply, hset]
                have hsf : ∀ j, Stored E full.2.kv (fset cs i empty j) := by
                  intro j
                  simp only [fset]; split
                  · trivial
                  · exact hstep.stored (hs.2 j)
                have hshf : ∀ j, (fset cs i empty j).Shape := by
                  intro j
                  simp only [fset]; split
                  · trivial
                  · exact hsh j
                rcases afterDeleted_client (v := d) ha1 hsf with ⟨y, h1, h2, h3⟩ | ⟨h1, h2⟩
                · simp only at h2 h3
                  exact .inl ⟨.inr ⟨trivial, y, h1, hss ▸ h2⟩, h3⟩
                · refine .inr ⟨?_, h2.ok, fun d' hd' => ?_⟩
                  · rintro (h | ⟨-, y, h, h'⟩)
                    · exact i1 h
                    · exact h' (hss ▸ h1 y h)
                  · cases hd'
                    refine ⟨⟨h2.ok, fun e => (h2.same e).trans hss, h2.top⟩, fun q x hx => ?_⟩
                    rcases mem_trail_afterDel hshf hx with rfl | ⟨j, q', rfl, hy⟩
                    · exact .inr h2.top
                    · simp only [fset] at hy
                      split at hy
                      · rw [mem_trail_empty hy]; exact .inr (avail_empty _ _)
                      · exact mem_trail_child hy
              | updated c' =>
                cases a <;> simp only [ActRep] at hact
                subst hact
                obtain ⟨u1, u2⟩ := upd c' i5
                simp only [branchCont, keySet]
                refine .inr ⟨fun h => h.elim i1 (fun h => nomatch h.1), by simp, fun d' hd' => ?_⟩
                cases hd'
                exact ⟨u1, u2⟩
              | useless sp c' =>
                cases a <;> simp only [ActRep] at hact
                obtain ⟨-, -, rfl⟩ := hact
                obtain ⟨u1, u2⟩ := upd c' i5
                simp only [branchCont, keySet]
                refine .inr ⟨fun h => h.elim i1 (fun h => nomatch h.1), by simp, fun d' hd' => ?_⟩
                cases hd'
                exact ⟨u1, u2⟩

theorem lcp_both (p x y : List Nib) : lcp (p ++ x) (p ++ y) = p ++ lcp x y := by
  induction p with
  | nil => rfl
  | cons a p ih => simp [lcp, ih]

theorem mem_trail_self (t : T) (p : List Nib) : t ∈ trail t p := by
  obtain ⟨l, hl⟩ := trail_head (t := t) p
  rw [hl]; simp

theorem lastOf_some {cs : Nib → T} {v : Bytes} {y : T} (h : lastOf cs v = some y) :
    v = [] ∧ occ cs = 1 ∧ ∃ i, y = cs i ∧ cs i ≠ empty ∧ ∀ j, cs j ≠ empty → j = i := by
  unfold lastOf at h
  split at h
  · rename_i h1
    obtain ⟨i, hi, hne⟩ := firstChild_some (cs := cs) (by omega)
    rw [hi] at h
    simp only [Option.map_some, Option.some.injEq] at h
    exact ⟨h1.2, h1.1, i, h.symm, hne, fun j hj => occ_one_unique h1.1 hj hne⟩
  · cases h

/-- The neighbour is on the way of all paths that share most with the one deleted, and there are some. -/
theorem neighbour_near {t : T} (h : t.Full) {p : List Nib} {y : T} (hy : neighbour t p = some y) :
    lookup t p ≠ none ∧ ∃ n, (∀ p', lookup t p' ≠ none → p' ≠ p → n ≤ (lcp p p').length → y ∈ trail t p') ∧
      ∃ p', lookup t p' ≠ none ∧ p' ≠ p ∧ n ≤ (lcp p p').length := by
  induction t generalizing p with
  | empty => cases hy
  | leaf q v => cases hy
  | ext q c ih =>
    rw [neighbour] at hy
    split at hy
    · rename_i hq
      obtain ⟨p, rfl⟩ := hq
      rw [List.drop_left] at hy
      obtain ⟨h0, n, h1, p1, h2, h3, h4⟩ := ih h.2.2 hy
      refine ⟨by simpa using h0, q.length + n, fun p' hp' hne hn => ?_, q ++ p1, by simpa using h2, ?_, ?_⟩
      · obtain ⟨w, hw⟩ := Option.ne_none_iff_exists'.1 hp'
        obtain ⟨p', rfl, hp2⟩ := lookup_ext_some hw
        have := h1 p' (by simp [hp2]) (fun e => hne (by rw [e])) (by
          rw [lcp_both, List.length_append] at hn; omega)
        cases hqp : q ++ p' with
        | nil => simp at hqp; exact absurd hqp.1 h.1
        | cons j r =>
          rw [← hqp, show trail (ext q c) (q ++ p') = ext q c :: trail c p' by
            have := trail_ext (c := c) (q := q) (i := j) (p := r) (by rw [← hqp]; exact List.prefix_append _ _)
            rw [← hqp, List.drop_left] at this
            exact this]
          exact List.mem_cons_of_mem _ this
      · intro e; exact h3 (List.append_cancel_left e)
      · rw [lcp_both, List.length_append]; omega
    · cases hy
  | branch cs v ih =>
    cases p with
    | nil =>
      rw [neighbour] at hy
      split at hy
      · cases hy
      rename_i hv
      obtain ⟨-, -, i, rfl, hne, huniq⟩ := lastOf_some hy
      refine ⟨by simp [lookup, hv], 0, fun p' hp' hne' _ => ?_, ?_⟩
      · cases p' with
        | nil => exact absurd rfl hne'
        | cons j r =>
          have hj : cs j ≠ empty := by intro e; simp [lookup, e] at hp'
          have := huniq j hj
          subst this
          rw [trail_branch (by simpa [isEmpty_iff] using hj)]
          exact List.mem_cons_of_mem _ (mem_trail_self _ _)
      · obtain ⟨r, w, hr⟩ := (h.2 i).exists_key hne
        exact ⟨i :: r, by simp [lookup, hr], by simp, by simp⟩
    | cons i p =>
      rw [neighbour] at hy
      split at hy
      · cases hy
      rename_i hem
      have hdesc : neighbour (cs i) p = some y → lookup (branch cs v) (i :: p) ≠ none ∧
          ∃ n, (∀ p', lookup (branch cs v) p' ≠ none → p' ≠ i :: p → n ≤ (lcp (i :: p) p').length →
            y ∈ trail (branch cs v) p') ∧
          ∃ p', lookup (branch cs v) p' ≠ none ∧ p' ≠ i :: p ∧ n ≤ (lcp (i :: p) p').length := by
        intro hy
        obtain ⟨h0, n, h1, p1, h2, h3, h4⟩ := ih i (h.2 i) hy
        refine ⟨by simpa [lookup] using h0, n + 1, fun p' hp' hne hn => ?_, i :: p1, by simpa [lookup] using h2, ?_, ?_⟩
        · cases p' with
          | nil => simp [lcp] at hn
          | cons j r =>
            by_cases hij : i = j
            · subst hij
              rw [trail_branch hem]
              refine List.mem_cons_of_mem _ (h1 r (by simpa [lookup] using hp') (fun e => hne (by rw [e])) ?_)
              simpa [lcp] using hn
            · simp [lcp, hij] at hn
        · intro e; exact h3 (by injection e)
        · simpa [lcp] using h4
      split at hy
      · rename_i hr
        obtain ⟨hv, -, j, rfl, hne, huniq⟩ := lastOf_some hy
        have hji : j ≠ i := by rintro rfl; simp [fset] at hne
        have hlook : lookup (cs i) p ≠ none := by
          intro hn
          have hci : cs i ≠ empty := by simpa [isEmpty_iff] using hem
          obtain ⟨e, he, _⟩ := (h.2 i).remove_none hci hn
          rw [hr] at he; cases he
        obtain ⟨w, hw⟩ := Option.ne_none_iff_exists'.1 hlook
        obtain ⟨d, hd, -, -, -, -, hl⟩ := (h.2 i).remove_some hw
        rw [hr] at hd
        cases hd
        refine ⟨by simpa [lookup] using hlook, 0, fun p' hp' hne' _ => ?_, ?_⟩
        · cases p' with
          | nil => simp [lookup, hv] at hp'
          | cons m r =>
            by_cases hm : m = i
            · subst hm
              have := hl r
              rw [if_neg (fun e => hne' (by rw [e]))] at this
              simp only [DelRes.tree, lookup] at this
              rw [lookup, ← this] at hp'
              exact absurd rfl hp'
            · have hj : cs m ≠ empty := by intro e; simp [lookup, e] at hp'
              have := huniq m (by simpa [fset, hm] using hj)
              subst this
              simp only [fset, hm, if_false]
              rw [trail_branch (by simpa [isEmpty_iff] using hj)]
              exact List.mem_cons_of_mem _ (mem_trail_self _ _)
        · obtain ⟨r, w, hr⟩ := (h.2 j).exists_key (by simpa [fset, hji] using hne)
          exact ⟨j :: r, by simp [lookup, hr], by simp [hji], by simp⟩
      · exact hdesc hy

end T
end Pymt
