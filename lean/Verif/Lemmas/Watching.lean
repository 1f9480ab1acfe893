import Verif.Lemmas.Readers
import Verif.Lemmas.Collect
import Verif.Spec.Watching

/-!
# Lemmas: a thread that reads while others write
-/

namespace Pymt

/-! ## The hash of the empty node is the root of a new trie only -/

namespace T

/-- Deleting the last key leaves `None`. -/
theorem Holds.delete_gone {E : Env} {t : MPT} {a : T} (h : Holds E t a) (hne : a ≠ empty) {key : Bytes}
    (hk : (toNibs (t.keyOf E key)).length < E.limit) (hl : LogOk E (MPT.delete E key t).2.store.written)
    (hrem : remove a (toNibs (t.keyOf E key)) = .ok .deleted) : (MPT.delete E key t).2.root = none := by
  have hw := delete_writes E key t
  have hstep := step_replay h.good hl hw
  have hi : a.isEmpty = false := by cases a <;> simp_all [isEmpty]
  have he : MPT.delete E key t = match MPT.deleteAux E E.limit (ref E a) ⟨t.keyOf E key, 0⟩ t.store with
      | (.ok .deleted, st) => (.ok (), { t with store := st, root := none })
      | (.ok (.updated r), st) => (.ok (), { t with store := st, root := some r })
      | (.ok (.useless _ r), st) => (.ok (), { t with store := st, root := some r })
      | (.error e, st) => (.error e, { t with store := st }) := by
    rw [delete_eq, h.noRoot hstep.log, hi, if_neg (by simp), h.getD hne]
    cases MPT.deleteAux E E.limit (ref E a) ⟨t.keyOf E key, 0⟩ t.store with
    | mk r st => cases r with
      | error e => rfl
      | ok d => cases d <;> rfl
  cases hr : MPT.deleteAux E E.limit (ref E a) ⟨t.keyOf E key, 0⟩ t.store with
  | mk r' st' =>
    have hst : st' = (MPT.delete E key t).2.store := by
      rw [he, hr]
      cases r' with
      | error e => rfl
      | ok d => cases d <;> rfl
    have hnib := NibblePath.nibs_bytes (t.keyOf E key)
    have hlim : (NibblePath.mk (t.keyOf E key) 0).nibs.length < E.limit := by rwa [hnib]
    have hspec := deleteAux_run E.limit h.shape hne (NibblePath.WF_bytes _) hlim h.good h.stored hr (hst ▸ hl)
    rw [hnib, hrem] at hspec
    obtain ⟨act, rfl, hact, _⟩ := hspec
    cases act <;> simp only [ActRep] at hact
    rw [he, hr]

theorem Holds.root_ne {E : Env} {t : MPT} {a : T} (h : Holds E t a) (hl : LogOk E t.store.written) (hne : a ≠ empty) :
    t.root ≠ some (emptyHash E) := by
  intro hr
  have hn : t.noRoot E = true := by unfold MPT.noRoot; simp [hr]
  rw [h.noRoot hl] at hn
  cases a <;> simp_all [isEmpty]

end T

theorem Bears.exec_root {E : Env} {t : MPT} {a : T} (h : Bears E t a) {op : Op}
    (hf : Fits E t.secure op.key) (hl : LogOk E (MPT.exec E op t).2.store.written)
    (hr : (MPT.exec E op t).2.root = some (emptyHash E)) : t.root = some (emptyHash E) := by
  cases op with
  | update k v =>
    have hf' : Fits E t.secure k := hf
    exact absurd hr ((h.holds.update (key := k) (v := v) (fits_nibs hf') rfl hl).2.root_ne hl (T.insert_ne_empty _ _ _))
  | delete k =>
    have hf' : Fits E t.secure k := hf
    have hl' : LogOk E (MPT.delete E k t).2.store.written := hl
    have hl0 := log_of_replay (exec_writes E (.delete k) t) hl
    change (MPT.delete E k t).2.root = _ at hr
    by_cases hne : a = .empty
    · subst hne
      rwa [h.holds.delete_empty hl0 k] at hr
    cases hm : T.lookup a (toNibs (t.keyOf E k)) with
    | none =>
      obtain ⟨e, he, _⟩ := h.full.remove_none hne hm
      rwa [h.holds.delete_fail (key := k) hne hl0 (fits_nibs hf') he] at hr
    | some w =>
      have hd := h.holds.delete (key := k) hne (fits_nibs hf') rfl hl'
      obtain ⟨d, hrm, hc, hok, _, hnd, hlook⟩ := h.full.remove_some hm
      rw [hrm] at hd
      obtain ⟨r1, r2⟩ := hd
      cases d with
      | deleted =>
        rw [h.holds.delete_gone hne (fits_nibs hf') hl' hrm] at hr
        exact (nomatch hr)
      | updated t' => exact absurd hr ((r2 (.inl (hnd t' rfl))).root_ne hl (hnd t' rfl))
      | useless p t' =>
        have hne' : (T.DelRes.useless p t').tree ≠ .empty := by
          rcases hok with ⟨v, rfl⟩ | ⟨c, rfl⟩ <;> simp [T.DelRes.tree]
        exact absurd hr ((r2 (.inl hne')).root_ne hl hne')

theorem Peaceful.root_stays {E : Env} {secure : Nat → Bool} {calls : Nat → List (Nat × Call)} {log : List Bytes}
    (h : Peaceful E secure calls log) (j : Nat) {q q' : Nat} (hq : q ≤ q')
    (hr : (stateAt E secure calls j q).root ≠ some (emptyHash E)) :
    (stateAt E secure calls j q').root ≠ some (emptyHash E) := by
  induction q' with
  | zero => rw [Nat.le_zero.1 hq] at hr; exact hr
  | succ p ih =>
    rcases Nat.lt_or_eq_of_le hq with hlt | he
    · have ih := ih (Nat.le_of_lt_succ hlt)
      intro hr'
      apply ih
      cases hc : (calls j)[p]? with
      | none =>
        have : stateAt E secure calls j (p + 1) = stateAt E secure calls j p := by
          unfold stateAt
          rw [List.take_add_one, hc]
          simp
        rwa [this] at hr'
      | some x =>
        obtain ⟨i, c⟩ := x
        have hn := Peaceful.state_next (E := E) (secure := secure) hc
        cases hop : c.op? with
        | none => rw [hn, hop] at hr'; exact hr'
        | some op =>
          rw [hop] at hn
          simp only at hn
          rw [hn] at hr'
          have hmem := List.mem_of_getElem? hc
          have hi : i = j := h.one j _ hmem (by rw [hop]; simp)
          have hfit := h.fits j _ hmem
          simp only [hi] at hfit
          have hkey : op.key = c.key := by cases c <;> simp only [Call.op?, Option.some.injEq, reduceCtorEq] at hop <;> subst hop <;> rfl
          refine (h.state_bears j p).exec_root (op := op) ?_ ?_ hr'
          · rw [Peaceful.state_secure, hkey]
            exact hfit
          · rw [← hn]
            exact h.log.mono (h.state_written j (p + 1))
    · rw [← he]; exact hr

/-! ## A program along changing views -/

/-- The views of a reader: the trie passes through the states `st 0`, `st 1`, ..., and the `n`-th access sees the root
of state `e n` and at least its nodes. -/
structure Views (E : Env) (log : List Bytes) (sec : Bool) (st : Nat → MPT) (e : Nat → Nat) (V : Nat → MPT) :
    Prop where
  ok : ∀ q, StOk E log sec (st q)
  emono : ∀ n, e n ≤ e (n + 1)
  root : ∀ n, (V n).root = (st (e n)).root
  sub : ∀ n, Sub (st (e n)).store (V n).store
  mono : ∀ n, Sub (V n).store (V (n + 1)).store
  gs : ∀ n, GS E log (V n).store
  log : LogOk E log
  stays : ∀ q q', q ≤ q' → (st q).root ≠ some (emptyHash E) → (st q').root ≠ some (emptyHash E)

theorem worldAt_split {E : Env} {secure : Nat → Bool} {calls : Nat → List (Nat × Call)} {sched : List Nat} {q q' : Nat}
    (h : q ≤ q') : ∃ l, worldAt E secure calls sched q' = (worldAt E secure calls sched q).run E l := by
  refine ⟨(sched.take q').drop q, ?_⟩
  unfold worldAt World.run
  rw [← List.foldl_append]
  congr 1
  rw [show sched.take q = (sched.take q').take q by rw [List.take_take, Nat.min_eq_left h], List.take_append_drop]

theorem WorldOk.run_sub {E : Env} {secure : Nat → Bool} {calls : Nat → List (Nat × Call)} {log : List Bytes}
    {w : World} (hp : Peaceful E secure calls log) (h : WorldOk E secure calls log w) (l : List Nat) :
    Sub w.store (w.run E l).store := by
  induction l generalizing w with
  | nil => exact Sub.refl _
  | cons j l ih => exact (h.step_sub hp j).trans (ih (h.step hp j))

theorem Peaceful.views {E : Env} {secure : Nat → Bool} {calls : Nat → List (Nat × Call)} {log : List Bytes}
    (h : Peaceful E secure calls log) (sched : List Nat) (i : Nat) {mom : Nat → Nat} {a b : Nat}
    (hm : Moments mom a b) :
    Views E log (secure i) (stateAt E secure calls i) (fun n => (worldAt E secure calls sched (mom n)).ended i)
      (viewAt E secure calls sched i mom) := by
  have ok : ∀ q, WorldOk E secure calls log (worldAt E secure calls sched q) :=
    fun q => (WorldOk.new E secure calls log).run h _
  refine ⟨h.stOk i, fun n => ?_, fun n => ((ok _).thread i).root, fun n => ((ok _).thread i).sub, fun n => ?_,
    fun n => (ok _).gs, h.log, fun q q' hq => h.root_stays i hq⟩
  · obtain ⟨l, e⟩ := worldAt_split (E := E) (secure := secure) (calls := calls) (sched := sched) (hm.mono n)
    simp only [e]
    exact World.ended_run E _ i l
  · obtain ⟨l, e⟩ := worldAt_split (E := E) (secure := secure) (calls := calls) (sched := sched) (hm.mono n)
    show Sub (worldAt E secure calls sched (mom n)).store (worldAt E secure calls sched (mom (n + 1))).store
    rw [e]
    exact (ok _).run_sub h l

theorem Moments.ended_bounds {E : Env} {secure : Nat → Bool} {calls : Nat → List (Nat × Call)} {sched : List Nat}
    {mom : Nat → Nat} {a b : Nat} (hm : Moments mom a b) (i n : Nat) :
    (worldAt E secure calls sched a).ended i ≤ (worldAt E secure calls sched (mom n)).ended i ∧
      (worldAt E secure calls sched (mom n)).ended i ≤ (worldAt E secure calls sched b).ended i := by
  obtain ⟨l, e⟩ := worldAt_split (E := E) (secure := secure) (calls := calls) (sched := sched) (hm.low n)
  obtain ⟨l', e'⟩ := worldAt_split (E := E) (secure := secure) (calls := calls) (sched := sched) (hm.high n)
  exact ⟨by rw [e]; exact World.ended_run E _ i l, by rw [e']; exact World.ended_run E _ i l'⟩

namespace Prog
variable {α β : Type}

theorem along_bind (V : Nat → MPT) (p : Prog α) (f : α → Prog β) (m : Nat) :
    (p >>= f).along V m = match p.along V m with
      | (.ok a, m') => (f a).along V m'
      | (.error e, m') => (.error e, m') := by
  show (p.bind f).along V m = _
  induction p generalizing m with
  | done r => cases r <;> rfl
  | load k n ih =>
    simp only [Prog.bind, along]
    cases dget (V m).store.kv k with
    | none => rfl
    | some v => exact ih v _
  | save k v n ih => exact ih _
  | root n ih => exact ih _ _
  | setRoot r n ih => exact ih _

theorem along_le (V : Nat → MPT) (p : Prog α) (m : Nat) : m ≤ (p.along V m).2 := by
  induction p generalizing m with
  | done r => exact Nat.le_refl _
  | load k n ih =>
    simp only [along]
    cases dget (V m).store.kv k with
    | none => exact Nat.le_succ _
    | some v => exact Nat.le_trans (Nat.le_succ _) (ih v _)
  | save k v n ih => exact Nat.le_trans (Nat.le_succ _) (ih _)
  | root n ih => exact Nat.le_trans (Nat.le_succ _) (ih _ _)
  | setRoot r n ih => exact Nat.le_trans (Nat.le_succ _) (ih _)

end Prog

namespace Views
variable {E : Env} {log : List Bytes} {sec : Bool} {st : Nat → MPT} {e : Nat → Nat} {V : Nat → MPT} {α : Type}

theorem e_le (h : Views E log sec st e V) {m n : Nat} (hm : m ≤ n) : e m ≤ e n := by
  induction n with
  | zero => rw [Nat.le_zero.1 hm]; exact Nat.le_refl _
  | succ n ih =>
    rcases Nat.lt_or_eq_of_le hm with hlt | he
    · exact Nat.le_trans (ih (Nat.le_of_lt_succ hlt)) (h.emono n)
    · rw [he]; exact Nat.le_refl _

/-- A walk along references finds what it would have found in the state it began in. -/
theorem walk (h : Views E log sec st e V) {p : Prog α} {t : MPT} {m : Nat} (hq : p.Quiet) (hi : p.Inner E)
    (hf : p.Fine E t) (hs : Sub t.store (V m).store) :
    (p.along V m).1 = (p.alone t).1 := by
  induction p generalizing m with
  | done r => rfl
  | load k n ih =>
    simp only [Prog.along, Prog.alone, Prog.Fine] at hf ⊢
    cases hk : dget t.store.kv k with
    | none =>
      rw [hk] at hf
      simp only at hf
      subst hf
      rw [(h.gs m).noEmpty h.log]
    | some v =>
      rw [hk] at hf
      rw [hs _ _ hk]
      exact ih v (hq v) (hi v) hf (hs.trans (h.mono m))
  | save k v n ih => exact hq.elim
  | root n ih => exact hi.elim
  | setRoot r n ih => exact hq.elim

/-- `contains` while others write. -/
theorem stage (h : Views E log sec st e V) {c : Call} (hc : c.op? = none) (hf : Fits E sec c.key) {p : Prog Ans}
    {lo m : Nat} (hlo : lo ≤ e m)
    (hp : Stage E sec st c (fun q => lo ≤ q ∧ q ≤ e m) (V m).store p) :
    Answer E st c (fun q => lo ≤ q ∧ q ≤ e (p.along V m).2) (p.along V m).1 := by
  induction p generalizing m with
  | done x => exact hp.ofDone hc
  | load k n ih =>
    have up : ∀ {p}, Stage E sec st c (fun q => lo ≤ q ∧ q ≤ e m) (V m).store p →
        Stage E sec st c (fun q => lo ≤ q ∧ q ≤ e (m + 1)) (V (m + 1)).store p :=
      fun hp => hp.grow h.log (h.mono m) (h.gs _) fun q hq => ⟨hq.1, Nat.le_trans hq.2 (h.emono m)⟩
    simp only [Prog.along]
    cases hk : dget (V m).store.kv k with
    | none => exact (up ((hp.ofLoad hc).2 hk)).ofDone hc
    | some v => exact ih v (Nat.le_trans hlo (h.emono m)) (up ((hp.ofLoad hc).1 v hk))
  | save k v n ih => exact absurd hp (Stage.noSave hc)
  | root n ih =>
    have h5 := hp.ofRoot h.log (h.ok (e m)) hc hf ⟨hlo, Nat.le_refl _⟩ (fun _ h => h.2) (h.sub m) (h.gs m)
    rw [← h.root m] at h5
    exact ih _ (Nat.le_trans hlo (h.emono m))
      (h5.grow h.log (h.mono m) (h.gs _) fun q hq => ⟨hq.1, Nat.le_trans hq.2 (h.emono m)⟩)
  | setRoot r n ih => exact absurd hp (Stage.noSet hc)

end Views

end Pymt
