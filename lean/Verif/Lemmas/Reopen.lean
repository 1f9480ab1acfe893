import Verif.Lemmas.Same
import Verif.Lemmas.Closed
import Verif.Spec.Storage

/-!
# Tries over a storage that grew
-/

namespace Pymt

theorem T.Holds.withStore {E : Env} {t : MPT} {a : T} (h : T.Holds E t a) {st : Store}
    (hst : ∃ ws, st = replay E ws t.store) (hl : LogOk E st.written) :
    T.Holds E { t with store := st } a := by
  have hs := T.step_replay h.good hl hst
  exact ⟨h.shape, hs.stored h.stored, hs.good, h.root⟩

theorem T.Holds.reopen {E : Env} {t : MPT} {a : T} (h : T.Holds E t a) {st : Store}
    (hst : ∃ ws, st = replay E ws t.store) (hl : LogOk E st.written) (secure : Bool) :
    T.Holds E (MPT.init E st t.root secure) a := by
  have hs := T.step_replay h.good hl hst
  refine ⟨h.shape, hs.stored h.stored, hs.good, ?_⟩
  rcases h.root with ⟨h0, h1 | h1⟩ | ⟨h0, h1⟩
  · exact .inl ⟨h0, .inr (by simp [MPT.init, h1])⟩
  · exact .inl ⟨h0, .inr (by simp [MPT.init, h1])⟩
  · exact .inr ⟨h0, by simp [MPT.init, h1]⟩

theorem Inv.withStore {E : Env} {t : MPT} {m : Contents} (h : Inv E t m) {st : Store}
    (hst : ∃ ws, st = replay E ws t.store) (hl : LogOk E st.written) : Inv E { t with store := st } m := by
  obtain ⟨a, h1, h2⟩ := h
  exact ⟨a, h1.withStore hst hl, h2⟩

theorem Inv.reopen {E : Env} {t : MPT} {m : Contents} (h : Inv E t m) {st : Store}
    (hst : ∃ ws, st = replay E ws t.store) (hl : LogOk E st.written) (secure : Bool) :
    Inv E (MPT.init E st t.root secure) m := by
  obtain ⟨a, h1, h2⟩ := h
  exact ⟨a, h1.reopen hst hl secure, h2⟩

/-- Calls on the same abstract trie end the same way. -/
theorem T.Holds.outcome {E : Env} {t t' : MPT} {a : T} (h : T.Holds E t a) (h' : T.Holds E t' a)
    (hs : t.secure = t'.secure) {op : Op} (hf : Fits E t.secure op.key)
    (hl : LogOk E (MPT.exec E op t).2.store.written) (hl' : LogOk E (MPT.exec E op t').2.store.written) :
    (MPT.exec E op t).1 = (MPT.exec E op t').1 := by
  have hf' : Fits E t'.secure op.key := hs ▸ hf
  cases op with
  | update k v =>
    exact (h.update (fits_nibs hf) rfl hl).1.trans (h'.update (fits_nibs hf') rfl hl').1.symm
  | delete k =>
    have p1 := log_of_replay (exec_writes E (.delete k) t) hl
    have p2 := log_of_replay (exec_writes E (.delete k) t') hl'
    by_cases hne : a = .empty
    · subst hne
      simp only [MPT.exec]
      rw [h.delete_empty p1 k, h'.delete_empty p2 k]
    · have d1 : T.DelOk E t (MPT.delete E k t).1 (MPT.delete E k t).2 (T.remove a (toNibs (t.keyOf E k))) :=
        h.delete hne (fits_nibs hf) rfl hl
      have d2 : T.DelOk E t' (MPT.delete E k t').1 (MPT.delete E k t').2
        (T.remove a (toNibs (t'.keyOf E k))) := h'.delete hne (fits_nibs hf') rfl hl'
      have hk : t.keyOf E k = t'.keyOf E k := by simp [keyOf_eq, hs]
      rw [hk] at d1
      revert d1 d2
      cases T.remove a (toNibs (t'.keyOf E k)) with
      | error e => intro d1 d2; exact d1.1.trans d2.1.symm
      | ok d => intro d1 d2; exact d1.1.trans d2.1.symm

/-! ### Crashes -/

theorem crashed_replay (E : Env) (op : Op) (t : MPT) (n : Nat) :
    ∃ ws, crashed E op t n = replay E ws t.store := ⟨_, rfl⟩

theorem crashed_log {E : Env} {op : Op} {t : MPT} {n : Nat}
    (hl : LogOk E (MPT.exec E op t).2.store.written) : LogOk E (crashed E op t n).written := by
  refine hl.mono fun a ha => ?_
  obtain ⟨ws, hw⟩ := exec_writes E op t
  have e : crashed E op t n = replay E (((MPT.exec E op t).2.store.written.drop
    t.store.written.length).take n) t.store := rfl
  rw [e, replay_written, hw, replay_written] at ha
  rw [hw, replay_written]
  simp only [List.drop_left, List.mem_append] at ha ⊢
  rcases ha with ha | ha
  · exact .inl ha
  · exact .inr (List.mem_of_mem_take ha)

/-- After all the writes the storage is the one the call leaves. -/
theorem crashed_all (E : Env) (op : Op) (t : MPT) :
    crashed E op t ((MPT.exec E op t).2.store.written.length) = (MPT.exec E op t).2.store := by
  obtain ⟨ws, hw⟩ := exec_writes E op t
  have e : crashed E op t ((MPT.exec E op t).2.store.written.length) =
    replay E (((MPT.exec E op t).2.store.written.drop t.store.written.length).take
      ((MPT.exec E op t).2.store.written.length)) t.store := rfl
  rw [e, hw, replay_written, List.drop_left, List.take_of_length_le (by simp)]

/-! ### Shared storages -/

theorem Shared.exec_store {E : Env} {i : Nat} {op : Op} {w : Shared} :
    ∃ ws, (Shared.exec E i op w).store = replay E ws w.store := exec_writes E op (w.obj i)

theorem Shared.run_store {E : Env} {calls : List (Nat × Op)} {w : Shared} :
    ∃ ws, (Shared.run E calls w).store = replay E ws w.store := by
  induction calls generalizing w with
  | nil => exact ⟨[], rfl⟩
  | cons c calls ih =>
    obtain ⟨w1, h1⟩ := Shared.exec_store (E := E) (i := c.1) (op := c.2) (w := w)
    obtain ⟨w2, h2⟩ := ih (w := Shared.exec E c.1 c.2 w)
    exact ⟨w1 ++ w2, by rw [replay_append, ← h1, ← h2]; rfl⟩

theorem Shared.exec_secure (E : Env) (i : Nat) (op : Op) (w : Shared) (j : Nat) :
    ((Shared.exec E i op w).obj j).secure = (w.obj j).secure := by
  simp only [Shared.exec, Shared.obj]
  split
  · rename_i e; subst e; exact Pymt.exec_secure E op _
  · rfl

theorem Shared.run_secure (E : Env) (calls : List (Nat × Op)) (w : Shared) (j : Nat) :
    ((Shared.run E calls w).obj j).secure = (w.obj j).secure := by
  induction calls generalizing w with
  | nil => rfl
  | cons c calls ih => exact (ih _).trans (Shared.exec_secure E c.1 c.2 w j)

theorem Shared.obj_exec_same (E : Env) (i : Nat) (op : Op) (w : Shared) :
    (Shared.exec E i op w).obj i = (MPT.exec E op (w.obj i)).2 := by
  simp [Shared.exec, Shared.obj]

theorem Shared.obj_exec_ne (E : Env) {i j : Nat} (h : j ≠ i) (op : Op) (w : Shared) :
    (Shared.exec E i op w).obj j = { w.obj j with store := (Shared.exec E i op w).store } := by
  simp [Shared.exec, Shared.obj, h]

theorem callsOf_cons (i : Nat) (c : Nat × Op) (calls : List (Nat × Op)) :
    callsOf i (c :: calls) = (if c.1 = i then [c.2] else []) ++ callsOf i calls := by
  unfold callsOf
  by_cases h : c.1 = i <;> simp [h]

theorem Shared.inv {E : Env} {calls : List (Nat × Op)} {w : Shared} {m : Nat → Contents}
    (h : ∀ i, Inv E (w.obj i) (m i))
    (hv : ∀ j pre, pre <+: calls →
      Clean (contentsFrom (m j) ((callsOf j pre).map (Op.mapKey (effective E (w.obj j).secure)))))
    (hf : ∀ c ∈ calls, Fits E (w.obj c.1).secure c.2.key)
    (hl : LogOk E (Shared.run E calls w).store.written) (i : Nat) :
    Inv E ((Shared.run E calls w).obj i)
      (contentsFrom (m i) ((callsOf i calls).map (Op.mapKey (effective E (w.obj i).secure)))) := by
  induction calls generalizing w m with
  | nil => exact h i
  | cons c calls ih =>
    have hl1 : LogOk E (Shared.exec E c.1 c.2 w).store.written :=
      log_of_replay (Shared.run_store (E := E) (calls := calls) (w := Shared.exec E c.1 c.2 w)) hl
    have key : ∀ j, Inv E ((Shared.exec E c.1 c.2 w).obj j)
        (contentsFrom (m j) ((if c.1 = j then [c.2] else []).map (Op.mapKey (effective E (w.obj j).secure)))) := by
      intro j
      by_cases e : c.1 = j
      · subst e
        rw [if_pos rfl, Shared.obj_exec_same]
        refine (h c.1).exec ?_ (hf c (by simp)) hl1
        have := hv c.1 [c] (by simp [List.cons_prefix_cons])
        simpa [callsOf, contentsFrom] using this
      · rw [if_neg e, Shared.obj_exec_ne E (Ne.symm e)]
        exact (h j).withStore (Shared.exec_store (E := E) (i := c.1) (op := c.2) (w := w)) hl1
    have := ih key (fun j pre hp => by
        have := hv j (c :: pre) (by simpa [List.cons_prefix_cons] using hp)
        rw [callsOf_cons, List.map_append] at this
        rw [Shared.exec_secure]
        simpa [contentsFrom] using this)
      (fun c' hc => by rw [Shared.exec_secure]; exact hf c' (List.mem_cons_of_mem _ hc)) hl
    rw [Shared.exec_secure] at this
    rw [callsOf_cons, List.map_append]
    have e : ∀ x y : List Op, contentsFrom (m i) (x ++ y) = contentsFrom (contentsFrom (m i) x) y :=
      fun x y => by simp [contentsFrom]
    rw [e]
    exact this

end Pymt
