import Verif.Spec.Interrupt
import Verif.Lemmas.Interleave
import Verif.Lemmas.Joint
import Verif.Lemmas.Evolve
import Verif.Lemmas.Same

/-!
# Calls that are ended by an exception from elsewhere
-/

namespace Pymt
namespace Prog

variable {E : Env} {α : Type}

theorem cut_all (p : Prog α) (t : MPT) {n : Nat} (h : p.accesses t ≤ n) : p.cut n t = (p.alone t).2 := by
  induction p generalizing t n with
  | done r => cases n <;> rfl
  | load k p ih =>
    simp only [accesses] at h
    cases n with
    | zero => exfalso; split at h <;> simp at h
    | succ n =>
      simp only [cut, alone]
      cases e : dget t.store.kv k with
      | none => rfl
      | some v => rw [e] at h; exact ih v t (Nat.le_of_succ_le_succ h)
  | save k v p ih =>
    cases n with
    | zero => simp [accesses] at h
    | succ n => exact ih _ (Nat.le_of_succ_le_succ h)
  | root p ih =>
    cases n with
    | zero => simp [accesses] at h
    | succ n => exact ih _ _ (Nat.le_of_succ_le_succ h)
  | setRoot r p ih =>
    cases n with
    | zero => simp [accesses] at h
    | succ n => exact ih _ (Nat.le_of_succ_le_succ h)

/-- A call that is ended early has written some nodes, and nothing else. -/
theorem cut_early (p : Prog α) (t : MPT) {n : Nat} (hp : p.Plain E) (h : n < p.accesses t) :
    ∃ ws, p.cut n t = { t with store := replay E ws t.store } := by
  induction p generalizing t n with
  | done r => simp [accesses] at h
  | load k p ih =>
    cases n with
    | zero => exact ⟨[], rfl⟩
    | succ n =>
      simp only [cut, accesses] at h ⊢
      cases e : dget t.store.kv k with
      | none => exact ⟨[], rfl⟩
      | some v => rw [e] at h; exact ih v t (hp v) (Nat.lt_of_succ_lt_succ h)
  | save k v p ih =>
    cases n with
    | zero => exact ⟨[], rfl⟩
    | succ n =>
      obtain ⟨ws, hws⟩ := ih { t with store := t.store.set k v } hp.2.2 (Nat.lt_of_succ_lt_succ h)
      exact ⟨v :: ws, by rw [cut, hws, hp.1]; rfl⟩
  | root p ih =>
    cases n with
    | zero => exact ⟨[], rfl⟩
    | succ n => exact ih _ _ (hp _) (Nat.lt_of_succ_lt_succ h)
  | setRoot r p ih =>
    obtain ⟨x, rfl⟩ := hp
    cases n with
    | zero => exact ⟨[], rfl⟩
    | succ n => simp [accesses] at h

end Prog

theorem Call.seq_exec (E : Env) (c : Call) (t : MPT) :
    (c.seq E t).2 = MPT.run E c.op?.toList t := by
  cases c <;> rfl

namespace Attempt

variable {E : Env}

theorem run_cases (a : Attempt) (t : MPT) :
    (a.whole E t = true ∧ (a.run E t).2 = MPT.run E a.call.op?.toList t) ∨
    (a.whole E t = false ∧ ∃ ws, (a.run E t).2 = { t with store := replay E ws t.store }) := by
  obtain ⟨c, stop⟩ := a
  cases stop with
  | none => exact .inl ⟨rfl, c.seq_exec E t⟩
  | some q =>
    obtain ⟨n, e⟩ := q
    by_cases h : (c.prog E t.secure).accesses t ≤ n
    · refine .inl ⟨by simpa [whole] using h, ?_⟩
      show (c.prog E t.secure).cut n t = _
      rw [Prog.cut_all _ _ h, Call.prog_alone, Call.seq_exec]
    · refine .inr ⟨by simpa [whole] using h, ?_⟩
      exact Prog.cut_early _ _ (Prog.plain_call E _ _) (Nat.lt_of_not_le h)

theorem run_writes (a : Attempt) (t : MPT) : ∃ ws, (a.run E t).2.store = replay E ws t.store := by
  rcases a.run_cases (E := E) t with ⟨_, h⟩ | ⟨_, ws, h⟩
  · rw [h]; exact Pymt.run_writes E _ _
  · exact ⟨ws, by rw [h]⟩

theorem all_writes (l : List Attempt) (t : MPT) : ∃ ws, (all E l t).store = replay E ws t.store := by
  induction l generalizing t with
  | nil => exact ⟨[], rfl⟩
  | cons a l ih =>
    obtain ⟨ws, h⟩ := a.run_writes (E := E) t
    obtain ⟨ws', h'⟩ := ih (a.run E t).2
    exact ⟨ws ++ ws', by rw [replay_append, ← h]; exact h'⟩

theorem run_secure (a : Attempt) (t : MPT) : (a.run E t).2.secure = t.secure := by
  rcases a.run_cases (E := E) t with ⟨_, h⟩ | ⟨_, ws, h⟩
  · rw [h]; exact Pymt.run_secure E _ _
  · rw [h]

theorem all_secure (l : List Attempt) (t : MPT) : (all E l t).secure = t.secure := by
  induction l generalizing t with
  | nil => rfl
  | cons a l ih => exact (ih _).trans (a.run_secure t)

theorem counted_sub {l : List Attempt} {t : MPT} {op : Op} (h : op ∈ counted E l t) :
    ∃ a ∈ l, a.call.op? = some op := by
  induction l generalizing t with
  | nil => simp [counted] at h
  | cons a l ih =>
    simp only [counted, List.mem_append] at h
    rcases h with h | h
    · split at h
      · exact ⟨a, by simp, by simpa using h⟩
      · simp at h
    · obtain ⟨b, hb, e⟩ := ih h
      exact ⟨b, by simp [hb], e⟩

theorem key_of_op {c : Call} {op : Op} (h : c.op? = some op) : op.key = c.key := by
  cases c <;> simp [Call.op?] at h <;> subst h <;> rfl

/-- The object bears the tree of the counted calls. -/
theorem bears {l : List Attempt} {t : MPT} {a : T} (h : Bears E t a)
    (hf : ∀ x ∈ l, Fits E t.secure x.call.key) (hl : LogOk E (all E l t).store.written) :
    Bears E (all E l t) (a.grow ((counted E l t).map (Op.mapKey (effective E t.secure)))) := by
  induction l generalizing t a with
  | nil => exact h
  | cons x l ih =>
    have hl1 : LogOk E (x.run E t).2.store.written := log_of_replay (all_writes l _) hl
    have hs := x.run_secure (E := E) t
    have key : Bears E (x.run E t).2
        (a.grow ((if x.whole E t then x.call.op?.toList else []).map (Op.mapKey (effective E t.secure)))) := by
      rcases x.run_cases (E := E) t with ⟨hw, e⟩ | ⟨hw, ws, e⟩
      · rw [e] at hl1 ⊢
        rw [hw]
        exact h.run (fun op ho => by
          rw [key_of_op (c := x.call) (by simpa using ho)]; exact hf x (by simp)) hl1
      · rw [e] at hl1 ⊢
        rw [hw]
        exact ⟨h.holds.withStore ⟨ws, rfl⟩ hl1, h.full⟩
    have := ih key (fun y hy => by rw [hs]; exact hf y (by simp [hy])) hl
    rw [hs] at this
    simpa [counted, all, T.grow, List.foldl_append] using this

end Attempt
end Pymt
