import Verif.Spec.Merge
import Verif.Lemmas.Backend
import Verif.Lemmas.Dict

/-!
# Larger storages

An object over a storage with more entries than the trie needs does what the trie does.
-/

namespace Pymt

theorem dget_dmerge {β : Type} (d e : Dict β) (k : Bytes) :
    (dget (dmerge d e) k = dget d k ∧ ∀ w, (k, w) ∉ e) ∨ ∃ w, (k, w) ∈ e ∧ dget (dmerge d e) k = some w := by
  unfold dmerge
  induction e generalizing d with
  | nil => exact .inl ⟨rfl, by simp⟩
  | cons x e ih =>
    simp only [List.foldl_cons]
    rcases ih (dset d x.1 x.2) with ⟨h1, h2⟩ | ⟨w, h1, h2⟩
    · rw [h1, dget_dset]
      by_cases hk : x.1 = k
      · right
        subst hk
        exact ⟨x.2, by simp, by simp⟩
      · left
        rw [if_neg hk]
        refine ⟨rfl, fun w hw => ?_⟩
        rcases List.mem_cons.1 hw with rfl | hw
        · exact hk rfl
        · exact h2 w hw
    · exact .inr ⟨w, List.mem_cons_of_mem _ h1, h2⟩

/-- Nodes under their hashes. -/
theorem GS.merge {E : Env} {L : List Bytes} {s : Store} (h : GS E L s) {D : Dict Bytes}
    (hD : ∀ e ∈ D, e.1 = E.keccak e.2 ∧ 32 ≤ e.2.length) (hl : ∀ e ∈ D, e.2 ∈ L) {S : Store}
    (hS : S.kv = dmerge s.kv D ∨ S.kv = dmerge D s.kv) (hn : (s.kv.map (·.1)).Nodup) : GS E L S := by
  have own : ∀ k v, (k, v) ∈ s.kv → k = E.keccak v ∧ v ∈ L ∧ 32 ≤ v.length := fun k v hm =>
    h k v (dget_mem hn hm)
  have other : ∀ k v, (k, v) ∈ D → k = E.keccak v ∧ v ∈ L ∧ 32 ≤ v.length := fun k v hm =>
    ⟨(hD _ hm).1, hl _ hm, (hD _ hm).2⟩
  intro k v hk
  rcases hS with hS | hS <;> rw [hS] at hk
  · rcases dget_dmerge s.kv D k with ⟨h1, -⟩ | ⟨w, h1, h2⟩
    · exact h k v (h1 ▸ hk)
    · rw [h2] at hk; injection hk with hk; subst hk; exact other _ _ h1
  · rcases dget_dmerge D s.kv k with ⟨h1, -⟩ | ⟨w, h1, h2⟩
    · exact other _ _ (mem_of_dget (h1 ▸ hk))
    · rw [h2] at hk; injection hk with hk; subst hk; exact own _ _ h1

/-- The merged storage has the entries of the storage of the trie. -/
theorem Sub.merge {E : Env} {L : List Bytes} {s : Store} (h : GS E L s) (hL : LogOk E L) {D : Dict Bytes}
    (hD : ∀ e ∈ D, e.1 = E.keccak e.2) (hl : ∀ e ∈ D, e.2 ∈ L) {S : Store}
    (hS : S.kv = dmerge s.kv D ∨ S.kv = dmerge D s.kv) (hn : (s.kv.map (·.1)).Nodup) : Sub s S := by
  intro k v hk
  obtain ⟨e1, e2, -⟩ := h k v hk
  rcases hS with hS | hS <;> rw [hS]
  · rcases dget_dmerge s.kv D k with ⟨h1, -⟩ | ⟨w, h1, h2⟩
    · exact h1.trans hk
    · rw [h2, hL.coll w (List.mem_cons_of_mem _ (hl _ h1)) v (List.mem_cons_of_mem _ e2) ((hD _ h1).symm.trans e1)]
  · rcases dget_dmerge D s.kv k with ⟨-, h1⟩ | ⟨w, h1, h2⟩
    · exact absurd (mem_of_dget hk) (h1 v)
    · have := dget_mem hn h1
      rw [hk] at this
      exact h2.trans this.symm

theorem exec_gs {E : Env} {L : List Bytes} {t : MPT} (op : Op) (hg : GS E L t.store)
    (hw : ∀ w ∈ (MPT.exec E op t).2.store.written, w ∈ L) : GS E L (MPT.exec E op t).2.store := by
  have key : ∀ c : Call, (∀ w ∈ (c.seq E t).2.store.written, w ∈ L) → GS E L (c.seq E t).2.store := by
    intro c hw
    rw [← Call.prog_alone] at hw ⊢
    exact Prog.alone_gs _ _ (Prog.plain_call E _ c) hg fun w h => hw w (by
      rw [Prog.alone_written]; exact List.mem_append_right _ h)
  cases op with
  | update k v => exact key (.update k v) hw
  | delete k => exact key (.delete k) hw

theorem run_gs {E : Env} {L : List Bytes} {t : MPT} (ops : List Op) (hg : GS E L t.store)
    (hw : ∀ w ∈ (MPT.run E ops t).store.written, w ∈ L) : GS E L (MPT.run E ops t).store := by
  induction ops generalizing t with
  | nil => exact hg
  | cons op ops ih =>
    refine ih (exec_gs op hg fun w h => hw w ?_) hw
    obtain ⟨ws, e⟩ := run_writes E ops (MPT.exec E op t).2
    change w ∈ (MPT.run E ops (MPT.exec E op t).2).store.written
    rw [e, replay_written]
    exact List.mem_append_left _ h

theorem after_gs {E : Env} {L : List Bytes} {secure : Bool} (ops : List Op)
    (hw : ∀ w ∈ (MPT.after E secure ops).store.written, w ∈ L) : GS E L (MPT.after E secure ops).store :=
  run_gs ops (GS.empty E L) hw

/-- Calls over a larger storage. -/
theorem Call.seqAll_over {E : Env} {L : List Bytes} (hL : LogOk E L) (l : List Call) (t : MPT) (a : T) (S : Store)
    (ha : Bears E t a) (hf : ∀ c ∈ l, Fits E t.secure c.key) (hs : Sub t.store S) (hg : GS E L t.store)
    (hG : GS E L S) (ht : ∀ w ∈ (Call.seqAll E l t).2.store.written, w ∈ L) :
    (Call.seqAll E l { t with store := S }).1 = (Call.seqAll E l t).1 ∧
      (∃ S', (Call.seqAll E l { t with store := S }).2 = { (Call.seqAll E l t).2 with store := S' } ∧
        Sub (Call.seqAll E l t).2.store S' ∧ GS E L S') ∧
      (Call.seqAll E l t).2.secure = t.secure ∧ ∃ b, Bears E (Call.seqAll E l t).2 b := by
  induction l generalizing t a S with
  | nil => exact ⟨rfl, ⟨S, rfl, hs, hG⟩, rfl, a, ha⟩
  | cons c l ih =>
    simp only [Call.seqAll] at ht ⊢
    have hin : ∀ w ∈ (c.seq E t).2.store.written, w ∈ L := fun w h => ht w (by
      obtain ⟨ws, e⟩ := Call.seqAll_writes (E := E) l (c.seq E t).2
      rw [e, replay_written]
      exact List.mem_append_left _ h)
    have hfc := hf c List.mem_cons_self
    have hlog : LogOk E (c.seq E t).2.store.written := hL.mono hin
    have hw : ∀ w ∈ (c.prog E t.secure).writes t, w ∈ L := fun w h => hin w (by
      rw [← Call.prog_alone, Prog.alone_written]; exact List.mem_append_right _ h)
    have hplain := Prog.plain_call E t.secure c
    obtain ⟨-, m1, m2, m3, m4⟩ := Prog.mono hL _ t S (fine_call ha hL hg hfc hlog) hplain hs hG hw
    have hG' := Prog.alone_gs _ { t with store := S } hplain hG (by rw [m4]; exact hw)
    have hg' := Prog.alone_gs _ t hplain hg hw
    have hsec : (c.seq E t).2.secure = t.secure := by
      rw [← Call.prog_alone]; exact Prog.alone_secure _ _
    have hsec' : ((c.prog E t.secure).alone { t with store := S }).2.secure = t.secure := Prog.alone_secure _ _
    rw [Call.prog_alone] at m1 m2 m3 hg'
    have e := Call.prog_alone E c { t with store := S }
    simp only at e
    rw [e] at m1 m2 m3 hG' hsec'
    have hb : ∃ b, Bears E (c.seq E t).2 b := by
      rw [Call.seq_exec]
      exact ⟨_, ha.run (fun op ho => by
        rw [Attempt.key_of_op (c := c) (by simpa using ho)]; exact hfc) (by rw [← Call.seq_exec]; exact hlog)⟩
    obtain ⟨b, hb⟩ := hb
    have hx : (c.seq E { t with store := S }).2 =
        { (c.seq E t).2 with store := (c.seq E { t with store := S }).2.store } := by
      generalize c.seq E { t with store := S } = x at m2 hsec'
      obtain ⟨_, xs, xr, xx⟩ := x
      simp only at m2 hsec' ⊢
      rw [m2, hsec', hsec]
    obtain ⟨i1, i2, i3, i4⟩ := ih (c.seq E t).2 b _ hb
      (fun c h => by rw [hsec]; exact hf c (List.mem_cons_of_mem _ h)) m3 hg' hG' ht
    rw [← hx] at i1 i2
    exact ⟨by rw [m1, i1], i2, i3.trans hsec, i4⟩

/-- Proofs over a larger storage. -/
theorem proofs_over {E : Env} {L : List Bytes} (hL : LogOk E L) {t : MPT} {a : T} {S : Store}
    (ha : Bears E t a) {k : Bytes} (hk : Fits E t.secure k) (hl : LogOk E t.store.written) (hs : Sub t.store S)
    (hG : GS E L S) (now : Bytes) :
    ({ t with store := S } : MPT).getPoi E now k = t.getPoi E now k ∧
    ({ t with store := S } : MPT).getPoe E now k = t.getPoe E now k := by
  have hnk := ha.holds.never_key hl (fits_nibs hk)
  have nowrites : ∀ (p : Prog (Proof Bytes)) (t : MPT), p.Quiet → p.writes t = [] := by
    intro p
    induction p with
    | done r => intro t _; rfl
    | load k n ih =>
      intro t h
      simp only [Prog.writes]
      cases dget t.store.kv k with
      | none => rfl
      | some v => exact ih v t (h v)
    | save k v n ih => intro t h; exact h.elim
    | root n ih => intro t h; exact ih _ t (h _)
    | setRoot r n ih => intro t h; exact h.elim
  have quiet : ∀ {p : Prog (Proof Bytes)} {y y' : Py (Proof Bytes)}, p.Quiet → Prog.Reads t p y →
      Prog.Reads { t with store := S } p y' → y ≠ .error .keyError → y' = y := by
    intro p y y' hq hr hr' hy
    have hr1 : p.alone t = (y, t) := hr
    have hr2 : p.alone { t with store := S } = (y', { t with store := S }) := hr'
    have := (Prog.mono hL p t S (Prog.fine_of_alone _ _ (by rw [hr1]; exact hy)) hq.plain hs hG
      (by rw [nowrites p t hq]; simp)).2.1
    rwa [hr1, hr2] at this
  exact ⟨quiet (Prog.Quiet.poiCall E now _) (Prog.Reads.poiCall E now k)
      (Prog.Reads.poiCall (t := { t with store := S }) E now k) (hnk.2.2.1 now),
    quiet (Prog.Quiet.poeCall E now _) (Prog.Reads.poeCall ha.root_ne_nil now k)
      (Prog.Reads.poeCall (t := { t with store := S }) ha.root_ne_nil now k) (hnk.2.2.2 now)⟩

end Pymt
