import Verif.Lemmas.Mpt

/-!
# Writing the value that is already there
-/

namespace Pymt

theorem dset_same {β : Type} {d : Dict β} {k : Bytes} {v : β} (h : dget d k = some v) : dset d k v = d := by
  induction d with
  | nil => simp [dget] at h
  | cons e d ih =>
    obtain ⟨k', v'⟩ := e
    simp only [dget] at h
    simp only [dset]
    split at h
    · rename_i hk
      simp only [Option.some.injEq] at h
      subst h
      simp [hk]
    · rename_i hk
      simp [hk, ih h]

namespace T

theorem put_same {E : Env} {st : Store} {t : T} (h : Stored E st.kv t) (hne : t ≠ empty) :
    (put E st t).kv = st.kv := by
  unfold put
  split
  · rfl
  · rename_i hl
    rcases h.here hne with h | h
    · exact absurd h hl
    · exact dset_same h.1

theorem updateAux_same {E : Env} (f : Nat) {t : T} (hsh : t.Shape) {st : Store}
    {path : NibblePath} (hp : path.WF) {v : Bytes} (hf : path.nibs.length < f)
    (hg : Good E st) (hl : LogOk E st.written) (hs : Stored E st.kv t)
    (hv : lookup t path.nibs = some v) :
    (MPT.updateAux E f (ref E t) path v st).1 = .ok (ref E t) ∧
      (MPT.updateAux E f (ref E t) path v st).2.kv = st.kv := by
  induction f generalizing t path with
  | zero => omega
  | succ f ih =>
    have hne : t ≠ empty := by rintro rfl; simp [lookup] at hv
    unfold MPT.updateAux
    rw [if_neg (by
      rintro (h | h)
      · exact ref_ne_nil hne h
      · exact ref_ne_emptyHash hg hl hs hne h)]
    obtain ⟨n, hn, hrep⟩ := getNodeM_ref hs hne
    rw [M.bind_apply, hn]
    simp only
    cases t with
    | empty => exact absurd rfl hne
    | leaf q w =>
      cases n <;> simp only [Rep] at hrep
      rename_i np d
      obtain ⟨hnp, rfl, rfl⟩ := hrep
      rw [lookup] at hv
      split at hv
      · rename_i he
        simp only [Option.some.injEq] at hv
        subst hv
        have hr : Rep E (leaf np.nibs d) (.leaf np d) := ⟨hnp, rfl, rfl⟩
        simp only [M.bind_apply, M.lift_apply, NibblePath.eq_spec hnp hp, he, decide_true, if_true,
          storeNode_run hr]
        rw [he] at hs
        exact ⟨trivial, put_same hs (by simp)⟩
      · simp at hv
    | ext q c =>
      cases n <;> simp only [Rep] at hrep
      rename_i np nr
      obtain ⟨hnp, rfl, rfl⟩ := hrep
      rw [lookup] at hv
      split at hv
      · rename_i hpre
        have := ih hsh.2.2 (NibblePath.consume_WF hp hpre.length_le)
          (by rw [NibblePath.consume_nibs]; exact drop_len hsh.1 hpre hf) hs.2
          (by rw [NibblePath.consume_nibs]; exact hv)
        simp only [M.bind_apply, M.lift_apply, NibblePath.startsWith_spec hp hnp, hpre, decide_true, if_true,
          NibblePath.len_spec hnp]
        revert this
        cases MPT.updateAux E f (ref E c) (path.consume np.nibs.length) v st with
        | mk r st1 =>
          rintro ⟨h1, h2⟩
          simp only at h1 h2
          subst h1
          have hr : Rep E (ext np.nibs c) (.ext np (ref E c)) := ⟨hnp, rfl, rfl⟩
          simp only [storeNode_run hr]
          exact ⟨trivial, (put_same (h2 ▸ hs) hne).trans h2⟩
      · simp at hv
    | branch cs w =>
      cases n <;> simp only [Rep] at hrep
      rename_i bs d
      obtain ⟨rfl, rfl⟩ := hrep
      have hr : Rep E (branch cs d) (.branch (refs E cs) d) := ⟨rfl, rfl⟩
      simp only [M.bind_apply, M.lift_apply, NibblePath.len_spec hp]
      cases hpn : path.nibs with
      | nil =>
        rw [hpn, lookup] at hv
        split at hv
        · simp at hv
        · simp only [Option.some.injEq] at hv
          subst hv
          simp only [List.length_nil, if_true, storeNode_run hr]
          exact ⟨trivial, put_same hs hne⟩
      | cons i p =>
        obtain ⟨hw, hc⟩ := nibs_cons_consume hp hpn
        rw [hpn, lookup] at hv
        have := ih (hsh i) hw (by rw [hc]; rw [hpn] at hf; simp at hf; omega) (hs.2 i) (by rw [hc]; exact hv)
        simp only [List.length_cons, Nat.succ_ne_zero, if_false, M.bind_apply, M.lift_apply,
          NibblePath.at_zero hpn, refs_get]
        revert this
        cases MPT.updateAux E f (ref E (cs i)) (path.consume 1) v st with
        | mk r st1 =>
          rintro ⟨h1, h2⟩
          simp only at h1 h2
          subst h1
          have hset : pySet (refs E cs) i.val (ref E (cs i)) = .ok (refs E cs) := by
            rw [refs_set]
            congr 2
            funext j
            simp only [fset]
            split <;> simp_all
          simp only [hset, storeNode_run hr]
          exact ⟨trivial, (put_same (h2 ▸ hs) hne).trans h2⟩

theorem Holds.update_same {E : Env} {t : MPT} {a : T} (h : Holds E t a) {key v : Bytes}
    (hl : LogOk E t.store.written) (hk : (toNibs (t.keyOf E key)).length < E.limit)
    (hv : lookup a (toNibs (t.keyOf E key)) = some v) :
    (MPT.update E key v t).1 = .ok () ∧ (MPT.update E key v t).2.root = t.root ∧
      (MPT.update E key v t).2.store.kv = t.store.kv := by
  have hne : a ≠ empty := by rintro rfl; simp [lookup] at hv
  have hnib := NibblePath.nibs_bytes (t.keyOf E key)
  have := updateAux_same E.limit h.shape (NibblePath.WF_bytes (t.keyOf E key)) (by rwa [hnib]) h.good hl
    h.stored (by rwa [hnib])
  rw [update_eq, h.getD hne]
  have hr : t.root = some (ref E a) := by
    rcases h.root with ⟨h1, _⟩ | ⟨_, h2⟩
    · exact absurd h1 hne
    · exact h2
  revert this
  cases MPT.updateAux E E.limit (ref E a) ⟨t.keyOf E key, 0⟩ v t.store with
  | mk r st =>
    rintro ⟨h1, h2⟩
    simp only at h1 h2
    subst h1
    exact ⟨rfl, hr.symm, h2⟩

end T
end Pymt
