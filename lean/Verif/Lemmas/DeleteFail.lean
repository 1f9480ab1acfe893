import Verif.Lemmas.Mpt

/-!
# A deletion that fails writes nothing

No assumption on hashes is needed: the walk down fails before anything is written.
-/

namespace Pymt
namespace T

theorem deleteAux_fail {E : Env} (f : Nat) {t : T} (hsh : t.Shape) (hne : t ≠ empty) {st : Store}
    {path : NibblePath} (hp : path.WF) (hf : path.nibs.length < f) (hs : Stored E st.kv t) {e : Err}
    (he : remove t path.nibs = .error e) :
    MPT.deleteAux E f (ref E t) path st = (.error e, st) := by
  induction f generalizing t path with
  | zero => omega
  | succ f ih =>
    unfold MPT.deleteAux
    obtain ⟨n, hn, hrep⟩ := getNodeM_ref hs hne
    rw [M.bind_apply, hn]
    simp only
    cases t with
    | empty => exact absurd rfl hne
    | leaf q w =>
      cases n <;> simp only [Rep] at hrep
      rename_i np d
      obtain ⟨hnp, rfl, rfl⟩ := hrep
      rw [remove] at he
      split at he
      · simp at he
      · rename_i hq
        simp only [Except.error.injEq] at he
        subst he
        simp [NibblePath.eq_spec hp hnp, hq]
    | ext q c =>
      cases n <;> simp only [Rep] at hrep
      rename_i np nr
      obtain ⟨hnp, rfl, rfl⟩ := hrep
      rw [remove] at he
      by_cases hpre : np.nibs <+: path.nibs
      · rw [if_pos hpre] at he
        have hrec : remove c (path.nibs.drop np.nibs.length) = .error e := by
          revert he
          cases remove c (path.nibs.drop np.nibs.length) with
          | error e' => exact id
          | ok d => cases d <;> simp
        have := ih hsh.2.2 hsh.child_ne (NibblePath.consume_WF hp hpre.length_le)
          (by rw [NibblePath.consume_nibs]; exact drop_len hsh.1 hpre hf) hs.2
          (by rw [NibblePath.consume_nibs]; exact hrec)
        simp [NibblePath.startsWith_spec hp hnp, hpre, NibblePath.len_spec hnp, this]
      · rw [if_neg hpre] at he
        simp only [Except.error.injEq] at he
        subst he
        simp [NibblePath.startsWith_spec hp hnp, hpre]
    | branch cs w =>
      cases n <;> simp only [Rep] at hrep
      rename_i bs d
      obtain ⟨rfl, rfl⟩ := hrep
      cases hpn : path.nibs with
      | nil =>
        rw [hpn, remove] at he
        split at he
        · rename_i hd
          simp only [Except.error.injEq] at he
          subst he
          simp [NibblePath.len_spec hp, hpn, hd]
        · simp at he
      | cons i p =>
        rw [hpn, remove] at he
        obtain ⟨hw, hc⟩ := nibs_cons_consume hp hpn
        by_cases hemp : (cs i).isEmpty = true
        · rw [if_pos hemp] at he
          simp only [Except.error.injEq] at he
          subst he
          have : ref E (cs i) = [] := ref_nil_iff.2 (isEmpty_iff.1 hemp)
          simp [NibblePath.len_spec hp, hpn, NibblePath.at_zero hpn, refs_get, this]
        · rw [if_neg hemp] at he
          have hrec : remove (cs i) p = .error e := by
            revert he
            cases remove (cs i) p with
            | error e' => exact id
            | ok d => cases d <;> simp
          have hne' : cs i ≠ empty := fun h => hemp (isEmpty_iff.2 h)
          have hr : ref E (cs i) ≠ [] := ref_ne_nil hne'
          have := ih (hsh i) hne' hw (by rw [hc]; rw [hpn] at hf; simp at hf; omega) (hs.2 i)
            (by rw [hc]; exact hrec)
          simp [NibblePath.len_spec hp, hpn, NibblePath.at_zero hpn, refs_get, hr, this]

theorem Holds.delete_fail {E : Env} {t : MPT} {a : T} (h : Holds E t a) (hne : a ≠ empty) {key : Bytes}
    (hl : LogOk E t.store.written) (hk : (toNibs (t.keyOf E key)).length < E.limit) {e : Err}
    (he : remove a (toNibs (t.keyOf E key)) = .error e) : MPT.delete E key t = (.error e, t) := by
  have hi : a.isEmpty = false := by cases a <;> simp_all [isEmpty]
  have hnib := NibblePath.nibs_bytes (t.keyOf E key)
  rw [delete_eq, h.noRoot hl, hi, if_neg (by simp), h.getD hne,
    deleteAux_fail E.limit h.shape hne (NibblePath.WF_bytes _) (by rwa [hnib]) h.stored (by rwa [hnib])]

end T
end Pymt
