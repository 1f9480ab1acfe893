import Verif.Lemmas.Read

/-!
# `MPT` objects and abstract tries
-/

namespace Pymt
namespace T

/-- The value of `_root` for a trie: empty tries have `None` or the hash of the empty node. -/
def RootOf (E : Env) (r : Option Bytes) (a : T) : Prop :=
  (a = empty ∧ (r = none ∨ r = some (emptyHash E))) ∨ (a ≠ empty ∧ r = some (ref E a))

/-- The object holds the abstract trie. -/
structure Holds (E : Env) (t : MPT) (a : T) : Prop where
  shape : a.Shape
  stored : Stored E t.store.kv a
  good : Good E t.store
  root : RootOf E t.root a

/-- The answer of `contains`. -/
def has (a : T) (p : List Nib) : Bool :=
  match T.seek a p with
  | (branch _ d, _) => d ≠ []
  | (leaf q _, r) => q = r
  | _ => false

/-- `.data` of a node. -/
def dataOf : T → Py Bytes
  | leaf _ v => .ok v
  | branch _ v => .ok v
  | ext _ _ => .error .attributeError
  | empty => .error .keyError

theorem emptyHash_ne_nil (E : Env) : emptyHash E ≠ [] := by
  intro h
  have := E.keccak_len (Item.encode (.str []))
  rw [← emptyHash, h] at this
  simp at this

theorem Holds.noRoot {E : Env} {t : MPT} {a : T} (h : Holds E t a) (hl : LogOk E t.store.written) :
    t.noRoot E = a.isEmpty := by
  unfold MPT.noRoot
  rcases h.root with ⟨rfl, h1 | h1⟩ | ⟨h1, h2⟩
  · simp [h1, isEmpty]
  · simp [h1, isEmpty]
  · have := ref_ne_emptyHash h.good hl h.stored h1
    have he : a.isEmpty = false := by
      cases a <;> simp_all [isEmpty]
    simp [h2, he, this]

theorem Holds.getD {E : Env} {t : MPT} {a : T} (h : Holds E t a) (hne : a ≠ empty) :
    t.root.getD [] = ref E a := by
  rcases h.root with ⟨h1, _⟩ | ⟨_, h2⟩
  · exact absurd h1 hne
  · simp [h2]

theorem Holds.rootFalsy {E : Env} {t : MPT} {a : T} (h : Holds E t a) (hne : a ≠ empty) :
    t.rootFalsy = false := by
  unfold MPT.rootFalsy
  rw [h.getD hne]
  simpa using ref_ne_nil hne

theorem Holds.contains {E : Env} {t : MPT} {a : T} (h : Holds E t a) (hl : LogOk E t.store.written)
    {key : Bytes} (hk : (toNibs (t.keyOf E key)).length < E.limit) :
    t.contains E key = .ok (has a (toNibs (t.keyOf E key))) := by
  unfold MPT.contains
  by_cases hne : a = empty
  · subst hne
    have hf : has empty (toNibs (t.keyOf E key)) = false := rfl
    rw [hf]
    split
    · rfl
    · rw [h.noRoot hl]
      obtain ⟨f, hf⟩ : ∃ f, E.limit = f + 1 := ⟨E.limit - 1, by omega⟩
      simp [hf, MPT.containsAux, isEmpty]
  · rw [h.rootFalsy hne, h.noRoot hl, h.getD hne]
    have hi : a.isEmpty = false := by cases a <;> simp_all [isEmpty]
    rw [hi]
    obtain ⟨n, path', h1, h2, h3, h4⟩ := containsAux_run E.limit h.shape hne h.stored
      (NibblePath.WF_bytes (t.keyOf E key)) (by rwa [NibblePath.nibs_bytes])
    rw [NibblePath.nibs_bytes] at h2 h4
    simp only [Bool.false_eq_true, if_false, h1, Except.bind_ok']
    unfold has
    generalize T.seek a (toNibs (t.keyOf E key)) = s at *
    obtain ⟨x, r⟩ := s
    cases x <;> cases n <;> simp only [Rep] at h2
    · obtain ⟨hw, rfl, rfl⟩ := h2
      simp only [NibblePath.eq_spec hw h3]
      rw [h4]
    · rfl
    · obtain ⟨rfl, rfl⟩ := h2
      rfl

theorem Holds.get {E : Env} {t : MPT} {a : T} (h : Holds E t a) (hne : a ≠ empty)
    {key : Bytes} (hk : (toNibs (t.keyOf E key)).length < E.limit) :
    t.get E key = (do
      let x ← found (T.seek a (toNibs (t.keyOf E key))).1 (T.seek a (toNibs (t.keyOf E key))).2
      dataOf x) := by
  unfold MPT.get
  rw [h.rootFalsy hne, h.getD hne]
  have hr := getAux_run E.limit h.shape hne h.stored
      (NibblePath.WF_bytes (t.keyOf E key)) (by rwa [NibblePath.nibs_bytes])
  rw [NibblePath.nibs_bytes] at hr
  simp only [Bool.false_eq_true, if_false]
  revert hr
  cases found (T.seek a (toNibs (t.keyOf E key))).1 (T.seek a (toNibs (t.keyOf E key))).2 with
  | error e =>
    intro hr
    simp only at hr
    rw [hr]; rfl
  | ok x =>
    rintro ⟨n, h1, h2⟩
    rw [h1]
    cases x <;> cases n <;> simp only [Rep] at h2
    · obtain ⟨_, _, rfl⟩ := h2; rfl
    · rfl
    · obtain ⟨_, rfl⟩ := h2; rfl

theorem Holds.get_empty {E : Env} {t : MPT} (h : Holds E t empty) (hl : LogOk E t.store.written)
    (key : Bytes) : ∃ e, t.get E key = .error e := by
  unfold MPT.get MPT.rootFalsy
  rcases h.root with ⟨_, h1 | h1⟩ | ⟨h1, _⟩
  · exact ⟨.valueError, by simp [h1]⟩
  · have h0 := emptyHash_ne_nil E
    have h32 : (emptyHash E).length = 32 := E.keccak_len _
    rw [h1]
    simp only [Option.getD_some, beq_iff_eq, h0, if_false]
    cases hlim : E.limit with
    | zero => exact ⟨.recursion, rfl⟩
    | succ f =>
      cases hd : dget t.store.kv (emptyHash E) with
      | none =>
        refine ⟨.keyError, ?_⟩
        simp [MPT.getAux, MPT.getNode, h32, dgetItem, hd]
      | some v =>
        obtain ⟨h2, h3⟩ := h.good _ _ hd
        have : v = Item.encode (.str []) :=
          (hl.coll _ List.mem_cons_self _ (List.mem_cons_of_mem _ h3) h2).symm
        subst this
        refine ⟨.assertion, ?_⟩
        have hdec : Node.decode (Item.encode (.str [])) = .error .assertion := by decide
        simp [MPT.getAux, MPT.getNode, h32, dgetItem, hd, hdec]
  · exact absurd rfl h1

/-! ### Changes -/

theorem onStore_apply {α : Type} (m : M Store α) (t : MPT) :
    MPT.onStore m t = ((m t.store).1, { t with store := (m t.store).2 }) := rfl

theorem update_eq (E : Env) (key v : Bytes) (t : MPT) : MPT.update E key v t =
    match MPT.updateAux E E.limit (t.root.getD []) ⟨t.keyOf E key, 0⟩ v t.store with
    | (.ok r, st) => (.ok (), { t with store := st, root := some r })
    | (.error e, st) => (.error e, { t with store := st }) := by
  unfold MPT.update
  simp only [M.bind_apply, M.get_apply, onStore_apply]
  cases MPT.updateAux E E.limit (t.root.getD []) ⟨t.keyOf E key, 0⟩ v t.store with
  | mk r st => cases r <;> rfl

/-- The root that goes with the outcome of `_delete`. -/
def actRoot : MPT.DeleteAction → Option Bytes
  | .deleted => none
  | .updated r => some r
  | .useless _ r => some r

theorem delete_eq (E : Env) (key : Bytes) (t : MPT) : MPT.delete E key t =
    if t.noRoot E then (.error .valueError, t)
    else match MPT.deleteAux E E.limit (t.root.getD []) ⟨t.keyOf E key, 0⟩ t.store with
    | (.ok a, st) => (.ok (), { t with store := st, root := actRoot a })
    | (.error e, st) => (.error e, { t with store := st }) := by
  unfold MPT.delete
  simp only [M.bind_apply, M.get_apply]
  split
  · rfl
  · simp only [M.bind_apply, onStore_apply]
    cases MPT.deleteAux E E.limit (t.root.getD []) ⟨t.keyOf E key, 0⟩ t.store with
    | mk r st =>
      cases r with
      | error e => rfl
      | ok a => cases a <;> rfl

/-- Everything a call does to the storage is a sequence of writes under hashes. -/
theorem update_writes (E : Env) (key v : Bytes) (t : MPT) :
    ∃ ws, (MPT.update E key v t).2.store = replay E ws t.store := by
  rw [update_eq]
  obtain ⟨ws, hw⟩ := Writes.updateAux (E := E) E.limit (t.root.getD []) ⟨t.keyOf E key, 0⟩ v t.store
  refine ⟨ws, ?_⟩
  revert hw
  cases MPT.updateAux E E.limit (t.root.getD []) ⟨t.keyOf E key, 0⟩ v t.store with
  | mk r st => cases r <;> exact id

theorem delete_writes (E : Env) (key : Bytes) (t : MPT) :
    ∃ ws, (MPT.delete E key t).2.store = replay E ws t.store := by
  rw [delete_eq]
  split
  · exact ⟨[], rfl⟩
  obtain ⟨ws, hw⟩ := Writes.deleteAux (E := E) E.limit (t.root.getD []) ⟨t.keyOf E key, 0⟩ t.store
  refine ⟨ws, ?_⟩
  revert hw
  cases MPT.deleteAux E E.limit (t.root.getD []) ⟨t.keyOf E key, 0⟩ t.store with
  | mk r st => cases r <;> exact id

theorem update_secure (E : Env) (key v : Bytes) (t : MPT) : (MPT.update E key v t).2.secure = t.secure := by
  rw [update_eq]
  cases MPT.updateAux E E.limit (t.root.getD []) ⟨t.keyOf E key, 0⟩ v t.store with
  | mk r st => cases r <;> rfl

theorem delete_secure (E : Env) (key : Bytes) (t : MPT) : (MPT.delete E key t).2.secure = t.secure := by
  rw [delete_eq]
  split
  · rfl
  cases MPT.deleteAux E E.limit (t.root.getD []) ⟨t.keyOf E key, 0⟩ t.store with
  | mk r st => cases r <;> rfl

theorem Holds.update {E : Env} {t t' : MPT} {a : T} (h : Holds E t a) {key v : Bytes} {r : Py Unit}
    (hk : (toNibs (t.keyOf E key)).length < E.limit)
    (hrun : MPT.update E key v t = (r, t')) (hl : LogOk E t'.store.written) :
    r = .ok () ∧ Holds E t' (T.insert a (toNibs (t.keyOf E key)) v) := by
  have hw := update_writes E key v t
  rw [hrun] at hw
  have hstep := step_replay h.good hl hw
  rw [update_eq] at hrun
  cases hr : MPT.updateAux E E.limit (t.root.getD []) ⟨t.keyOf E key, 0⟩ v t.store with
  | mk r' st' =>
    rw [hr] at hrun
    have hst : st' = t'.store := by
      cases r' <;> exact congrArg (fun x => x.2.store) hrun
    have key' : r' = .ok (ref E (T.insert a (toNibs (t.keyOf E key)) v)) ∧
        Stored E st'.kv (T.insert a (toNibs (t.keyOf E key)) v) := by
      have hnib := NibblePath.nibs_bytes (t.keyOf E key)
      have hlim : (NibblePath.mk (t.keyOf E key) 0).nibs.length < E.limit := by rwa [hnib]
      have hr' : MPT.updateAux E E.limit (ref E a) ⟨t.keyOf E key, 0⟩ v t.store = (r', st') := by
        rw [← hr]
        rcases h.root with ⟨rfl, h1 | h1⟩ | ⟨h1, h2⟩
        · rw [h1]; rfl
        · rw [h1]
          obtain ⟨f, hf⟩ : ∃ f, E.limit = f + 1 := ⟨E.limit - 1, by omega⟩
          rw [hf]
          simp [MPT.updateAux, ref]
        · rw [h2]; rfl
      have := updateAux_run E.limit h.shape (NibblePath.WF_bytes _) v hlim h.good h.stored hr' (hst ▸ hl)
      rwa [hnib] at this
    obtain ⟨rfl, hs⟩ := key'
    obtain ⟨rfl, rfl⟩ := Prod.mk.inj hrun
    exact ⟨rfl, h.shape.insert _ _, hs, hstep.good, .inr ⟨insert_ne_empty _ _ _, rfl⟩⟩

/-- What `delete` does, given what `remove` does. -/
def DelOk (E : Env) (t : MPT) (r : Py Unit) (t' : MPT) : Py DelRes → Prop
  | .error e => r = .error e ∧ t' = t
  | .ok d => r = .ok () ∧ (d.tree ≠ empty ∨ d = .deleted → Holds E t' d.tree)

theorem Holds.delete_empty {E : Env} {t : MPT} (h : Holds E t empty) (hl : LogOk E t.store.written)
    (key : Bytes) : MPT.delete E key t = (.error .valueError, t) := by
  rw [delete_eq, h.noRoot hl]; rfl

/-- An unsuccessful deletion changes nothing; a successful one is `remove`. -/
theorem Holds.delete {E : Env} {t t' : MPT} {a : T} (h : Holds E t a) (hne : a ≠ empty) {key : Bytes}
    {r : Py Unit} (hk : (toNibs (t.keyOf E key)).length < E.limit)
    (hrun : MPT.delete E key t = (r, t')) (hl : LogOk E t'.store.written) :
    DelOk E t r t' (remove a (toNibs (t.keyOf E key))) := by
  have hw := delete_writes E key t
  rw [hrun] at hw
  have hstep := step_replay h.good hl hw
  rw [delete_eq, h.noRoot hstep.log] at hrun
  have hi : a.isEmpty = false := by cases a <;> simp_all [isEmpty]
  rw [hi, if_neg (by simp), h.getD hne] at hrun
  cases hr : MPT.deleteAux E E.limit (ref E a) ⟨t.keyOf E key, 0⟩ t.store with
  | mk r' st' =>
    rw [hr] at hrun
    have hst : st' = t'.store := by
      cases r' <;> exact congrArg (fun x => x.2.store) hrun
    have hnib := NibblePath.nibs_bytes (t.keyOf E key)
    have hlim : (NibblePath.mk (t.keyOf E key) 0).nibs.length < E.limit := by rwa [hnib]
    have hspec := deleteAux_run E.limit h.shape hne (NibblePath.WF_bytes _) hlim h.good h.stored hr (hst ▸ hl)
    rw [hnib] at hspec
    cases hrem : remove a (toNibs (t.keyOf E key)) with
    | error e =>
      rw [hrem] at hspec
      obtain ⟨rfl, rfl⟩ := hspec
      obtain ⟨rfl, rfl⟩ := Prod.mk.inj hrun
      exact ⟨rfl, rfl⟩
    | ok d =>
      rw [hrem] at hspec
      obtain ⟨act, rfl, hact, hstored⟩ := hspec
      have hshape := h.shape.remove hrem
      obtain ⟨rfl, rfl⟩ := Prod.mk.inj hrun
      refine ⟨rfl, fun hd => ⟨hshape, hstored, hstep.good, ?_⟩⟩
      cases d <;> cases act <;> simp only [ActRep] at hact
      · exact .inl ⟨rfl, .inl rfl⟩
      · subst hact
        exact .inr ⟨by simpa using hd, rfl⟩
      · obtain ⟨_, _, rfl⟩ := hact
        exact .inr ⟨by simpa using hd, rfl⟩

end T
end Pymt
