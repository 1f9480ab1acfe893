import Verif.Lemmas.DeleteFail
import Verif.Spec.History

/-!
# Histories: the invariant
-/

namespace Pymt

/-- The object holds a canonical trie whose keys are `m` (keys as they appear in the trie). -/
def Inv (E : Env) (t : MPT) (m : Contents) : Prop :=
  ∃ a : T, T.Holds E t a ∧ a.Canon ∧ (∀ k, T.lookup a (toNibs k) = m k) ∧
    ∀ p v, T.lookup a p = some v → ∃ k, p = toNibs k

theorem exec_writes (E : Env) (op : Op) (t : MPT) :
    ∃ ws, (MPT.exec E op t).2.store = replay E ws t.store := by
  cases op with
  | update k v => exact T.update_writes E k v t
  | delete k => exact T.delete_writes E k t

theorem run_writes (E : Env) (ops : List Op) (t : MPT) :
    ∃ ws, (MPT.run E ops t).store = replay E ws t.store := by
  induction ops generalizing t with
  | nil => exact ⟨[], rfl⟩
  | cons op ops ih =>
    obtain ⟨w1, h1⟩ := exec_writes E op t
    obtain ⟨w2, h2⟩ := ih (MPT.exec E op t).2
    exact ⟨w1 ++ w2, by rw [replay_append, ← h1, ← h2]; rfl⟩

theorem exec_secure (E : Env) (op : Op) (t : MPT) : (MPT.exec E op t).2.secure = t.secure := by
  cases op with
  | update k v => exact T.update_secure E k v t
  | delete k => exact T.delete_secure E k t

theorem run_secure (E : Env) (ops : List Op) (t : MPT) : (MPT.run E ops t).secure = t.secure := by
  induction ops generalizing t with
  | nil => rfl
  | cons op ops ih => exact (ih _).trans (exec_secure E op t)

theorem log_of_replay {E : Env} {st st' : Store} (h : ∃ ws, st' = replay E ws st)
    (hl : LogOk E st'.written) : LogOk E st.written := by
  obtain ⟨ws, rfl⟩ := h
  rw [replay_written] at hl
  exact hl.mono fun a ha => List.mem_append_left _ ha

theorem Inv.new (E : Env) (secure : Bool) : Inv E (MPT.new E secure) (fun _ => none) := by
  refine ⟨.empty, ⟨trivial, trivial, Good.empty E, .inl ⟨rfl, .inr rfl⟩⟩, trivial, fun k => rfl, ?_⟩
  intro p v h; simp [T.lookup] at h

theorem keyOf_eq (E : Env) (t : MPT) (k : Bytes) :
    t.keyOf E k = if t.secure then E.keccak k else k := rfl

theorem fits_nibs {E : Env} {t : MPT} {k : Bytes} (h : Fits E t.secure k) :
    (toNibs (t.keyOf E k)).length < E.limit := by
  rw [toNibs_length, keyOf_eq]
  unfold Fits at h
  cases hs : t.secure <;> simp only [hs, Bool.false_eq_true, if_false, if_true] at h ⊢
  · omega
  · rw [E.keccak_len]; omega

theorem toNibs_prefix {a b : Bytes} : toNibs a <+: toNibs b ↔ a <+: b := by
  constructor
  · rintro ⟨r, hr⟩
    have hlen : r.length % 2 = 0 := by
      have := congrArg List.length hr
      simp only [List.length_append, toNibs_length] at this
      omega
    refine ⟨pack r, toNibs_inj ?_⟩
    rw [toNibs_append, toNibs_pack r hlen, hr]
  · rintro ⟨r, rfl⟩
    exact ⟨toNibs r, (toNibs_append a r).symm⟩

theorem Clean.room {m : Contents} {a : T} (h3 : ∀ k, T.lookup a (toNibs k) = m k)
    (h4 : ∀ p v, T.lookup a p = some v → ∃ k, p = toNibs k) {k v : Bytes}
    (h : Clean (Op.apply m (.update k v))) : T.Room a (toNibs k) v := by
  intro q w hq hne
  obtain ⟨k', rfl⟩ := h4 q w hq
  rw [h3] at hq
  have hk : k' ≠ k := by rintro rfl; exact hne rfl
  have e1 : Op.apply m (.update k v) k' = some w := by simp [Op.apply, hk, hq]
  have e2 : Op.apply m (.update k v) k = some v := by simp [Op.apply]
  refine ⟨fun hp hw => ?_, fun hp hw => ?_⟩
  · subst hw
    exact hk (h k' k e1 (by simp [e2]) (toNibs_prefix.1 hp)).symm
  · subst hw
    exact hk (h k k' e2 (by simp [e1]) (toNibs_prefix.1 hp))

theorem Inv.update {E : Env} {t : MPT} {m : Contents} (h : Inv E t m) {k v : Bytes}
    (hv : Clean (Op.apply m (.update (t.keyOf E k) v)))
    (hf : Fits E t.secure k) (hl : LogOk E (MPT.update E k v t).2.store.written) :
    (MPT.update E k v t).1 = .ok () ∧
      Inv E (MPT.update E k v t).2 (Op.apply m (.update (t.keyOf E k) v)) := by
  obtain ⟨a, h1, h2, h3, h4⟩ := h
  obtain ⟨r1, r2⟩ := h1.update (fits_nibs hf) rfl hl
  have hroom := hv.room h3 h4
  refine ⟨r1, _, r2, h2.insert hroom, fun k' => ?_, fun p w hp => ?_⟩
  · rw [h2.insert_lookup hroom]
    simp only [Op.apply, h3]
    by_cases e : k' = t.keyOf E k
    · simp [e]
    · have : toNibs k' ≠ toNibs (t.keyOf E k) := fun h => e (toNibs_inj h)
      simp [e, this]
  · rw [h2.insert_lookup hroom] at hp
    split at hp
    · exact ⟨_, by assumption⟩
    · exact h4 p w hp

theorem Inv.delete_some {E : Env} {t : MPT} {m : Contents} (h : Inv E t m) {k w : Bytes}
    (hm : m (t.keyOf E k) = some w)
    (hf : Fits E t.secure k) (hl : LogOk E (MPT.delete E k t).2.store.written) :
    (MPT.delete E k t).1 = .ok () ∧
      Inv E (MPT.delete E k t).2 (Op.apply m (.delete (t.keyOf E k))) := by
  obtain ⟨a, h1, h2, h3, h4⟩ := h
  rw [← h3] at hm
  have hne : a ≠ .empty := by rintro rfl; simp [T.lookup] at hm
  have hd := h1.delete hne (fits_nibs hf) rfl hl
  obtain ⟨d, hr, hc, hok, _, _, hnd, hlook⟩ := h2.remove_some hm
  rw [hr] at hd
  obtain ⟨r1, r2⟩ := hd
  have hdt : d.tree ≠ .empty ∨ d = .deleted := by
    cases d with
    | deleted => exact .inr rfl
    | updated t' => exact .inl (hnd t' rfl)
    | useless p t' => 
      refine .inl ?_
      rcases hok with ⟨v, rfl⟩ | ⟨c, rfl⟩ <;> simp [T.DelRes.tree]
  refine ⟨r1, _, r2 hdt, hc, fun k' => ?_, fun p w hp => ?_⟩
  · rw [hlook]
    simp only [Op.apply, h3]
    by_cases e : k' = t.keyOf E k
    · simp [e]
    · have : toNibs k' ≠ toNibs (t.keyOf E k) := fun h => e (toNibs_inj h)
      simp [e, this]
  · rw [hlook] at hp
    split at hp
    · simp at hp
    · exact h4 p w hp

theorem Inv.delete_none {E : Env} {t : MPT} {m : Contents} (h : Inv E t m) {k : Bytes}
    (hm : m (t.keyOf E k) = none)
    (hf : Fits E t.secure k) (hl : LogOk E t.store.written) :
    ∃ e, MPT.delete E k t = (.error e, t) ∧
      (e = .valueError ∨ e = .leafPath ∨ e = .extensionPath ∨ e = .branchPath ∨ e = .assertion) := by
  obtain ⟨a, h1, h2, h3, h4⟩ := h
  rw [← h3] at hm
  by_cases hne : a = .empty
  · subst hne
    exact ⟨.valueError, h1.delete_empty hl k, .inl rfl⟩
  · obtain ⟨e, he, hc⟩ := h2.remove_none hne hm
    exact ⟨e, h1.delete_fail hne hl (fits_nibs hf) he, .inr hc⟩

theorem Op.apply_delete_none {m : Contents} {k : Bytes} (h : m k = none) : Op.apply m (.delete k) = m := by
  funext k'
  simp only [Op.apply]
  split
  · rename_i e; rw [e, h]
  · rfl

theorem Inv.exec {E : Env} {t : MPT} {m : Contents} (h : Inv E t m) {op : Op}
    (hv : Clean (Op.apply m (op.mapKey (effective E t.secure))))
    (hf : Fits E t.secure op.key) (hl : LogOk E (MPT.exec E op t).2.store.written) :
    Inv E (MPT.exec E op t).2 (Op.apply m (op.mapKey (effective E t.secure))) := by
  cases op with
  | update k v => exact (h.update hv hf hl).2
  | delete k =>
    cases hm : m (t.keyOf E k) with
    | some w => exact (h.delete_some hm hf hl).2
    | none =>
      obtain ⟨e, he, _⟩ := h.delete_none hm hf (log_of_replay (exec_writes E (.delete k) t) hl)
      show Inv E (MPT.delete E k t).2 (Op.apply m (.delete (t.keyOf E k)))
      rw [he, Op.apply_delete_none hm]
      exact h

theorem Inv.run {E : Env} {t : MPT} {m : Contents} (h : Inv E t m) {ops : List Op}
    (hv : ∀ pre, pre <+: ops → Clean (contentsFrom m (pre.map (Op.mapKey (effective E t.secure)))))
    (hf : ∀ op ∈ ops, Fits E t.secure op.key)
    (hl : LogOk E (MPT.run E ops t).store.written) :
    Inv E (MPT.run E ops t) (contentsFrom m (ops.map (Op.mapKey (effective E t.secure)))) := by
  induction ops generalizing t m with
  | nil => exact h
  | cons op ops ih =>
    have hl1 : LogOk E (MPT.exec E op t).2.store.written := log_of_replay (run_writes E ops _) hl
    have h1 := h.exec (by simpa [contentsFrom] using hv [op] (by simp [List.cons_prefix_cons])) (hf op (by simp)) hl1
    have hsec := exec_secure E op t
    have := ih h1 (fun pre hp => by
        rw [hsec]
        simpa [contentsFrom] using hv (op :: pre) (by simpa [List.cons_prefix_cons] using hp))
      (fun o ho => by rw [hsec]; exact hf o (List.mem_cons_of_mem _ ho)) hl
    rw [hsec] at this
    exact this

/-! ### Secure mode: keys and their hashes -/

theorem contentsFrom_map {f : Bytes → Bytes} {ops : List Op} {m m' : Contents} {k : Bytes}
    (hinj : ∀ op ∈ ops, f op.key = f k → op.key = k) (hm : m' (f k) = m k) :
    contentsFrom m' (ops.map (Op.mapKey f)) (f k) = contentsFrom m ops k := by
  induction ops generalizing m m' with
  | nil => exact hm
  | cons op ops ih =>
    simp only [contentsFrom, List.map_cons, List.foldl_cons] at ih ⊢
    refine ih (fun o ho => hinj o (List.mem_cons_of_mem _ ho)) ?_
    have := hinj op (by simp)
    cases op with
    | update k0 v =>
      simp only [Op.key] at this
      simp only [Op.mapKey, Op.apply]
      by_cases e : f k = f k0
      · rw [if_pos e, if_pos (this e.symm).symm]
      · rw [if_neg e, if_neg (fun h => e (by rw [h]))]; exact hm
    | delete k0 =>
      simp only [Op.key] at this
      simp only [Op.mapKey, Op.apply]
      by_cases e : f k = f k0
      · rw [if_pos e, if_pos (this e.symm).symm]
      · rw [if_neg e, if_neg (fun h => e (by rw [h]))]; exact hm

/-- Contents of the trie object after a history, in terms of the trie's own keys. -/
def eff (E : Env) (secure : Bool) (ops : List Op) : Contents :=
  contents (ops.map (Op.mapKey (effective E secure)))

theorem eff_eq {E : Env} {secure : Bool} {ops : List Op} {ks : List Bytes} {k : Bytes}
    (hk : secure = true → CollFree E (ks ++ ops.map Op.key)) (hmem : k ∈ ks ++ ops.map Op.key) :
    eff E secure ops (effective E secure k) = contents ops k := by
  refine contentsFrom_map (fun op hop he => ?_) rfl
  cases secure with
  | false => exact he
  | true =>
    refine hk rfl _ ?_ _ hmem he
    exact List.mem_append_right _ (List.mem_map_of_mem hop)

theorem eff_false (E : Env) (ops : List Op) : eff E false ops = contents ops := by
  funext k
  exact contentsFrom_map (f := effective E false) (fun op _ he => he) rfl

theorem after_secure (E : Env) (secure : Bool) (ops : List Op) : (MPT.after E secure ops).secure = secure :=
  run_secure E ops _

/-- In secure mode all keys of the trie have length 32, so none is a proper prefix of another. -/
theorem eff_secure_len {E : Env} {ops : List Op} {k v : Bytes} (h : eff E true ops k = some v) :
    k.length = 32 := by
  have : ∀ (ops : List Op) (m : Contents), (∀ k v, m k = some v → k.length = 32) →
      contentsFrom m (ops.map (Op.mapKey (effective E true))) k = some v → k.length = 32 := by
    intro ops
    induction ops with
    | nil => intro m hm h; exact hm _ _ h
    | cons op ops ih =>
      intro m hm h
      refine ih _ ?_ h
      intro k' v' hk'
      cases op with
      | update k0 v0 =>
        simp only [Op.mapKey, Op.apply] at hk'
        split at hk'
        · rename_i e; rw [e]; exact E.keccak_len _
        · exact hm _ _ hk'
      | delete k0 =>
        simp only [Op.mapKey, Op.apply] at hk'
        split at hk'
        · simp at hk'
        · exact hm _ _ hk'
  exact this ops _ (by simp) h

theorem clean_eff {E : Env} {secure : Bool} {ops : List Op}
    (h : secure = false → Clean (contents ops)) : Clean (eff E secure ops) := by
  cases secure with
  | false => rw [eff_false]; exact h rfl
  | true =>
    intro k k' h1 h2 hp
    cases h3 : eff E true ops k' with
    | none => exact absurd h3 h2
    | some v => exact (hp.eq_of_length (by rw [eff_secure_len h1, eff_secure_len h3])).symm

theorem Valid.clean {E : Env} {secure : Bool} {ops : List Op} {ks : List Bytes} (h : Valid E secure ops ks)
    {pre : List Op} (hp : pre <+: ops) : Clean (eff E secure pre) :=
  clean_eff fun hs => h.empties hs pre hp

theorem Valid.inv {E : Env} {secure : Bool} {ops : List Op} {ks : List Bytes} (h : Valid E secure ops ks) :
    Inv E (MPT.after E secure ops) (eff E secure ops) :=
  (Inv.new E secure).run (fun _ hp => h.clean hp) h.fits h.log

theorem Valid.fit {E : Env} {secure : Bool} {ops : List Op} {ks : List Bytes} (h : Valid E secure ops ks)
    {k : Bytes} (hk : k ∈ ks) : Fits E (MPT.after E secure ops).secure k := by
  rw [after_secure]; exact h.fitsq k hk

theorem Valid.eff_key {E : Env} {secure : Bool} {ops : List Op} {ks : List Bytes}
    (h : Valid E secure ops ks) {k : Bytes} (hk : k ∈ ks) :
    eff E secure ops ((MPT.after E secure ops).keyOf E k) = contents ops k := by
  rw [keyOf_eq, after_secure]
  exact eff_eq h.keys (List.mem_append_left _ hk)

theorem after_append (E : Env) (secure : Bool) (ops ops' : List Op) :
    MPT.after E secure (ops ++ ops') = MPT.run E ops' (MPT.after E secure ops) := by
  simp [MPT.after, MPT.run]

theorem contents_append (ops ops' : List Op) :
    contents (ops ++ ops') = contentsFrom (contents ops) ops' := by
  simp [contents, contentsFrom]

/-- A valid history stays valid when cut. -/
theorem Valid.cut {E : Env} {secure : Bool} {ops ops' : List Op} {ks : List Bytes}
    (h : Valid E secure (ops ++ ops') ks) : Valid E secure ops (ks ++ ops'.map Op.key) where
  empties := fun hs pre hp => h.empties hs pre (hp.trans (List.prefix_append _ _))
  fits := fun op ho => h.fits op (List.mem_append_left _ ho)
  fitsq := fun k hk => by
    rcases List.mem_append.1 hk with hk | hk
    · exact h.fitsq k hk
    · obtain ⟨op, ho, rfl⟩ := List.mem_map.1 hk
      exact h.fits op (List.mem_append_right _ ho)
  log := by
    have := h.log
    rw [after_append] at this
    exact log_of_replay (run_writes E ops' _) this
  keys := fun hs => (h.keys hs).mono (by
    intro a ha
    simp only [List.mem_append, List.map_append] at ha ⊢
    rcases ha with (ha | ha) | ha
    · exact .inl ha
    · exact .inr (.inr ha)
    · exact .inr (.inl ha))

theorem Valid.subset {E : Env} {secure : Bool} {ops : List Op} {ks ks' : List Bytes}
    (h : Valid E secure ops ks) (hs : ∀ k ∈ ks', k ∈ ks ++ ops.map Op.key) : Valid E secure ops ks' where
  empties := h.empties
  fits := h.fits
  fitsq := fun k hk => by
    rcases List.mem_append.1 (hs k hk) with hk | hk
    · exact h.fitsq k hk
    · obtain ⟨op, ho, rfl⟩ := List.mem_map.1 hk
      exact h.fits op ho
  log := h.log
  keys := fun hsec => (h.keys hsec).mono (by
    intro a ha
    rcases List.mem_append.1 ha with ha | ha
    · exact hs a ha
    · exact List.mem_append_right _ ha)

end Pymt
