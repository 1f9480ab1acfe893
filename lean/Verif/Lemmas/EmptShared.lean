import Verif.Spec.EmptShared
import Verif.Lemmas.Empt
import Verif.Lemmas.Reopen
import Verif.Props.Empt

/-!
# Several `EMPT` objects over the same two storages
-/

namespace Pymt

/-- The trie of an object has the references of its values. -/
structure RefMap (E : Env) (secure : Bool) (keys : List Bytes) (m : Contents) (c : EContents) : Prop where
  at_key : ∀ k ∈ keys, m (effective E secure k) = (c k).map (refOf E k)
  only : ∀ e, m e ≠ none → ∃ k ∈ keys, e = effective E secure k
  nonempty : ∀ e, m e ≠ some []

/-- The objects are what the view says. -/
structure EViews (E : Env) (keys : List Bytes) (w : EShared) (v : EView) : Prop where
  data : ∀ k, dget w.data k = v.data k
  nodup : (w.data.map (·.1)).Nodup
  secure : ∀ i, (w.objs i).2 = v.secure i
  trie : ∀ i, ∃ m, Inv E (w.obj i).trie m ∧ RefMap E (v.secure i) keys m (v.maps i)
  good : ∀ k x, (v.data k = some x ∨ ∃ i, v.maps i k = some x) → x.storable = true ∧ k.length + x.payload.length < 2 ^ 60 ∧ k ∈ keys

theorem EViews.new (E : Env) (secure : Nat → Bool) (keys : List Bytes) :
    EViews E keys (EShared.new E secure) (EView.new secure) where
  data := fun _ => rfl
  nodup := by simp [EShared.new]
  secure := fun _ => rfl
  trie := fun i => ⟨fun _ => none, Inv.new E (secure i), fun _ _ => rfl, fun _ h => absurd rfl h, fun _ h => nomatch h⟩
  good := by
    rintro k x (h | ⟨i, h⟩) <;> cases h

theorem KeysApart.inj {E : Env} {secure : Bool} {keys : List Bytes} (h : KeysApart E secure keys) {k k' : Bytes}
    (hk : k ∈ keys) (hk' : k' ∈ keys) (e : effective E secure k = effective E secure k') : k = k' :=
  h k hk k' hk' (e ▸ List.prefix_refl _)

theorem RefMap.update {E : Env} {secure : Bool} {keys : List Bytes} {m : Contents} {c : EContents}
    (h : RefMap E secure keys m c) (ha : KeysApart E secure keys) {k : Bytes} (hk : k ∈ keys) (x : Value) :
    RefMap E secure keys (Op.apply m (.update (effective E secure k) (refOf E k x)))
      (fun k' => if k' = k then some x else c k') where
  at_key := by
    intro k' hk'
    simp only [Op.apply]
    by_cases e : k' = k
    · subst e; simp
    · rw [if_neg e, if_neg fun he => e (ha.inj hk' hk he)]
      exact h.at_key k' hk'
  only := by
    intro e he
    simp only [Op.apply] at he
    split at he
    · exact ⟨k, hk, by assumption⟩
    · exact h.only e he
  nonempty := by
    intro e he
    simp only [Op.apply] at he
    split at he
    · exact DataRef.encode_ne_nil E ⟨k, x.payload⟩ (by injection he)
    · exact h.nonempty e he

theorem RefMap.delete {E : Env} {secure : Bool} {keys : List Bytes} {m : Contents} {c : EContents}
    (h : RefMap E secure keys m c) (ha : KeysApart E secure keys) {k : Bytes} (hk : k ∈ keys) :
    RefMap E secure keys (Op.apply m (.delete (effective E secure k))) (fun k' => if k' = k then none else c k') where
  at_key := by
    intro k' hk'
    simp only [Op.apply]
    by_cases e : k' = k
    · subst e; simp
    · rw [if_neg e, if_neg fun he => e (ha.inj hk' hk he)]
      exact h.at_key k' hk'
  only := by
    intro e he
    simp only [Op.apply] at he
    split at he
    · exact absurd rfl he
    · exact h.only e he
  nonempty := by
    intro e he
    simp only [Op.apply] at he
    split at he
    · cases he
    · exact h.nonempty e he

theorem RefMap.clean {E : Env} {secure : Bool} {keys : List Bytes} {m : Contents} {c : EContents}
    (h : RefMap E secure keys m c) : Clean m := fun k _ h1 => absurd h1 (h.nonempty k)

/-- `contains` of an object. -/
theorem EViews.contains {E : Env} {keys : List Bytes} {w : EShared} {v : EView} (h : EViews E keys w v) {i : Nat}
    (ha : KeysApart E (v.secure i) keys) (hf : ∀ k ∈ keys, Fits E (v.secure i) k) (hl : LogOk E w.store.written)
    {k : Bytes} (hk : k ∈ keys) : (w.obj i).trie.contains E k = .ok (v.maps i k).isSome := by
  obtain ⟨m, h1, h2⟩ := h.trie i
  have hs : (w.obj i).trie.secure = v.secure i := h.secure i
  have hkey : (w.obj i).trie.keyOf E k = effective E (v.secure i) k := by rw [keyOf_eq, hs]; rfl
  have hm := h2.at_key k hk
  rw [← hkey] at hm
  have hf' : Fits E (w.obj i).trie.secure k := by rw [hs]; exact hf k hk
  cases hc : v.maps i k with
  | some x =>
    rw [hc] at hm
    exact h1.contains_some hl hf' hm
  | none =>
    rw [hc] at hm
    refine h1.contains_none hl hf' hm fun e he hne => ?_
    by_cases hn : m e = none
    · exact hn
    · obtain ⟨k', hk', rfl⟩ := h2.only e hn
      rw [hkey] at he hne
      exact absurd (by rw [ha k' hk' k hk he]) hne

/-- `get` of the trie of an object. -/
theorem EViews.get_some {E : Env} {keys : List Bytes} {w : EShared} {v : EView} (h : EViews E keys w v) {i : Nat}
    (hf : ∀ k ∈ keys, Fits E (v.secure i) k) {k : Bytes} (hk : k ∈ keys) {x : Value} (hx : v.maps i k = some x) :
    (w.obj i).trie.get E k = .ok (refOf E k x) := by
  obtain ⟨m, h1, h2⟩ := h.trie i
  have hs : (w.obj i).trie.secure = v.secure i := h.secure i
  have hkey : (w.obj i).trie.keyOf E k = effective E (v.secure i) k := by rw [keyOf_eq, hs]; rfl
  have hm := h2.at_key k hk
  rw [← hkey, hx] at hm
  exact h1.get_some (by rw [hs]; exact hf k hk) hm

theorem EViews.get_none {E : Env} {keys : List Bytes} {w : EShared} {v : EView} (h : EViews E keys w v) {i : Nat}
    (ha : KeysApart E (v.secure i) keys) (hf : ∀ k ∈ keys, Fits E (v.secure i) k) (hl : LogOk E w.store.written)
    {k : Bytes} (hk : k ∈ keys) (hx : v.maps i k = none) :
    ∃ e, (w.obj i).trie.get E k = .error e := by
  obtain ⟨m, h1, h2⟩ := h.trie i
  have hs : (w.obj i).trie.secure = v.secure i := h.secure i
  have hkey : (w.obj i).trie.keyOf E k = effective E (v.secure i) k := by rw [keyOf_eq, hs]; rfl
  have hm := h2.at_key k hk
  rw [← hkey, hx] at hm
  refine h1.get_none hl (by rw [hs]; exact hf k hk) hm fun e he hne => ?_
  by_cases hn : m e = none
  · exact hn
  · obtain ⟨k', hk', rfl⟩ := h2.only e hn
    rw [hkey] at he hne
    exact absurd (by rw [ha k hk k' hk' he]) hne

theorem decode_ref {E : Env} {k : Bytes} {x : Value} (h : k.length + x.payload.length < 2 ^ 60) :
    DataRef.decode E (refOf E k x) = .ok ⟨k, x.payload⟩ := by
  refine DataRef.decode_encode ?_
  have := DataRef.encode_length_lt (E := E) (r := ⟨k, x.payload⟩) h
  omega

/-- `get` of an object. -/
theorem EViews.get {E : Env} {keys : List Bytes} {w : EShared} {v : EView} (h : EViews E keys w v) {i : Nat}
    (ha : KeysApart E (v.secure i) keys) (hf : ∀ k ∈ keys, Fits E (v.secure i) k) (hl : LogOk E w.store.written)
    {k : Bytes} (hk : k ∈ keys) :
    (v.data k = none → (w.obj i).get E k = .error .keyError) ∧
    (∀ d, v.data k = some d → v.maps i k = none → ∃ e, (w.obj i).get E k = .error e) ∧
    (∀ d x, v.data k = some d → v.maps i k = some x → (w.obj i).get E k =
      if E.keccak (k ++ x.payload) = E.keccak (k ++ d.payload) then .ok d else .error .invalidReference) := by
  have hd : dget (w.obj i).data k = v.data k := h.data k
  refine ⟨fun hn => ?_, fun d hd' hn => ?_, fun d x hd' hx => ?_⟩
  · unfold EMPT.get dgetItem
    rw [hd, hn]; rfl
  · obtain ⟨e, he⟩ := h.get_none ha hf hl hk hn
    refine ⟨e, ?_⟩
    unfold EMPT.get dgetItem
    rw [hd, hd']
    simp only [Except.bind_ok', he, Except.bind_error']
  · unfold EMPT.get dgetItem
    rw [hd, hd']
    simp only [Except.bind_ok', h.get_some hf hk hx, decode_ref (h.good k x (.inr ⟨i, hx⟩)).2.1,
      Props.ofValue_storable (h.good k d (.inl hd')).1]
    by_cases e : E.keccak (k ++ x.payload) = E.keccak (k ++ d.payload)
    · rw [(DataRef.eq_iff E ⟨k, x.payload⟩ ⟨k, d.payload⟩).2 e, if_pos e]; rfl
    · rw [if_neg e]
      have : DataRef.eq E ⟨k, x.payload⟩ ⟨k, d.payload⟩ = false := by
        rw [Bool.eq_false_iff]; exact fun hb => e ((DataRef.eq_iff E _ _).1 hb)
      rw [this]; rfl

theorem EShared.obj_put_same (w : EShared) (i : Nat) (s : EMPT) : (w.put i s).obj i = s := by
  simp [EShared.put, EShared.obj]

theorem EShared.obj_put_ne (w : EShared) {i j : Nat} (h : j ≠ i) (s : EMPT) :
    ((w.put i s).obj j).trie = { (w.obj j).trie with store := s.trie.store } := by
  simp [EShared.put, EShared.obj, h]

theorem EMPT.exec_writes (E : Env) (op : EOp) (s : EMPT) :
    ∃ ws, (EMPT.exec E op s).2.trie.store = replay E ws s.trie.store := by
  obtain ⟨ops, h⟩ := EMPT.exec_trie E op s
  rw [h]; exact run_writes E ops _

theorem EShared.step_writes (E : Env) (c : EStep) (w : EShared) :
    ∃ ws, (w.step E c).store = replay E ws w.store := by
  cases c with
  | call i op => exact EMPT.exec_writes E op (w.obj i)
  | «open» i j =>
    simp only [EShared.step, EMPT.init]
    split
    · split at *
      · contradiction
      · rename_i h
        cases h
        exact ⟨[], rfl⟩
    · exact ⟨[], rfl⟩

theorem EShared.run_writes (E : Env) (calls : List EStep) (w : EShared) :
    ∃ ws, (w.run E calls).store = replay E ws w.store := by
  induction calls generalizing w with
  | nil => exact ⟨[], rfl⟩
  | cons c calls ih =>
    obtain ⟨w1, h1⟩ := EShared.step_writes E c w
    obtain ⟨w2, h2⟩ := ih (w.step E c)
    exact ⟨w1 ++ w2, by rw [replay_append, ← h1, ← h2]; rfl⟩

/-- The trie of an object after a call on any object. -/
theorem EViews.others {E : Env} {keys : List Bytes} {w : EShared} {v : EView} (h : EViews E keys w v) {i j : Nat}
    (hj : j ≠ i) {s : EMPT} (hs : ∃ ws, s.trie.store = replay E ws w.store) (hl : LogOk E s.trie.store.written) :
    ∃ m, Inv E ((w.put i s).obj j).trie m ∧ RefMap E (v.secure j) keys m (v.maps j) := by
  obtain ⟨m, h1, h2⟩ := h.trie j
  refine ⟨m, ?_, h2⟩
  rw [EShared.obj_put_ne w hj]
  exact h1.withStore hs hl

/-- An update of a value that can be kept. -/
theorem EViews.update {E : Env} {keys : List Bytes} {w : EShared} {v : EView} (h : EViews E keys w v) {i : Nat}
    (ha : KeysApart E (v.secure i) keys) (hf : ∀ k ∈ keys, Fits E (v.secure i) k) {k : Bytes} (hk : k ∈ keys) {x : Value}
    (hs : x.storable = true) (hsz : k.length + x.payload.length < 2 ^ 60)
    (hl : LogOk E (w.step E (.call i (.update k x))).store.written) :
    (EMPT.update E k x (w.obj i)).1 = .ok () ∧
      EViews E keys (w.step E (.call i (.update k x))) (v.step (.call i (.update k x))) := by
  obtain ⟨m, h1, h2⟩ := h.trie i
  have hsec : (w.obj i).trie.secure = v.secure i := h.secure i
  have hkey : (w.obj i).trie.keyOf E k = effective E (v.secure i) k := by rw [keyOf_eq, hsec]; rfl
  have hu := EMPT.update_storable (E := E) (k := k) hs (w.obj i)
  have hlog : LogOk E (MPT.update E k (refOf E k x) (w.obj i).trie).2.store.written := by
    have hl' : LogOk E (EMPT.update E k x (w.obj i)).2.trie.store.written := hl
    rw [hu] at hl'
    revert hl'
    cases MPT.update E k (refOf E k x) (w.obj i).trie with
    | mk r t => cases r <;> exact id
  have h3 := h2.update ha hk x
  have hi := h1.update (v := refOf E k x) (by rw [hkey]; exact h3.clean) (by rw [hsec]; exact hf k hk) hlog
  have hres : EMPT.update E k x (w.obj i) =
      (.ok (), { trie := (MPT.update E k (refOf E k x) (w.obj i).trie).2, data := dset w.data k x }) := by
    rw [hu]
    revert hi
    cases MPT.update E k (refOf E k x) (w.obj i).trie with
    | mk r t =>
      rintro ⟨hr, -⟩
      simp only at hr
      subst hr
      rfl
  have hst : w.step E (.call i (.update k x)) =
      w.put i { trie := (MPT.update E k (refOf E k x) (w.obj i).trie).2, data := dset w.data k x } := by
    show w.put i (EMPT.update E k x (w.obj i)).2 = _
    rw [hres]
  refine ⟨by rw [hres], ?_⟩
  rw [hst]
  simp only [EView.step, hs, if_true]
  refine ⟨fun k' => ?_, dset_nodup h.nodup, fun j => ?_, fun j => ?_, ?_⟩
  · show dget (dset w.data k x) k' = if k' = k then some x else v.data k'
    rw [dget_dset]
    by_cases e : k' = k
    · subst e; simp
    · rw [if_neg e, if_neg (Ne.symm e)]; exact h.data k'
  · show (if j = i then _ else _ : Option Bytes × Bool).2 = _
    by_cases e : j = i
    · subst e; rw [if_pos rfl]; exact (T.update_secure E _ _ _).trans hsec
    · rw [if_neg e]; exact h.secure j
  · by_cases e : j = i
    · subst e
      refine ⟨_, by rw [EShared.obj_put_same]; exact hi.2, ?_⟩
      rw [hkey]
      simpa using h3
    · obtain ⟨m', g1, g2⟩ := h.others (j := j) e
        (s := { trie := (MPT.update E k (refOf E k x) (w.obj i).trie).2, data := dset w.data k x })
        (T.update_writes E k _ _) hlog
      exact ⟨m', g1, by simpa [e] using g2⟩
  · rintro k' y (hy | ⟨j, hy⟩)
    · simp only at hy
      split at hy
      · rename_i e; subst e; cases hy; exact ⟨hs, hsz, hk⟩
      · exact h.good k' y (.inl hy)
    · simp only at hy
      split at hy
      · rename_i e; obtain ⟨-, rfl⟩ := e; cases hy; exact ⟨hs, hsz, hk⟩
      · exact h.good k' y (.inr ⟨j, hy⟩)

theorem EShared.put_self (w : EShared) (i : Nat) : w.put i (w.obj i) = w := by
  unfold EShared.put EShared.obj
  have : (fun j => if j = i then ((w.objs i).1, (w.objs i).2) else w.objs j) = w.objs := by
    funext j; by_cases e : j = i
    · subst e; simp
    · simp [e]
  simp only [this]

/-- What a delete on an object gives. -/
def EView.deleted (v : EView) (i : Nat) (k : Bytes) : Py Unit :=
  if v.maps i k = none then .error .keyNotFound else if v.data k = none then .error .keyError else .ok ()

/-- A delete. -/
theorem EViews.delete {E : Env} {keys : List Bytes} {w : EShared} {v : EView} (h : EViews E keys w v) {i : Nat}
    (ha : KeysApart E (v.secure i) keys) (hf : ∀ k ∈ keys, Fits E (v.secure i) k) {k : Bytes} (hk : k ∈ keys)
    (hl : LogOk E (w.step E (.call i (.delete k))).store.written) :
    (EMPT.delete E k (w.obj i)).1 = v.deleted i k ∧
      EViews E keys (w.step E (.call i (.delete k))) (v.step (.call i (.delete k))) := by
  obtain ⟨m, h1, h2⟩ := h.trie i
  have hsec : (w.obj i).trie.secure = v.secure i := h.secure i
  have hkey : (w.obj i).trie.keyOf E k = effective E (v.secure i) k := by rw [keyOf_eq, hsec]; rfl
  have hl0 : LogOk E w.store.written := log_of_replay (EShared.step_writes E _ w) hl
  have hcon := h.contains ha hf hl0 hk
  have hd := EMPT.delete_eq E k (w.obj i)
  rw [hcon] at hd
  have hdat : dget (w.obj i).data k = v.data k := h.data k
  have hstep : w.step E (.call i (.delete k)) = w.put i (EMPT.delete E k (w.obj i)).2 := rfl
  unfold EView.deleted
  cases hm : v.maps i k with
  | none =>
    rw [hm] at hd
    simp only [Option.isSome_none] at hd
    refine ⟨by rw [hd]; simp, ?_⟩
    rw [hstep, hd, EShared.put_self]
    simp only [EView.step, hm]
    simpa using h
  | some x =>
    rw [hm] at hd
    simp only [Option.isSome_some, hdat] at hd
    cases hv : v.data k with
    | none =>
      rw [hv] at hd
      simp only at hd
      refine ⟨by rw [hd]; simp, ?_⟩
      rw [hstep, hd, EShared.put_self]
      simp only [EView.step, hv]
      simpa using h
    | some d =>
      rw [hv] at hd
      simp only at hd
      have hlog : LogOk E (MPT.delete E k (w.obj i).trie).2.store.written := by
        have hl' := hl
        rw [hstep, hd] at hl'
        exact hl'
      have hmk := h2.at_key k hk
      rw [← hkey, hm] at hmk
      have hi := h1.delete_some hmk (by rw [hsec]; exact hf k hk) hlog
      have h3 := h2.delete ha hk
      refine ⟨by rw [hd, hi.1]; simp, ?_⟩
      rw [hstep, hd]
      simp only [EView.step, hm, hv]
      rw [if_pos (by simp)]
      refine ⟨fun k' => ?_, ddel_nodup h.nodup, fun j => ?_, fun j => ?_, ?_⟩
      · show dget (ddel w.data k) k' = if k' = k then none else v.data k'
        rw [dget_ddel]
        by_cases e : k' = k
        · subst e; simp
        · rw [if_neg e, if_neg (Ne.symm e)]; exact h.data k'
      · show (if j = i then _ else _ : Option Bytes × Bool).2 = _
        by_cases e : j = i
        · subst e; rw [if_pos rfl]; exact (T.delete_secure E _ _).trans hsec
        · rw [if_neg e]; exact h.secure j
      · by_cases e : j = i
        · subst e
          refine ⟨_, by rw [EShared.obj_put_same]; exact hi.2, ?_⟩
          rw [hkey]
          simpa using h3
        · obtain ⟨m', g1, g2⟩ := h.others (j := j) e
            (s := { trie := (MPT.delete E k (w.obj i).trie).2, data := ddel (w.obj i).data k })
            (T.delete_writes E k _) hlog
          exact ⟨m', g1, by simpa [e] using g2⟩
      · rintro k' y (hy | ⟨j, hy⟩)
        · simp only at hy
          split at hy
          · cases hy
          · exact h.good k' y (.inl hy)
        · simp only at hy
          split at hy
          · cases hy
          · exact h.good k' y (.inr ⟨j, hy⟩)

/-- Opening a further object. -/
theorem EViews.open {E : Env} {keys : List Bytes} {w : EShared} {v : EView} (h : EViews E keys w v) {i j : Nat}
    (hj : (w.objs j).1 ≠ none) (hl : LogOk E w.store.written) :
    EViews E keys (w.step E (.open i j)) (v.step (.open i j)) := by
  have hst : w.step E (.open i j) =
      w.put i { trie := MPT.init E w.store (w.objs j).1 (w.objs j).2, data := w.data } := by
    simp only [EShared.step, EMPT.init]
    rw [if_neg fun hh => hj hh.2]
  rw [hst]
  simp only [EView.step]
  refine ⟨h.data, h.nodup, fun l => ?_, fun l => ?_, ?_⟩
  · show (if l = i then _ else _ : Option Bytes × Bool).2 = if l = i then v.secure j else v.secure l
    by_cases e : l = i
    · subst e; rw [if_pos rfl, if_pos rfl]; exact h.secure j
    · rw [if_neg e, if_neg e]; exact h.secure l
  · by_cases e : l = i
    · subst e
      obtain ⟨m, h1, h2⟩ := h.trie j
      refine ⟨m, ?_, by simpa using h2⟩
      rw [EShared.obj_put_same]
      exact h1.reopen (st := w.store) ⟨[], rfl⟩ hl _
    · obtain ⟨m, g1, g2⟩ := h.others (i := i) (j := l) e
        (s := { trie := MPT.init E w.store (w.objs j).1 (w.objs j).2, data := w.data }) ⟨[], rfl⟩ hl
      exact ⟨m, g1, by simpa [e] using g2⟩
  · rintro k' y (hy | ⟨l, hy⟩)
    · exact h.good k' y (.inl hy)
    · simp only at hy
      split at hy
      · exact h.good k' y (.inr ⟨j, hy⟩)
      · exact h.good k' y (.inr ⟨l, hy⟩)

theorem Inv.root_some {E : Env} {t : MPT} {m : Contents} (h : Inv E t m) {k : Bytes} (hk : m k ≠ none) : t.root ≠ none := by
  obtain ⟨a, h1, h2, h3, h4⟩ := h
  rcases h1.root with ⟨h0, _⟩ | ⟨hne, hr⟩
  · subst h0
    rw [← h3] at hk
    simp [T.lookup] at hk
  · intro hn
    rw [hn] at hr
    cases hr

theorem EViews.root {E : Env} {keys : List Bytes} {w : EShared} {v : EView} (h : EViews E keys w v) {i : Nat} {k : Bytes}
    (hk : v.maps i k ≠ none) : (w.objs i).1 ≠ none := by
  obtain ⟨m, h1, h2⟩ := h.trie i
  cases hx : v.maps i k with
  | none => exact absurd hx hk
  | some x =>
    refine h1.root_some (k := effective E (v.secure i) k) ?_
    rw [h2.at_key k (h.good k x (.inr ⟨i, hx⟩)).2.2, hx]
    simp

theorem EShared.after_snoc (E : Env) (secure : Nat → Bool) (calls : List EStep) (c : EStep) :
    EShared.after E secure (calls ++ [c]) = (EShared.after E secure calls).step E c := by
  simp [EShared.after, EShared.run]

theorem EShared.after_append (E : Env) (secure : Nat → Bool) (calls more : List EStep) :
    EShared.after E secure (calls ++ more) = (EShared.after E secure calls).run E more := by
  simp [EShared.after, EShared.run]

theorem EView.after_snoc (secure : Nat → Bool) (calls : List EStep) (c : EStep) :
    EView.after secure (calls ++ [c]) = (EView.after secure calls).step c := by
  simp [EView.after]

theorem EView.secure_mem (secure : Nat → Bool) (calls : List EStep) :
    ∀ i, ∃ j, (EView.after secure calls).secure i = secure j := by
  rw [← List.reverse_reverse calls]
  induction calls.reverse with
  | nil => exact fun i => ⟨i, rfl⟩
  | cons c calls ih =>
    rw [List.reverse_cons, EView.after_snoc]
    intro i
    cases c with
    | call l op =>
      cases op with
      | update k x => simp only [EView.step]; split <;> exact ih i
      | delete k => simp only [EView.step]; split <;> exact ih i
    | «open» l j =>
      simp only [EView.step]
      split
      · exact ih j
      · exact ih i

theorem ESharedOk.cut {E : Env} {secure : Nat → Bool} {calls more : List EStep} {keys : List Bytes}
    (h : ESharedOk E secure (calls ++ more) keys) : ESharedOk E secure calls keys where
  named := fun c hc => h.named c (List.mem_append_left _ hc)
  fits := h.fits
  apart := h.apart
  sizes := fun i k x hx => h.sizes i k x (List.mem_append_left _ hx)
  log := by
    have := h.log
    rw [EShared.after_append] at this
    exact log_of_replay (EShared.run_writes E more _) this
  opens := fun pre i j post e => h.opens pre i j (post ++ more) (by rw [e]; simp)

theorem ESharedOk.fits' {E : Env} {secure : Nat → Bool} {calls : List EStep} {keys : List Bytes}
    (h : ESharedOk E secure calls keys) (i : Nat) : ∀ k ∈ keys, Fits E ((EView.after secure calls).secure i) k := by
  obtain ⟨j, hj⟩ := EView.secure_mem secure calls i
  rw [hj]; exact h.fits j

theorem ESharedOk.apart' {E : Env} {secure : Nat → Bool} {calls : List EStep} {keys : List Bytes}
    (h : ESharedOk E secure calls keys) (i : Nat) : KeysApart E ((EView.after secure calls).secure i) keys := by
  obtain ⟨j, hj⟩ := EView.secure_mem secure calls i
  rw [hj]; exact h.apart j

/-- The refinement: all objects are what the view says, after every sequence of steps. -/
theorem ESharedOk.views {E : Env} {secure : Nat → Bool} {calls : List EStep} {keys : List Bytes}
    (h : ESharedOk E secure calls keys) : EViews E keys (EShared.after E secure calls) (EView.after secure calls) := by
  rw [← List.reverse_reverse calls] at h ⊢
  generalize calls.reverse = calls at h ⊢
  induction calls with
  | nil => exact EViews.new E secure keys
  | cons c calls ih =>
    rw [List.reverse_cons] at h ⊢
    have h0 := h.cut
    have hv := ih h0
    generalize calls.reverse = calls at *
    have hl := h.log
    rw [EShared.after_snoc] at hl ⊢
    rw [EView.after_snoc]
    cases c with
    | call i op =>
      have hk : op.key ∈ keys := h.named (.call i op) (by simp) op.key (by simp [EStep.keys])
      cases op with
      | update k x =>
        by_cases hs : x.storable = true
        · exact (hv.update (h0.apart' i) (h0.fits' i) hk hs (h.sizes i k x (by simp)) hl).2
        · obtain ⟨e, he⟩ := EMPT.update_other (E := E) (k := k) (v := x) (by simpa using hs)
            ((EShared.after E secure calls).obj i)
          have : (EShared.after E secure calls).step E (.call i (.update k x)) = EShared.after E secure calls := by
            simp only [EShared.step, EMPT.exec, he]
            exact EShared.put_self _ _
          rw [this]
          simp only [EView.step, hs]
          exact hv
      | delete k => exact (hv.delete (h0.apart' i) (h0.fits' i) hk hl).2
    | «open» i j =>
      obtain ⟨k, hk⟩ := h.opens calls i j [] rfl
      exact hv.open (hv.root hk) h0.log

/-! ### What the view says about the calls that made an object -/

theorem lineages_snoc (calls : List EStep) (c : EStep) : lineages (calls ++ [c]) =
    match c with
    | .call i op => fun l => if l = i then lineages calls i ++ [op] else lineages calls l
    | .open i j => fun l => if l = i then lineages calls j else lineages calls l := by
  simp only [lineages, List.foldl_append, List.foldl_cons, List.foldl_nil]
  cases c <;> rfl

theorem allCalls_append (a b : List EStep) : allCalls (a ++ b) = allCalls a ++ allCalls b := by
  induction a with
  | nil => rfl
  | cons c a ih => cases c <;> simp [allCalls, ih]

theorem naming_append (k : Bytes) (a b : List EOp) : naming k (a ++ b) = naming k a ++ naming k b := by
  simp [naming]

/-- No object has more calls behind it than there were. -/
theorem lineage_length (k : Bytes) (calls : List EStep) :
    ∀ i, (naming k (lineages calls i)).length ≤ (naming k (allCalls calls)).length := by
  rw [← List.reverse_reverse calls]
  induction calls.reverse with
  | nil => intro i; exact Nat.le_refl _
  | cons c calls ih =>
    rw [List.reverse_cons]
    generalize calls.reverse = calls at ih ⊢
    intro i
    rw [lineages_snoc, allCalls_append, naming_append, List.length_append]
    cases c with
    | call l op =>
      simp only
      split
      · rw [naming_append, List.length_append]
        simp only [allCalls]
        exact Nat.add_le_add_right (ih l) _
      · exact Nat.le_trans (ih i) (Nat.le_add_right _ _)
    | «open» l j =>
      simp only [allCalls]
      split
      · exact ih j
      · exact ih i

/-- A key that all calls naming it made known to an object: the object, the data and the calls agree on it. -/
theorem EView.own (secure : Nat → Bool) {calls : List EStep} {k : Bytes} :
    ∀ {i}, naming k (lineages calls i) = naming k (allCalls calls) →
      (EView.after secure calls).maps i k = econtents (lineages calls i) k ∧
      (EView.after secure calls).data k = econtents (lineages calls i) k := by
  rw [← List.reverse_reverse calls]
  induction calls.reverse with
  | nil => intro i _; exact ⟨rfl, rfl⟩
  | cons c calls ih =>
    rw [List.reverse_cons]
    generalize calls.reverse = calls at ih ⊢
    intro i h
    rw [lineages_snoc, allCalls_append, naming_append] at h
    rw [EView.after_snoc, lineages_snoc]
    cases c with
    | «open» l j =>
      simp only [allCalls, naming, List.filter_nil, List.append_nil] at h
      simp only [EView.step]
      by_cases e : i = l
      · rw [if_pos e] at h
        simp only [if_pos e]
        exact ih h
      · rw [if_neg e] at h
        simp only [if_neg e]
        exact ih h
    | call l op =>
      simp only at h ⊢
      by_cases hn : op.key = k
      · have h1 : naming k (allCalls [.call l op]) = [op] := by simp [naming, allCalls, hn]
        have h2 : naming k [op] = [op] := by simp [naming, hn]
        rw [h1] at h
        by_cases e : i = l
        · subst e
          rw [if_pos rfl, naming_append, h2] at h
          obtain ⟨g1, g2⟩ := ih (List.append_cancel_right h)
          rw [if_pos rfl, econtents_append]
          cases op with
          | update k' x =>
            obtain rfl : k' = k := hn
            simp only [EView.step, EOp.apply]
            by_cases hs : x.storable = true
            · simp [hs]
            · simp only [hs]
              exact ⟨by simpa using g1, by simpa using g2⟩
          | delete k' =>
            obtain rfl : k' = k := hn
            simp only [EView.step, EOp.apply, if_true]
            split
            · simp
            · rename_i hx
              rw [g1, g2] at hx
              have : econtents (lineages calls i) k' = none := by
                cases hc : econtents (lineages calls i) k' with
                | none => rfl
                | some y => rw [hc] at hx; simp at hx
              rw [g1, g2, this]; exact ⟨rfl, rfl⟩
        · rw [if_neg e] at h
          have := lineage_length k calls i
          rw [h, List.length_append, List.length_singleton] at this
          omega
      · have h1 : naming k (allCalls [.call l op]) = [] := by simp [naming, allCalls, hn]
        have h2 : naming k [op] = [] := by simp [naming, hn]
        rw [h1, List.append_nil] at h
        have hview : ∀ j, ((EView.after secure calls).step (.call l op)).maps j k = (EView.after secure calls).maps j k ∧
            ((EView.after secure calls).step (.call l op)).data k = (EView.after secure calls).data k := by
          intro j
          cases op with
          | update k' x =>
            simp only [EView.step]
            have : ¬ k = k' := fun e => hn e.symm
            split <;> simp [this]
          | delete k' =>
            simp only [EView.step]
            have : ¬ k = k' := fun e => hn e.symm
            split <;> simp [this]
        rw [(hview i).1, (hview i).2]
        by_cases e : i = l
        · subst e
          rw [if_pos rfl, naming_append, h2, List.append_nil] at h
          rw [if_pos rfl, econtents_append]
          have hap : EOp.apply (econtents (lineages calls i)) op k = econtents (lineages calls i) k := by
            cases op with
            | update k' x =>
              have : ¬ k = k' := fun e => hn e.symm
              simp [EOp.apply, this]
            | delete k' =>
              have : ¬ k = k' := fun e => hn e.symm
              simp [EOp.apply, this]
          rw [hap]
          exact ih h
        · rw [if_neg e] at h ⊢
          exact ih h

theorem lastGiven_snoc (k : Bytes) (ops : List EOp) (op : EOp) : lastGiven k (ops ++ [op]) =
    match op with
    | .update k' x => if x.storable ∧ k' = k then some x else lastGiven k ops
    | .delete _ => lastGiven k ops := by
  simp only [lastGiven, List.foldl_append, List.foldl_cons, List.foldl_nil]
  cases op <;> rfl

/-- The value of a key in an object is the one last given in the calls that made it. -/
theorem EView.given (secure : Nat → Bool) {calls : List EStep} {k : Bytes} :
    ∀ {i x}, (EView.after secure calls).maps i k = some x → lastGiven k (lineages calls i) = some x := by
  rw [← List.reverse_reverse calls]
  induction calls.reverse with
  | nil => intro i x h; cases h
  | cons c calls ih =>
    rw [List.reverse_cons]
    generalize calls.reverse = calls at ih ⊢
    intro i x h
    rw [EView.after_snoc] at h
    rw [lineages_snoc]
    cases c with
    | «open» l j =>
      simp only [EView.step] at h ⊢
      split
      · rename_i e; subst e
        rw [if_pos rfl] at h
        exact ih h
      · rename_i e
        rw [if_neg e] at h
        exact ih h
    | call l op =>
      simp only
      by_cases e : i = l
      · subst e
        rw [if_pos rfl, lastGiven_snoc]
        cases op with
        | update k' y =>
          simp only [EView.step] at h ⊢
          by_cases hs : y.storable = true
          · simp only [hs, if_true, true_and] at h
            by_cases hk : k = k'
            · subst hk
              rw [if_pos rfl] at h
              simp [hs, h]
            · rw [if_neg hk] at h
              rw [if_neg (fun hh => hk hh.2.symm)]
              exact ih h
          · simp only [hs] at h
            rw [if_neg (fun hh => hs hh.1)]
            exact ih (by simpa using h)
        | delete k' =>
          simp only [EView.step] at h ⊢
          split at h
          · simp only [true_and] at h
            split at h
            · cases h
            · exact ih h
          · exact ih h
      · rw [if_neg e]
        refine ih ?_
        cases op with
        | update k' y =>
          simp only [EView.step] at h
          split at h
          · simpa [e] using h
          · exact h
        | delete k' =>
          simp only [EView.step] at h
          split at h
          · simpa [e] using h
          · exact h

end Pymt
