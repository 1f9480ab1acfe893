import Verif.Lemmas.EmptBackend
import Verif.Spec.ToyEmpt

/-!
# Property C112: tries over storages that are not dicts
-/

namespace Pymt.Props

variable {ε : Type} {B : Backend ε} {view : B.σ → Bytes → Option Bytes}

/-- **C112** The storage may be any object with `__getitem__` and `__setitem__`.  It may raise exceptions of its own at
any access, keep the old entry when a key is written again, and change its state while it is read.  Calls that the
storage does not end have the outcomes they have on a trie over a dict on which only these calls are made, and the root
is the same; calls that it ends have no effect.
Hash assumption: no collision among the nodes written here and there (they are the same nodes, but for those written by
calls that were ended). -/
theorem C112 {E : Env} {secure : Bool} {calls : List Call} {s : B.σ} (hB : B.Loyal view)
    (h0 : ∀ k, view s k = none) (hf : ∀ c ∈ calls, Fits E secure c.key)
    (hl : LogOk E (((BackTrie.new E s secure).calls E calls).2.written ++
      (Call.seqAll E (completedCalls calls ((BackTrie.new (B := B) E s secure).calls E calls).1)
        (MPT.new E secure)).2.store.written)) :
    let r := (BackTrie.new (B := B) E s secure).calls E calls
    let dict := Call.seqAll E (completedCalls calls r.1) (MPT.new E secure)
    completed r.1 = dict.1 ∧ r.2.root = dict.2.root ∧
      ∀ k v, dget dict.2.store.kv k = some v → view r.2.st k = some v := by
  obtain ⟨h1, h2, _, _, h3, _⟩ := BackTrie.calls_new hB h0 hf hl
  exact ⟨h1, h2, h3.sub⟩

/-- C112 for proofs: made over such a storage they are those made over a dict, unless the storage ends the call. -/
theorem C112_proofs {E : Env} {secure : Bool} {calls : List Call} {s : B.σ} {now k : Bytes} (hB : B.Loyal view)
    (h0 : ∀ k, view s k = none) (hf : ∀ c ∈ calls, Fits E secure c.key) (hk : Fits E secure k)
    (hl : LogOk E (((BackTrie.new E s secure).calls E calls).2.written ++
      (Call.seqAll E (completedCalls calls ((BackTrie.new (B := B) E s secure).calls E calls).1)
        (MPT.new E secure)).2.store.written)) :
    let r := (BackTrie.new (B := B) E s secure).calls E calls
    let dict := (Call.seqAll E (completedCalls calls r.1) (MPT.new E secure)).2
    (∀ x, ((MPT.getPoiCallP E now (storedKey E secure k)).against r.2).1 = .ok x → x = dict.getPoi E now k) ∧
    (∀ x, ((MPT.getPoeCallP E now (storedKey E secure k)).against r.2).1 = .ok x → x = dict.getPoe E now k) := by
  obtain ⟨_, h2, h3, h4, h5, h6, a, h7⟩ := BackTrie.calls_new hB h0 hf hl
  intro r dict
  have hsec : dict.secure = secure := h4
  have hll : LogOk E dict.store.written := hl.mono fun w h => List.mem_append_right _ h
  have hkey : storedKey E secure k = dict.keyOf E k := by rw [keyOf_eq, hsec]; rfl
  have hkk : (toNibs (dict.keyOf E k)).length < E.limit := fits_nibs (by rw [hsec]; exact hk)
  have hnk := h7.holds.never_key hll hkk
  have quiet : ∀ {p : Prog (Proof Bytes)} {y : Py (Proof Bytes)}, p.Quiet → Prog.Reads dict p y →
      y ≠ .error .keyError → ∀ x, (p.against r.2).1 = .ok x → x = y := by
    intro p y hq hr hy x hx
    have := Prog.against_loyal hB hl p hq.plain r.2 dict (Prog.fine_of_alone _ _ (by rw [hr]; exact hy)) h2 h5
      (by
        have : ∀ (p : Prog (Proof Bytes)) (o : BackTrie B), p.Quiet → (p.against o).2.written = o.written := by
          intro p
          induction p with
          | done r => intro o _; rfl
          | load k p ih =>
            intro o hq
            simp only [Prog.against]
            generalize B.getItem k o.st = x
            obtain ⟨x, s⟩ := x
            match x with
            | .ok (some v) => exact ih v { o with st := s } (hq v)
            | .ok none => rfl
            | .error e => rfl
          | save k v p ih => intro o hq; exact hq.elim
          | root p ih => intro o hq; exact ih _ o (hq _)
          | setRoot r p ih => intro o hq; exact hq.elim
        rw [this p r.2 hq]
        exact fun w h => List.mem_append_left _ h) hx
    rw [this.1, hr]
  rw [hkey]
  exact ⟨quiet (Prog.Quiet.poiCall E now _) (Prog.Reads.poiCall E now k) (hnk.2.2.1 now),
    quiet (Prog.Quiet.poeCall E now _) (Prog.Reads.poeCall h7.root_ne_nil now k) (hnk.2.2.2 now)⟩

/-- C112 for a storage that does what a dict does: no assumption on hashes or keys is needed, and the storage has
exactly the entries the dict has. -/
theorem C112_faithful {E : Env} {secure : Bool} {calls : List Call} {s : B.σ} (hB : B.Faithful view)
    (h0 : ∀ k, view s k = none) :
    let r := (BackTrie.new (B := B) E s secure).calls E calls
    let dict := Call.seqAll E calls (MPT.new E secure)
    r.1 = dict.1.map .ok ∧ r.2.root = dict.2.root ∧ ∀ k, view r.2.st k = dget dict.2.store.kv k :=
  BackTrie.calls_faithful hB calls _ _ rfl rfl fun k => by
    rw [BackTrie.new]; simp [h0, MPT.new, MPT.init, Store.empty, dget]

/-- Reads of a store with a cache. -/
def cachedView (s : cachedLog.σ) (k : Bytes) : Option Bytes := (dget s.2 k).or (dget s.1 k)

/-- A file with a cache is faithful; reading fills the cache. -/
theorem cachedLog_faithful : cachedLog.Faithful cachedView where
  get k s := by
    simp only [cachedLog, cachedView]
    cases dget s.2 k with
    | some v => rfl
    | none => cases dget s.1 k <;> rfl
  get_view k s := by
    funext k'
    simp only [cachedLog, cachedView]
    cases h2 : dget s.2 k with
    | some v => rfl
    | none =>
      cases h1 : dget s.1 k with
      | none => rfl
      | some v =>
        simp only [dget_dset]
        by_cases hk : k = k'
        · subst hk; simp [h1, h2]
        · simp [hk]
  set k v s := rfl
  set_view k v s k' := by
    simp only [cachedLog, cachedView, dget_ddel]
    by_cases hk : k' = k
    · subst hk; simp [dget]
    · have : ¬ k = k' := fun h => hk h.symm
      simp [hk, this, dget]

/-- The store over a network is loyal. -/
theorem flakyStore_loyal : flakyStore.Loyal fun s k => dget s.1 k where
  get k s x h := by
    simp only [flakyStore] at h
    split at h
    · exact (nomatch h)
    · injection h with h; exact h.symm
  get_view k s := rfl
  set k v s h := by
    simp only [flakyStore] at h ⊢
    split at h
    · exact (nomatch h)
    · rename_i hm
      split
      · rename_i hc
        rcases hc with hc | hc
        · omega
        · intro h0; rw [h0] at hc; exact (nomatch hc)
      · simp [dget_dset]
  set_view k v s := by
    simp only [flakyStore]
    split
    · exact .inr rfl
    · exact .inl (by simp [dget_dset])
  set_other k v s k' hk := by
    simp only [flakyStore]
    split
    · rfl
    · have : ¬ k = k' := fun h => hk h.symm
      simp [dget_dset, this]

/-- Calls as a client makes them that tries again when the storage fails. -/
def stubborn : List Call :=
  [.update [0x12] (bigValue 1), .update [0x12] (bigValue 1), .update [0x12, 0x34] (bigValue 2),
   .update [0x12, 0x34] (bigValue 2), .get [0x12], .get [0x12], .update [0x56] [7], .update [0x56] [7],
   .contains [0x56], .contains [0x56], .delete [0x12], .delete [0x12], .delete [0x12], .get [0x12, 0x34],
   .get [0x12, 0x34]]

/-- What becomes of them over the store that fails at every fifth access. -/
def stubbornRun : List (Except Unit (Py Ans)) × BackTrie flakyStore :=
  (BackTrie.new (B := flakyStore) toyEnv ([], 0) false).calls toyEnv stubborn

-- Eight calls fail, one of them after it has written a node; all of the deletes fail.
example : (∀ c ∈ stubborn, Fits toyEnv false c.key) ∧
    LogOk toyEnv (stubbornRun.2.written ++ (Call.seqAll toyEnv (completedCalls stubborn stubbornRun.1)
      (MPT.new toyEnv false)).2.store.written) ∧
    completedCalls stubborn stubbornRun.1 =
      [.update [0x12] (bigValue 1), .update [0x12] (bigValue 1), .update [0x12, 0x34] (bigValue 2), .get [0x12],
       .update [0x56] [7], .contains [0x56], .get [0x12, 0x34]] ∧
    completed stubbornRun.1 = [.ok .none, .ok .none, .ok .none, .ok (.value (bigValue 1)), .ok .none,
      .ok (.bool true), .ok (.value (bigValue 2))] ∧
    (Call.seqAll toyEnv (completedCalls stubborn stubbornRun.1) (MPT.new toyEnv false)).2.store.written.length <
      stubbornRun.2.written.length := by
  refine ⟨by unfold Fits; decide +kernel, logOk_of (by decide +kernel), by decide +kernel, by decide +kernel,
    by decide +kernel⟩

-- Proofs made at the end.
example : (((MPT.getPoiCallP toyEnv [1] [0x12]).against stubbornRun.2).1.toOption.isSome = true ∧
    ((MPT.getPoeCallP toyEnv [1] [0x77]).against stubbornRun.2).1.toOption.isSome = true) := by decide +kernel

-- Over a file with a cache all calls are made, and the cache has been filled.
example : ((BackTrie.new (B := cachedLog) toyEnv ([], []) false).calls toyEnv stubborn).1.length = 15 ∧
    ((BackTrie.new (B := cachedLog) toyEnv ([], []) false).calls toyEnv stubborn).2.st.2.length > 0 ∧
    ((BackTrie.new (B := cachedLog) toyEnv ([], []) false).calls toyEnv stubborn).1.getLast? =
      some (.ok (.ok (.value (bigValue 2)))) := by decide +kernel

/-- C112 for an `EMPT` over storages that do what dicts do. -/
theorem C112_empt {E : Env} {secure : Bool} {B : Backend Empty} {D : DataBackend} {view : B.σ → Bytes → Option Bytes}
    {dview : D.σ → Bytes → Option Value} {calls : List ECall} {s : B.σ} {d : D.σ} (hB : B.Faithful view)
    (hD : D.Faithful dview) (h0 : ∀ k, view s k = none) (hd : ∀ k, dview d k = none) :
    let r := (BackEmpt.new (B := B) (D := D) E s d secure).calls E calls
    let dict := ECall.seqAll E calls (EMPT.new E secure)
    r.1 = dict.1 ∧ r.2.trie.root = dict.2.trie.root ∧
      (∀ k, view r.2.trie.st k = dget dict.2.trie.store.kv k) ∧ ∀ k, dview r.2.data k = dget dict.2.data k := by
  obtain ⟨h1, h2⟩ := BackEmpt.calls_faithful (E := E) hB hD calls (BackEmpt.new E s d secure) (EMPT.new E secure)
    ⟨rfl, rfl, fun k => by simp [BackEmpt.new, BackTrie.new, h0, EMPT.new, MPT.new, MPT.init, Store.empty, dget],
      fun k => by simp [BackEmpt.new, hd, EMPT.new, dget]⟩
  exact ⟨h1, h2.root, h2.nodes, h2.data⟩

/-- A journal is faithful. -/
theorem journal_faithful : journal.Faithful fun s k => (dget s k).join where
  get k s := rfl
  get_view k s := rfl
  set_view k v s k' := by
    by_cases hk : k' = k
    · subst hk; simp [journal, dget]
    · have : ¬ k = k' := fun h => hk h.symm
      simp [journal, hk, this, dget]
  del k s := rfl
  del_view k s k' := by
    by_cases hk : k' = k
    · subst hk; simp [journal, dget]
    · have : ¬ k = k' := fun h => hk h.symm
      simp [journal, hk, this, dget]

-- An `EMPT` over a file with a cache and a journal.
example : ((BackEmpt.new (B := cachedLog) (D := journal) toyEnv ([], []) [] false).calls toyEnv
      [.update [1, 2] (.bytes (bigValue 1)), .update [1, 3] (.bytes [5]), .get [1, 3], .delete [1, 2], .get [1, 2],
       .contains [1, 3], .delete [1, 2]]).1 =
    [.ok .none, .ok .none, .ok (.value (.bytes [5])), .ok .none, .error .keyError, .ok (.bool true),
     .error .keyNotFound] := by decide +kernel

end Pymt.Props
