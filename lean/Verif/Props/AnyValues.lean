import Verif.Lemmas.Evolve
import Verif.Props.Storage
import Verif.Props.Proofs
import Verif.Props.Cost
import Verif.Props.Empties
import Verif.Props.Partial

/-!
# C09–C12, C18–C20, C23, C64, C65, C68 for histories with empty values anywhere

The theorems here do without the assumption `Valid.empties`.  Those that do not speak about contents also do without
the assumption on hashed keys, so that they hold for every history of calls with keys of suitable length, in both
modes, unless two nodes written collide.  `kept` (`Verif/Spec/Kept.lean`) says which pairs survive.
-/

namespace Pymt
namespace Props

/-! ### The storage -/

/-- C10 for every history. -/
theorem C10_all {E : Env} {secure : Bool} {ops more : List Op} {k : Bytes}
    (hf : ∀ op ∈ ops ++ more, Fits E secure op.key) (hk : Fits E secure k)
    (hl : LogOk E (MPT.after E secure (ops ++ more)).store.written) :
    let old := MPT.after E secure ops
    let again := MPT.init E (MPT.after E secure (ops ++ more)).store old.root secure
    again.rootHash E = old.rootHash E ∧ again.contains E k = old.contains E k ∧
    (∀ v, again.get E k = .ok v ↔ old.get E k = .ok v) ∧
    (∀ k', old.contains E k' = .ok true → again.get E k = old.get E k) := by
  have hst : ∃ ws, (MPT.after E secure (ops ++ more)).store = replay E ws (MPT.after E secure ops).store := by
    rw [after_append]; exact run_writes E more _
  have hl1 : LogOk E (MPT.after E secure ops).store.written := log_of_replay hst hl
  have h1 := (Bears.after (fun op ho => hf op (List.mem_append_left _ ho)) hl1).holds
  have h1' := h1.reopen hst hl secure
  obtain ⟨o1, o2⟩ := h1'.observe h1 (after_secure E secure ops).symm hl hl1 hk
  refine ⟨by rw [h1'.rootHash, h1.rootHash], o1, o2, fun k' hk' => ?_⟩
  have hne := h1.ne_of_contains hl1 hk'
  have e : (MPT.init E (MPT.after E secure (ops ++ more)).store (MPT.after E secure ops).root secure).keyOf E k =
      (MPT.after E secure ops).keyOf E k := by
    simp [keyOf_eq, MPT.init, after_secure]
  rw [h1'.get hne (fits_nibs hk), h1.get hne (fits_nibs (by rw [after_secure]; exact hk)), e]

/-- C10, changes from an old root, for every history. -/
theorem C10_fork_all {E : Env} {secure : Bool} {ops more other : List Op} {k : Bytes}
    (hf : ∀ op ∈ ops ++ more, Fits E secure op.key) (hf' : ∀ op ∈ other, Fits E secure op.key)
    (hk : Fits E secure k) (hl : LogOk E (MPT.after E secure (ops ++ more)).store.written)
    (hl' : LogOk E (MPT.after E secure (ops ++ other)).store.written)
    (hl2 : LogOk E (MPT.run E other (MPT.init E (MPT.after E secure (ops ++ more)).store
      (MPT.after E secure ops).root secure)).store.written) :
    let fork := MPT.run E other (MPT.init E (MPT.after E secure (ops ++ more)).store
      (MPT.after E secure ops).root secure)
    fork.rootHash E = (MPT.after E secure (ops ++ other)).rootHash E ∧
    fork.contains E k = (MPT.after E secure (ops ++ other)).contains E k ∧
    (∀ v, fork.get E k = .ok v ↔ (MPT.after E secure (ops ++ other)).get E k = .ok v) := by
  have hst : ∃ ws, (MPT.after E secure (ops ++ more)).store = replay E ws (MPT.after E secure ops).store := by
    rw [after_append]; exact run_writes E more _
  have hl1 : LogOk E (MPT.after E secure ops).store.written := log_of_replay hst hl
  have hb := Bears.after (fun op ho => hf op (List.mem_append_left _ ho)) hl1
  have h1 := ((hb.reopen hst hl secure).run (ops := other) hf' hl2).holds
  have h2 := (hb.run (ops := other) (by rw [after_secure]; exact hf') (by rw [← after_append]; exact hl')).holds
  rw [← after_append, after_secure] at h2
  have hsec : (MPT.run E other (MPT.init E (MPT.after E secure (ops ++ more)).store
      (MPT.after E secure ops).root secure)).secure = secure := run_secure _ _ _
  obtain ⟨o1, o2⟩ := h1.observe h2 (hsec.trans (after_secure _ _ _).symm) hl2 hl' (by rw [hsec]; exact hk)
  exact ⟨h1.rootHash.trans h2.rootHash.symm, o1, o2⟩

/-- C11 for every interleaving of calls. -/
theorem C11_all {E : Env} {secure : Nat → Bool} {calls : List (Nat × Op)} {i : Nat} {k : Bytes}
    (hf : ∀ c ∈ calls, Fits E (secure c.1) c.2.key) (hk : Fits E (secure i) k)
    (hl : LogOk E (Shared.run E calls (Shared.new E secure)).store.written)
    (hl' : LogOk E (MPT.after E (secure i) (callsOf i calls)).store.written) :
    let obj := (Shared.run E calls (Shared.new E secure)).obj i
    let own := MPT.after E (secure i) (callsOf i calls)
    obj.rootHash E = own.rootHash E ∧ obj.contains E k = own.contains E k ∧
    (∀ v, obj.get E k = .ok v ↔ own.get E k = .ok v) ∧
    ∀ op, Fits E (secure i) op.key → LogOk E (MPT.exec E op obj).2.store.written →
      LogOk E (MPT.exec E op own).2.store.written → (MPT.exec E op obj).1 = (MPT.exec E op own).1 := by
  have h1 := (Shared.bears (w := Shared.new E secure) (a := fun _ => .empty) (fun j => Bears.new E (secure j)) hf hl
    i).holds
  have hsec : ((Shared.run E calls (Shared.new E secure)).obj i).secure = secure i := Shared.run_secure E calls _ i
  have h2 := (Bears.after (secure := secure i) (ops := callsOf i calls) (fun op ho => by
    simp only [callsOf, List.mem_map, List.mem_filter, beq_iff_eq] at ho
    obtain ⟨c, ⟨hc, rfl⟩, rfl⟩ := ho
    exact hf c hc) hl').holds
  have hs := hsec.trans (after_secure E (secure i) (callsOf i calls)).symm
  obtain ⟨o1, o2⟩ := h1.observe h2 hs hl hl' (by rw [hsec]; exact hk)
  refine ⟨h1.rootHash.trans h2.rootHash.symm, o1, o2, fun op hop l1 l2 => ?_⟩
  exact h1.outcome h2 hs (by rw [hsec]; exact hop) l1 l2

/-- C12 for every history. -/
theorem C12_all {E : Env} {secure : Bool} {ops : List Op} {op : Op} {n : Nat} {k : Bytes}
    (hf : ∀ op ∈ ops, Fits E secure op.key) (hk : Fits E secure k)
    (hl : LogOk E (MPT.after E secure (ops ++ [op])).store.written) :
    let old := MPT.after E secure ops
    let again := MPT.init E (crashed E op old n) old.root secure
    again.rootHash E = old.rootHash E ∧ again.contains E k = old.contains E k ∧
    (∀ v, again.get E k = .ok v ↔ old.get E k = .ok v) := by
  have hlog : LogOk E (MPT.exec E op (MPT.after E secure ops)).2.store.written := by
    have := hl
    rw [after_append] at this
    exact this
  have hl1 : LogOk E (MPT.after E secure ops).store.written := log_of_replay (exec_writes E op _) hlog
  have hl2 := crashed_log (n := n) hlog
  have h1 := (Bears.after hf hl1).holds
  have h1' := h1.reopen (crashed_replay E op _ n) hl2 secure
  obtain ⟨o1, o2⟩ := h1'.observe h1 (after_secure E secure ops).symm hl2 hl1 hk
  exact ⟨by rw [h1'.rootHash, h1.rootHash], o1, o2⟩

/-- Histories with lost empty values. -/
example : (∀ op ∈ emptyOps ++ [.delete [0x12, 0x34], .update [0x12] (bigValue 4)], Fits toyEnv false op.key) ∧
    LogOk toyEnv (MPT.after toyEnv false
      (emptyOps ++ [.delete [0x12, 0x34], .update [0x12] (bigValue 4)])).store.written ∧
    (MPT.after toyEnv false emptyOps).contains toyEnv [0x99] = .ok true ∧
    LogOk toyEnv (MPT.after toyEnv false (emptyOps ++ [.update [0x12] []])).store.written ∧
    LogOk toyEnv (MPT.run toyEnv [.update [0x12] []] (MPT.init toyEnv (MPT.after toyEnv false
      (emptyOps ++ [.delete [0x12, 0x34], .update [0x12] (bigValue 4)])).store
      (MPT.after toyEnv false emptyOps).root false)).store.written ∧
    (MPT.after toyEnv false emptyOps).store.written.length + 2 ≤
      (MPT.after toyEnv false (emptyOps ++ [.update [0x12] []])).store.written.length :=
  ⟨by decide, logOk_of (by decide +kernel), by decide +kernel, logOk_of (by decide +kernel),
    logOk_of (by decide +kernel), by decide +kernel⟩

/-- Two objects over one dict, one of which loses an empty value. -/
def lossy : List (Nat × Op) :=
  [(0, .update [0x12] []), (1, .update [0x12] (bigValue 2)), (0, .update [0x12, 0x34] (bigValue 1)), (1, .delete [0x13]),
    (0, .update [0x12, 0x34, 0x56] [])]

example : (∀ c ∈ lossy, Fits toyEnv (c.1 == 1) c.2.key) ∧
    LogOk toyEnv (Shared.run toyEnv lossy (Shared.new toyEnv (fun i => i == 1))).store.written ∧
    LogOk toyEnv (MPT.after toyEnv false (callsOf 0 lossy)).store.written ∧
    ¬ Clean (contents (callsOf 0 lossy)) :=
  ⟨by decide, logOk_of (by decide +kernel), logOk_of (by decide +kernel), fun h => by
    have := h [0x12] [0x12, 0x34] (by decide +kernel) (by decide +kernel) (by decide)
    revert this; decide⟩

/-! ### Proofs -/

/-- C18 exactly, for every history: the proof of a pair that is kept is made; the same trie accepts it if and only if
`root()` has 32 bytes. -/
theorem C18_all {E : Env} {ops : List Op} {k v : Bytes} (now : Bytes) (hf : ∀ op ∈ ops, Fits E false op.key)
    (hk : Fits E false k) (hl : LogOk E (MPT.after E false ops).store.written) (hv : (k, v) ∈ kept ops) :
    ∃ p r, (MPT.after E false ops).getPoi E now k = .ok p ∧ (MPT.after E false ops).root = some r ∧
      (MPT.after E false ops).verifyPoi E p = .ok (decide (r.length = 32)) := by
  obtain ⟨a, h1, h2, h3, h4⟩ := Keeping.after hf hl
  have hkey : (MPT.after E false ops).keyOf E k = k := by rw [keyOf_eq, after_secure]; rfl
  have hlen : (toNibs ((MPT.after E false ops).keyOf E k)).length < E.limit :=
    fits_nibs (by rw [after_secure]; exact hk)
  refine h1.poi_exact now hl hlen ?_
  rw [hkey, (h3 k v).2 hv]
  simp

/-- C19 in part, for every history: an accepted proof, whoever made it, names a beginning of a key that is kept.
Missing: that it is the key itself (there the code is wrong, `C19_false`). -/
theorem C19_all_partial {E : Env} {ops : List Op} {p : Proof Bytes} (hf : ∀ op ∈ ops, Fits E false op.key)
    (hl : LogOk E (MPT.after E false ops).store.written)
    (hc : CollFree E ((MPT.after E false ops).store.written ++ checked p))
    (hv : (MPT.after E false ops).verifyPoi E p = .ok true) :
    ∃ k v, (k, v) ∈ kept ops ∧ p.targetKey <+: k := by
  obtain ⟨a, h1, h2, h3, h4⟩ := Keeping.after hf hl
  obtain ⟨q, w, g1, g2⟩ := h1.poi_prefix h2 hl hc hv
  obtain ⟨e, rfl⟩ := h4 _ _ g1
  exact ⟨e, w, (h3 e w).1 g1, toNibs_prefix.1 g2⟩

/-- C20 for every history: a proof made by one trie is rejected by every trie that keeps other pairs. -/
theorem C20_all {E : Env} {ops ops' : List Op} {k now : Bytes} {p : Proof Bytes}
    (hf : ∀ op ∈ ops, Fits E false op.key) (hf' : ∀ op ∈ ops', Fits E false op.key) (hk : Fits E false k)
    (hl : LogOk E (MPT.after E false ops).store.written) (hl' : LogOk E (MPT.after E false ops').store.written)
    (hcoll : CollFree E (Item.encode (.str []) ::
      (hashed (MPT.after E false ops) ++ hashed (MPT.after E false ops'))))
    (hp : (MPT.after E false ops).getPoi E now k = .ok p)
    (hd : ¬ ∀ e, e ∈ kept ops ↔ e ∈ kept ops') :
    (kept ops' ≠ [] → (MPT.after E false ops').verifyPoi E p = .ok false) ∧
    (kept ops' = [] → (MPT.after E false ops').verifyPoi E p = .error .valueError) := by
  have hr : (MPT.after E false ops).rootHash E ≠ (MPT.after E false ops').rootHash E := fun e =>
    hd fun x => (C75_commit_partial hf hf' hl hl' hcoll e x.1 x.2).1
  obtain ⟨a, h1, -⟩ := Keeping.after hf hl
  obtain ⟨b, g1, g2, g3, g4⟩ := Keeping.after hf' hl'
  have hex : b ≠ .empty ↔ kept ops' ≠ [] := by
    constructor
    · intro hne
      obtain ⟨q, w, hq⟩ := g2.exists_key hne
      obtain ⟨e, rfl⟩ := g4 _ _ hq
      exact List.ne_nil_of_mem ((g3 e w).1 hq)
    · rintro hne rfl
      obtain ⟨⟨e, w⟩, he⟩ := List.exists_mem_of_ne_nil _ hne
      have := (g3 e w).2 he
      simp [T.lookup] at this
  have hne : a ≠ .empty := by
    rintro rfl
    rw [h1.getPoi_empty hl] at hp
    simp at hp
  have hlen : (toNibs ((MPT.after E false ops).keyOf E k)).length < E.limit :=
    fits_nibs (by rw [after_secure]; exact hk)
  rw [h1.getPoi hl hne hlen] at hp
  split at hp
  · simp at hp
  simp only [Except.ok.injEq] at hp
  subst hp
  obtain ⟨l, hl0⟩ := T.trail_head (t := a) (toNibs ((MPT.after E false ops).keyOf E k))
  unfold MPT.verifyPoi
  rw [if_neg (by simp), g1.noRoot hl']
  constructor
  · intro he
    rw [T.Holds.isEmpty_false (hex.2 he)]
    simp only [Bool.false_eq_true, if_false, hl0, List.map_cons, T.pyIndex_zero, Except.bind_ok']
    rw [h1.rootHash] at hr
    rw [if_pos (Ne.symm hr)]
    rfl
  · intro he
    have : b = .empty := Classical.byContradiction fun hb => hex.1 hb he
    subst this
    rfl

/-- C23 for every history: no proof of exclusion is made for a pair that is kept. -/
theorem C23_all {E : Env} {ops : List Op} {k v : Bytes} (now : Bytes) (hf : ∀ op ∈ ops, Fits E false op.key)
    (hk : Fits E false k) (hl : LogOk E (MPT.after E false ops).store.written) (hv : (k, v) ∈ kept ops) :
    (MPT.after E false ops).getPoe E now k = .error .poe := by
  obtain ⟨a, h1, h2, h3, h4⟩ := Keeping.after hf hl
  have hkey : (MPT.after E false ops).keyOf E k = k := by rw [keyOf_eq, after_secure]; rfl
  have hlen : (toNibs ((MPT.after E false ops).keyOf E k)).length < E.limit :=
    fits_nibs (by rw [after_secure]; exact hk)
  have hlk : T.lookup a (toNibs ((MPT.after E false ops).keyOf E k)) = some v := by rw [hkey, (h3 k v).2 hv]
  have hne : a ≠ .empty := by rintro rfl; simp [T.lookup] at hlk
  rw [h1.getPoe hl hne hlen, T.has_of_lookup h1.shape hlk]
  rfl

/-- A pair kept beside lost ones, a trie that keeps other pairs, and one that keeps nothing. -/
example : (∀ op ∈ emptyOps, Fits toyEnv false op.key) ∧
    LogOk toyEnv (MPT.after toyEnv false emptyOps).store.written ∧
    ([0x12, 0x34], bigValue 1) ∈ kept emptyOps ∧ ¬ Clean (contents emptyOps) ∧
    okAnd ((MPT.after toyEnv false emptyOps).getPoi toyEnv [] [0x12, 0x34]) (fun p =>
      collFreeB toyEnv ((MPT.after toyEnv false emptyOps).store.written ++ checked p) &&
      decide ((MPT.after toyEnv false emptyOps).verifyPoi toyEnv p = .ok true) &&
      decide ((MPT.after toyEnv false (emptyOps ++ [.delete [0x99]])).verifyPoi toyEnv p = .ok false)) = true ∧
    LogOk toyEnv (MPT.after toyEnv false (emptyOps ++ [.delete [0x99]])).store.written ∧
    CollFree toyEnv (Item.encode (.str []) :: (hashed (MPT.after toyEnv false emptyOps) ++
      hashed (MPT.after toyEnv false (emptyOps ++ [.delete [0x99]])))) ∧
    ([0x99], []) ∉ kept (emptyOps ++ [.delete [0x99]]) :=
  ⟨by decide, logOk_of (by decide +kernel), by decide +kernel, fun h => by
    have := h [0x12] [0x12, 0x34] (by decide +kernel) (by decide +kernel) (by decide)
    revert this; decide +kernel, by decide +kernel, logOk_of (by decide +kernel), collFree_of (by decide +kernel),
    by decide +kernel⟩

/-! ### Costs and repeated updates -/

/-- C64 for every history: one call. -/
theorem C64_all {E : Env} {secure : Bool} {ops : List Op} (op : Op) (hf : ∀ op ∈ ops, Fits E secure op.key)
    (hl : LogOk E (MPT.after E secure ops).store.written) :
    (MPT.exec E op (MPT.after E secure ops)).2.store.written.length ≤
      (MPT.after E secure ops).store.written.length + cost E secure op ∧
    (MPT.exec E op (MPT.after E secure ops)).2.len ≤ (MPT.after E secure ops).len + cost E secure op := by
  have h1 := (Bears.after hf hl).holds
  have key : (MPT.exec E op (MPT.after E secure ops)).2.store.written.length ≤
      (MPT.after E secure ops).store.written.length + cost E secure op := by
    cases op with
    | update k v =>
      have := h1.update_cost k v
      rwa [keyOf_eq, after_secure] at this
    | delete k =>
      have := h1.delete_cost k
      rwa [keyOf_eq, after_secure] at this
  refine ⟨key, len_le_writes (E := E) ?_ key⟩
  cases op with
  | update k v => exact T.update_writes E k v _
  | delete k => exact T.delete_writes E k _

/-- C65 for every history: writing a pair that is kept once more changes nothing. -/
theorem C65_all {E : Env} {ops : List Op} {k v : Bytes} (hf : ∀ op ∈ ops, Fits E false op.key)
    (hk : Fits E false k) (hl : LogOk E (MPT.after E false ops).store.written) (hv : (k, v) ∈ kept ops) :
    (MPT.update E k v (MPT.after E false ops)).1 = .ok () ∧
    (MPT.update E k v (MPT.after E false ops)).2.root = (MPT.after E false ops).root ∧
    (MPT.update E k v (MPT.after E false ops)).2.store.kv = (MPT.after E false ops).store.kv := by
  obtain ⟨a, h1, h2, h3, h4⟩ := Keeping.after hf hl
  refine h1.update_same hl (fits_nibs (by rw [after_secure]; exact hk)) ?_
  rw [keyOf_eq, after_secure]
  exact (h3 k v).2 hv

/-- C09 for every history: a trie that keeps nothing has the root hash of a new trie, contains nothing, and goes on
as a new trie. -/
theorem C09_all {E : Env} {ops more : List Op} {k : Bytes} (hf : ∀ op ∈ ops ++ more, Fits E false op.key)
    (hk : Fits E false k) (hl : LogOk E (MPT.after E false (ops ++ more)).store.written)
    (hl' : LogOk E (MPT.after E false more).store.written) (hv : kept ops = []) :
    (MPT.after E false ops).rootHash E = (MPT.new E false).rootHash E ∧
    (MPT.after E false ops).contains E k = .ok false ∧
    (MPT.after E false (ops ++ more)).rootHash E = (MPT.after E false more).rootHash E ∧
    (MPT.after E false (ops ++ more)).contains E k = (MPT.after E false more).contains E k ∧
    ∀ v, (MPT.after E false (ops ++ more)).get E k = .ok v ↔ (MPT.after E false more).get E k = .ok v := by
  have hst : ∃ ws, (MPT.after E false (ops ++ more)).store = replay E ws (MPT.after E false ops).store := by
    rw [after_append]; exact run_writes E more _
  have hl1 : LogOk E (MPT.after E false ops).store.written := log_of_replay hst hl
  have hfo : ∀ op ∈ ops, Fits E false op.key := fun op ho => hf op (List.mem_append_left _ ho)
  have hfm : ∀ op ∈ more, Fits E false op.key := fun op ho => hf op (List.mem_append_right _ ho)
  obtain ⟨a, h1, h2, h3, h4⟩ := Keeping.after hfo hl1
  have hn : a = .empty := by
    refine Classical.byContradiction fun hne => ?_
    obtain ⟨q, w, hq⟩ := h2.exists_key hne
    obtain ⟨e, rfl⟩ := h4 _ _ hq
    have := (h3 e w).1 hq
    rw [hv] at this
    simp at this
  subst hn
  have hb : Bears E (MPT.after E false ops) .empty := ⟨h1, h2⟩
  have g1 := (hb.run (ops := more) (by rw [after_secure]; exact hfm) (by rw [← after_append]; exact hl)).holds
  have g2 := (Bears.after hfm hl').holds
  rw [← after_append, after_secure] at g1
  obtain ⟨o1, o2⟩ := g1.observe g2 (by rw [after_secure, after_secure]) hl hl' (by rw [after_secure]; exact hk)
  refine ⟨h1.rootHash.trans (Bears.new E false).holds.rootHash.symm, ?_, g1.rootHash.trans g2.rootHash.symm, o1, o2⟩
  rw [h1.contains hl1 (fits_nibs (by rw [after_secure]; exact hk))]
  rfl

/-- A history that keeps nothing though a pair was written and not deleted. -/
def gone : List Op :=
  [.update [0x12] [], .update [0x12, 0x34] (bigValue 1), .update [0x77] (bigValue 2), .delete [0x12, 0x34],
    .delete [0x77]]

example : (∀ op ∈ gone ++ emptyOps, Fits toyEnv false op.key) ∧
    LogOk toyEnv (MPT.after toyEnv false (gone ++ emptyOps)).store.written ∧ kept gone = [] ∧
    contents gone [0x12] = some [] ∧ LogOk toyEnv (MPT.after toyEnv false emptyOps).store.written :=
  ⟨by decide, logOk_of (by decide +kernel), by decide +kernel, by decide +kernel, logOk_of (by decide +kernel)⟩

/-! ### Storages that are incomplete or come from somebody else -/

theorem claims_alike_all {E : Env} {t t' : MPT} {a : T} (h : T.Holds E t a) (hc : Claims E t' t) : Alike t' t := by
  refine ⟨hc.root, hc.secure, fun k v w hv hw => ?_⟩
  have e1 := hc.addressed k v hv
  obtain ⟨e2, hm⟩ := h.good k w hw
  exact hc.coll v (List.mem_append_right _ (List.mem_map.2 ⟨(k, v), mem_of_dget hv, rfl⟩)) w
    (List.mem_append_left _ hm) (e1.symm.trans e2)

/-- C68 for every history, queries. -/
theorem C68_query_all {E : Env} {secure : Bool} {ops : List Op} {k : Bytes} (hf : ∀ op ∈ ops, Fits E secure op.key)
    (hk : Fits E secure k) (hl : LogOk E (MPT.after E secure ops).store.written)
    {t' : MPT} (hc : Claims E t' (MPT.after E secure ops)) :
    ((∃ k', (MPT.after E secure ops).contains E k' = .ok true) →
      t'.get E k = .error .keyError ∨ t'.get E k = (MPT.after E secure ops).get E k) ∧
    (t'.contains E k = .error .keyError ∨ t'.contains E k = (MPT.after E secure ops).contains E k) ∧
    (∀ now, t'.getPoi E now k = .error .keyError ∨
      t'.getPoi E now k = (MPT.after E secure ops).getPoi E now k) ∧
    (∀ now, t'.getPoe E now k = .error .keyError ∨
      t'.getPoe E now k = (MPT.after E secure ops).getPoe E now k) ∧
    (∀ p, t'.verifyPoi E p = (MPT.after E secure ops).verifyPoi E p) ∧
    (∀ p, t'.verifyPoe E p = (MPT.after E secure ops).verifyPoe E p) := by
  have h1 := (Bears.after hf hl).holds
  have ha := claims_alike_all h1 hc
  obtain ⟨q1, q2, q3, q4⟩ := h1.never_key hl (k := k) (fits_nibs (by rw [after_secure]; exact hk))
  refine ⟨fun ⟨k', hk'⟩ => ?_, ?_, fun now => ?_, fun now => ?_, fun p => ha.verifyPoi p, fun p => ha.verifyPoe p⟩
  · rcases ha.get (E := E) k with h | h | h
    · exact .inl h
    · exact absurd h (q1 (h1.ne_of_contains hl hk'))
    · exact .inr h
  · rcases ha.contains (E := E) k with h | h | h
    · exact .inl h
    · exact absurd h q2
    · exact .inr h
  · rcases ha.getPoi (E := E) now k with h | h | h
    · exact .inl h
    · exact absurd h (q3 now)
    · exact .inr h
  · rcases ha.getPoe (E := E) now k with h | h | h
    · exact .inl h
    · exact absurd h (q4 now)
    · exact .inr h

theorem alike_run_all {E : Env} {t t' : MPT} {a : T} {ops : List Op} (h : Bears E t a)
    (hf : ∀ op ∈ ops, Fits E t.secure op.key) (hl : LogOk E (MPT.run E ops t).store.written) (ha : Alike t' t) :
    Except.error Err.keyError ∈ outcomes E ops t' ∨
    (outcomes E ops t' = outcomes E ops t ∧ Alike (MPT.run E ops t') (MPT.run E ops t)) := by
  induction ops generalizing t t' a with
  | nil => exact .inr ⟨rfl, ha⟩
  | cons op rest ih =>
    have hl1 : LogOk E (MPT.exec E op t).2.store.written := log_of_replay (run_writes E rest _) hl
    have hsec := exec_secure E op t
    rcases ha.exec (E := E) op with hk | hk | ⟨hk, ha'⟩
    · exact .inl (by simp [outcomes, hk])
    · exact absurd hk (h.never_key (hf op (by simp)) hl1)
    · rcases ih (h.exec (hf op (by simp)) hl1)
        (fun o ho => by rw [hsec]; exact hf o (List.mem_cons_of_mem _ ho)) hl ha' with hr | ⟨hr, hr'⟩
      · exact .inl (List.mem_cons_of_mem _ hr)
      · exact .inr ⟨by simp only [outcomes, hk, hr], hr'⟩

/-- C68 for every history, writing. -/
theorem C68_history_all {E : Env} {secure : Bool} {ops ops' : List Op}
    (hf : ∀ op ∈ ops ++ ops', Fits E secure op.key)
    (hl : LogOk E (MPT.after E secure (ops ++ ops')).store.written)
    {t' : MPT} (hc : Claims E t' (MPT.after E secure ops)) :
    Except.error Err.keyError ∈ outcomes E ops' t' ∨
    (outcomes E ops' t' = outcomes E ops' (MPT.after E secure ops) ∧
      (MPT.run E ops' t').root = (MPT.after E secure (ops ++ ops')).root) := by
  rw [after_append] at hl
  have hl1 : LogOk E (MPT.after E secure ops).store.written := log_of_replay (run_writes E ops' _) hl
  have h1 := Bears.after (fun op ho => hf op (List.mem_append_left _ ho)) hl1
  rcases alike_run_all h1 (fun op ho => by rw [after_secure]; exact hf op (List.mem_append_right _ ho)) hl
    (claims_alike_all h1.holds hc) with hr | ⟨hr, hr'⟩
  · exact .inl hr
  · exact .inr ⟨hr, by rw [after_append]; exact hr'.root⟩

/-- The trie of `emptyOps` without the leaf of `12 34`, with an entry that was never its own. -/
def lossyHoled : MPT :=
  { MPT.after toyEnv false emptyOps with
    store := { (MPT.after toyEnv false emptyOps).store with
      kv := (MPT.after toyEnv false emptyOps).store.kv.filter (fun e => e.2.getLast? ≠ some 1) ++
        [(toyEnv.keccak [1, 2, 3], [1, 2, 3])] } }

example : (∀ op ∈ emptyOps ++ [.update [0x99] [7]], Fits toyEnv false op.key) ∧
    LogOk toyEnv (MPT.after toyEnv false (emptyOps ++ [.update [0x99] [7]])).store.written ∧
    Claims toyEnv lossyHoled (MPT.after toyEnv false emptyOps) ∧
    lossyHoled.get toyEnv [0x12, 0x34] = .error .keyError ∧ lossyHoled.get toyEnv [0x99] = .ok [] ∧
    outcomes toyEnv [.update [0x99] [7]] lossyHoled = [.ok ()] :=
  ⟨by decide, logOk_of (by decide +kernel), claims_of (by decide +kernel) (by decide +kernel) (by decide +kernel)
    (collFree_of (by decide +kernel)), by decide +kernel, by decide +kernel, by decide +kernel⟩

end Props
end Pymt
