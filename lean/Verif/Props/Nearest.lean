import Verif.Lemmas.ClientDelete
import Verif.Props.Follow

/-!
# Property C105: a client that deletes keys needs their nearest neighbours
-/

namespace Pymt

/-- The keys kept after a history, as the trie has them (hashed in secure mode). -/
def keptKeys (E : Env) (secure : Bool) (ops : List Op) : List Bytes :=
  (kept (ops.map (Op.mapKey (effective E secure)))).map (·.1)

/-- How many hex digits two keys share at the start. -/
def sharedDigits (k k' : Bytes) : Nat := (lcp (toNibs k) (toNibs k')).length

/-- `k'` is, of the keys kept besides `k`, one that shares most digits with `k`. -/
def Nearest (E : Env) (secure : Bool) (ops : List Op) (k k' : Bytes) : Prop :=
  effective E secure k' ∈ keptKeys E secure ops ∧ effective E secure k' ≠ effective E secure k ∧
  ∀ e ∈ keptKeys E secure ops, e ≠ effective E secure k →
    sharedDigits (effective E secure k) e ≤ sharedDigits (effective E secure k) (effective E secure k')

instance (E : Env) (secure : Bool) (ops : List Op) (k k' : Bytes) : Decidable (Nearest E secure ops k k') := by
  unfold Nearest; infer_instance

theorem Follows.delete {E : Env} {t' t : MPT} {a : T} {K : List Bytes} (h : Follows E t' t a K) {k : Bytes}
    (hk : k ∈ K) (hf : Fits E t.secure k) (hl : LogOk E (MPT.delete E k t).2.store.written) :
    ((MPT.delete E k t').1 = .error .keyError ∧
      ∃ y, T.neighbour a (toNibs (t.keyOf E k)) = some y ∧ ¬ T.Avail E t'.store.kv y) ∨
    ((MPT.delete E k t').1 = (MPT.delete E k t).1 ∧
      Follows E (MPT.delete E k t').2 (MPT.delete E k t).2 (a.act (.delete (t.keyOf E k))) K) := by
  have hlog : LogOk E t.store.written := log_of_replay (exec_writes E (.delete k) t) hl
  have hb := h.bears.exec (op := .delete k) hf hl
  simp only [MPT.exec, Op.mapKey] at hb
  rw [show effective E t.secure k = t.keyOf E k from (keyOf_eq ..).symm] at hb
  have hsec := exec_secure E (.delete k) t
  simp only [MPT.exec] at hsec
  have hkey : ∀ k', (MPT.delete E k t).2.keyOf E k' = t.keyOf E k' := fun k' => by rw [keyOf_eq, keyOf_eq, hsec]
  have hnr : t'.noRoot E = t.noRoot E := by unfold MPT.noRoot; rw [h.alike.root]
  by_cases hne : a = .empty
  · subst hne
    right
    have e := h.bears.holds.delete_empty hlog k
    have e' : MPT.delete E k t' = (.error .valueError, t') := by
      rw [T.delete_eq, hnr, h.bears.holds.noRoot hlog]; rfl
    rw [e, e']
    exact ⟨rfl, h⟩
  have hnib := NibblePath.nibs_bytes (t.keyOf E k)
  have hlim : (NibblePath.mk (t.keyOf E k) 0).nibs.length < E.limit := by rw [hnib]; exact fits_nibs hf
  have hno : ¬ t.noRoot E = true := by
    rw [h.bears.holds.noRoot hlog]
    simpa [T.isEmpty_iff] using hne
  have hroot := h.bears.holds.getD hne
  have hl' : LogOk E (MPT.deleteAux E E.limit (T.ref E a) ⟨t.keyOf E k, 0⟩ t.store).2.written := by
    rw [T.delete_eq, if_neg hno, hroot] at hl
    revert hl
    cases MPT.deleteAux E E.limit (T.ref E a) ⟨t.keyOf E k, 0⟩ t.store with
    | mk r s => cases r <;> exact id
  have hcl := T.deleteAux_client E.limit h.bears.holds.shape hne (NibblePath.WF_bytes (t.keyOf E k)) hlim
    h.bears.holds.good h.bears.holds.stored h.alike.agree hl'
  have hgr := T.writes_grows (Writes.deleteAux (E := E) E.limit (T.ref E a) ⟨t.keyOf E k, 0⟩) t'.store
  rw [hnib] at hcl
  have heq : MPT.delete E k t' = match MPT.deleteAux E E.limit (T.ref E a) ⟨t.keyOf E k, 0⟩ t'.store with
    | (.ok a, st) => (.ok (), { t' with store := st, root := T.actRoot a })
    | (.error e, st) => (.error e, { t' with store := st }) := by
    have hr' : t'.root.getD [] = T.ref E a := by rw [h.alike.root]; exact hroot
    rw [T.delete_eq, hnr, if_neg hno, hr', h.alike.keyOf]
    cases MPT.deleteAux E E.limit (T.ref E a) ⟨t.keyOf E k, 0⟩ t'.store with
    | mk r s => cases r <;> rfl
  have hout : (MPT.delete E k t').1 = .error .keyError ↔
      (MPT.deleteAux E E.limit (T.ref E a) ⟨t.keyOf E k, 0⟩ t'.store).1 = .error .keyError := by
    rw [heq]
    cases MPT.deleteAux E E.limit (T.ref E a) ⟨t.keyOf E k, 0⟩ t'.store with
    | mk r s => cases r <;> simp
  have hst : (MPT.delete E k t').2.store =
      (MPT.deleteAux E E.limit (T.ref E a) ⟨t.keyOf E k, 0⟩ t'.store).2 := by
    rw [heq]
    cases MPT.deleteAux E E.limit (T.ref E a) ⟨t.keyOf E k, 0⟩ t'.store with
    | mk r s => cases r <;> rfl
  rcases hcl with ⟨h1, h2⟩ | ⟨h1, h2, h3⟩
  · refine .inl ⟨hout.2 h2, ?_⟩
    rcases h1 with h1 | h1
    · exact absurd h1 (h.has k hk)
    · exact h1
  · right
    have hfull : (MPT.delete E k t).1 ≠ .error .keyError := h.bears.never_key (op := .delete k) hf hl
    rcases h.alike.exec (E := E) (.delete k) with hx | hx | ⟨hx, hal⟩
    · exact absurd (hout.1 hx) h2
    · exact absurd hx hfull
    · refine ⟨hx, hal, hb, fun k' hk' => ?_⟩
      rw [hkey]
      rintro ⟨x, hx, hx'⟩
      rw [hst] at hx'
      simp only [T.act] at hx
      cases hrm : T.remove a (toNibs (t.keyOf E k)) with
      | error e =>
        rw [hrm] at hx
        exact h.has k' hk' ⟨x, hx, fun ha => hx' (T.Grows.avail hgr ha)⟩
      | ok d =>
        rw [hrm] at hx
        rcases (h3 d hrm).2 _ x hx with hx | hx
        · exact h.has k' hk' ⟨x, hx, fun ha => hx' (T.Grows.avail hgr ha)⟩
        · exact hx' hx

/-- A missing neighbour: the key is kept, another one is, and no nearest key can be looked up. -/
theorem Follows.missing {E : Env} {secure : Bool} {ops : List Op} {t' : MPT} {K : List Bytes}
    (h : Follows E t' (MPT.after E secure ops) (T.grow .empty (ops.map (Op.mapKey (effective E secure)))) K)
    (hl : LogOk E (MPT.after E secure ops).store.written) {k : Bytes} {y : T}
    (hy : T.neighbour (T.grow .empty (ops.map (Op.mapKey (effective E secure)))) (toNibs (effective E secure k)) = some y)
    (hav : ¬ T.Avail E t'.store.kv y) :
    effective E secure k ∈ keptKeys E secure ops ∧
    (∃ e ∈ keptKeys E secure ops, e ≠ effective E secure k) ∧
    ∀ k', Fits E secure k' → Nearest E secure ops k k' → t'.contains E k' = .error .keyError := by
  have hkeep := T.Keeps.after (ops.map (Op.mapKey (effective E secure)))
  obtain ⟨h0, n, h1, p1, h2, h3, h4⟩ := T.neighbour_near h.bears.full hy
  have mem : ∀ e, T.lookup (T.grow .empty (ops.map (Op.mapKey (effective E secure)))) (toNibs e) ≠ none ↔
      e ∈ keptKeys E secure ops := by
    intro e
    simp only [keptKeys, List.mem_map, Option.ne_none_iff_exists']
    constructor
    · rintro ⟨v, hv⟩; exact ⟨(e, v), (hkeep.pairs e v).1 hv, rfl⟩
    · rintro ⟨⟨_, v⟩, hv, rfl⟩; exact ⟨v, (hkeep.pairs _ v).2 hv⟩
  obtain ⟨w, hw⟩ := Option.ne_none_iff_exists'.1 h2
  obtain ⟨e1, rfl⟩ := hkeep.bytes _ _ hw
  have he1 : e1 ≠ effective E secure k := fun e => h3 (by rw [e])
  refine ⟨(mem _).1 h0, ⟨e1, (mem _).1 h2, he1⟩, fun k' hf' hn => ?_⟩
  have hne : T.grow .empty (ops.map (Op.mapKey (effective E secure))) ≠ .empty := by
    intro e; rw [e] at hw; simp [T.lookup] at hw
  rw [h.bears.holds.contains_light hl hne h.alike (fits_nibs (by rw [after_secure]; exact hf'))]
  rw [keyOf_eq, after_secure]
  refine ⟨y, h1 _ ((mem _).2 hn.1) (fun e => hn.2.1 (toNibs_inj e)) ?_, hav⟩
  exact Nat.le_trans h4 (hn.2.2 e1 ((mem _).1 h2) he1)

theorem grow_snoc (E : Env) (secure : Bool) (ops : List Op) (op : Op) :
    T.grow .empty ((ops ++ [op]).map (Op.mapKey (effective E secure))) =
      (T.grow .empty (ops.map (Op.mapKey (effective E secure)))).act (op.mapKey (effective E secure)) := by
  simp [T.grow, List.foldl_append]

/-- What one call on a client object does. -/
theorem Follows.exec {E : Env} {secure : Bool} {ops : List Op} {t' : MPT} {K : List Bytes} {op : Op}
    (h : Follows E t' (MPT.after E secure ops) (T.grow .empty (ops.map (Op.mapKey (effective E secure)))) K)
    (hk : op.key ∈ K) (hf : Fits E secure op.key) (hl : LogOk E (MPT.after E secure (ops ++ [op])).store.written) :
    (∃ k, op = .delete k ∧ (MPT.exec E op t').1 = .error .keyError ∧
      effective E secure k ∈ keptKeys E secure ops ∧ (∃ e ∈ keptKeys E secure ops, e ≠ effective E secure k) ∧
      ∀ k', Fits E secure k' → Nearest E secure ops k k' → t'.contains E k' = .error .keyError) ∨
    ((MPT.exec E op t').1 = (MPT.exec E op (MPT.after E secure ops)).1 ∧
      Follows E (MPT.exec E op t').2 (MPT.after E secure (ops ++ [op]))
        (T.grow .empty ((ops ++ [op]).map (Op.mapKey (effective E secure)))) K) := by
  have e : MPT.after E secure (ops ++ [op]) = (MPT.exec E op (MPT.after E secure ops)).2 := after_append ..
  have hl0 : LogOk E (MPT.after E secure ops).store.written := by
    rw [e] at hl; exact log_of_replay (exec_writes E op _) hl
  rw [grow_snoc]
  rw [e] at hl ⊢
  have hf' : Fits E (MPT.after E secure ops).secure op.key := by rw [after_secure]; exact hf
  cases op with
  | update k v =>
    obtain ⟨h1, h2, h3⟩ := h.update (k := k) (v := v) hk hf' hl
    right
    refine ⟨by simp only [MPT.exec]; rw [h1, h2], ?_⟩
    rw [keyOf_eq, after_secure] at h3
    exact h3
  | delete k =>
    rcases h.delete hk hf' hl with ⟨h1, y, h2, h3⟩ | ⟨h1, h2⟩
    · rw [keyOf_eq, after_secure] at h2
      exact .inl ⟨k, rfl, h1, h.missing hl0 h2 h3⟩
    · rw [keyOf_eq, after_secure] at h2
      exact .inr ⟨h1, h2⟩

/-- All calls on a client object, or those before the first delete that lacks a node. -/
theorem Follows.history {E : Env} {secure : Bool} {K : List Bytes} (hK : ∀ k ∈ K, Fits E secure k) {ops' : List Op}
    (hops : ∀ op ∈ ops', op.key ∈ K) :
    ∀ {ops : List Op} {t' : MPT},
    Follows E t' (MPT.after E secure ops) (T.grow .empty (ops.map (Op.mapKey (effective E secure)))) K →
    LogOk E (MPT.after E secure (ops ++ ops')).store.written →
    (outcomes E ops' t' = outcomes E ops' (MPT.after E secure ops) ∧
      Follows E (MPT.run E ops' t') (MPT.after E secure (ops ++ ops'))
        (T.grow .empty ((ops ++ ops').map (Op.mapKey (effective E secure)))) K) ∨
    ∃ pre k post, ops' = pre ++ .delete k :: post ∧
      outcomes E pre t' = outcomes E pre (MPT.after E secure ops) ∧
      Follows E (MPT.run E pre t') (MPT.after E secure (ops ++ pre))
        (T.grow .empty ((ops ++ pre).map (Op.mapKey (effective E secure)))) K ∧
      (MPT.delete E k (MPT.run E pre t')).1 = .error .keyError ∧
      effective E secure k ∈ keptKeys E secure (ops ++ pre) ∧
      (∃ e ∈ keptKeys E secure (ops ++ pre), e ≠ effective E secure k) ∧
      ∀ k', Fits E secure k' → Nearest E secure (ops ++ pre) k k' →
        (MPT.run E pre t').contains E k' = .error .keyError := by
  induction ops' with
  | nil => intro ops t' h _; exact .inl ⟨rfl, by rw [List.append_nil]; exact h⟩
  | cons op ops' ih =>
    intro ops t' h hl
    have e : ops ++ op :: ops' = (ops ++ [op]) ++ ops' := by simp
    have hl1 : LogOk E (MPT.after E secure (ops ++ [op])).store.written := by
      rw [e, after_append] at hl
      exact log_of_replay (run_writes E _ _) hl
    have e1 : MPT.after E secure (ops ++ [op]) = (MPT.exec E op (MPT.after E secure ops)).2 := after_append ..
    rcases h.exec (hops op (by simp)) (hK _ (hops op (by simp))) hl1 with ⟨k, rfl, h1, h2⟩ | ⟨h1, h2⟩
    · exact .inr ⟨[], k, ops', rfl, rfl, by rw [List.append_nil]; exact h, h1, by rw [List.append_nil]; exact h2⟩
    · rw [e] at hl
      rcases ih (fun o ho => hops o (List.mem_cons_of_mem _ ho)) h2 hl with ⟨h3, h4⟩ | ⟨pre, k, post, h3, h4, h5, h6⟩
      · left
        refine ⟨?_, ?_⟩
        · simp only [outcomes, h1, h3, e1]
        · rw [e]; exact h4
      · right
        refine ⟨op :: pre, k, post, by rw [h3]; rfl, ?_, ?_⟩
        · simp only [outcomes, h1, h4, e1]
        · rw [show ops ++ op :: pre = (ops ++ [op]) ++ pre by simp]
          exact ⟨h5, h6⟩

namespace Props

/-- C105: a client object over any storage can look up some keys.  It changes these keys, and whenever it deletes one
that is there, no other key is left or a nearest of the others is among these keys.  Then all calls end as on the trie,
the root is that of the trie, and for these keys the client keeps giving the answers and proofs of the trie. -/
theorem C105 {E : Env} {secure : Bool} {ops ops' : List Op} {t' : MPT} {K : List Bytes}
    (hf : ∀ op ∈ ops, Fits E secure op.key) (hK : ∀ k ∈ K, Fits E secure k) (hops : ∀ op ∈ ops', op.key ∈ K)
    (hl : LogOk E (MPT.after E secure (ops ++ ops')).store.written)
    (hc : Claims E t' (MPT.after E secure ops)) (hq : ∀ k ∈ K, t'.contains E k ≠ .error .keyError)
    (hn : ∀ pre k post, ops' = pre ++ .delete k :: post → effective E secure k ∈ keptKeys E secure (ops ++ pre) →
      (∀ e ∈ keptKeys E secure (ops ++ pre), e = effective E secure k) ∨ ∃ k' ∈ K, Nearest E secure (ops ++ pre) k k') :
    let c := MPT.run E ops' t'
    let t := MPT.after E secure (ops ++ ops')
    outcomes E ops' t' = outcomes E ops' (MPT.after E secure ops) ∧ c.root = t.root ∧
      ∀ k ∈ K, c.contains E k = t.contains E k ∧ (∀ v, t.get E k = .ok v → c.get E k = .ok v) ∧
        (∀ now p, t.getPoi E now k = .ok p → c.getPoi E now k = .ok p) ∧
        (∀ now p, t.getPoe E now k = .ok p → c.getPoe E now k = .ok p) := by
  intro c t
  have hl0 : ∀ {pre post}, ops' = pre ++ post → LogOk E (MPT.after E secure (ops ++ pre)).store.written := by
    intro pre post e
    rw [e, ← List.append_assoc, after_append] at hl
    exact log_of_replay (run_writes E _ _) hl
  have h := claims_follows_grow hf (by simpa using hl0 (pre := []) rfl) hc hK hq
  rcases h.history hK hops hl with ⟨h1, h2⟩ | ⟨pre, k, post, h1, h2, h3, h4, h5, ⟨e, he, hne⟩, h7⟩
  · exact ⟨h1, h2.alike.root, fun k hk => h2.answers hl hk (by rw [after_secure]; exact hK k hk)⟩
  · exfalso
    rcases hn pre k post h1 h5 with hn | ⟨k', hk', hn⟩
    · exact hne (hn e he)
    · have hl1 := hl0 h1
      have hb := (h3.answers hl1 hk' (by rw [after_secure]; exact hK k' hk')).1
      rw [h7 k' (hK k' hk') hn] at hb
      rw [h3.bears.holds.contains hl1 (fits_nibs (by rw [after_secure]; exact hK k' hk'))] at hb
      cases hb

/-- C105, what is needed: the client makes any calls on these keys.  All of them end as on the trie, or some delete raises
KeyError; up to the first such delete all is as in `C105`, its key is there and is not the only one, and no nearest of
the other keys can be looked up by the client. -/
theorem C105_needed {E : Env} {secure : Bool} {ops ops' : List Op} {t' : MPT} {K : List Bytes}
    (hf : ∀ op ∈ ops, Fits E secure op.key) (hK : ∀ k ∈ K, Fits E secure k) (hops : ∀ op ∈ ops', op.key ∈ K)
    (hl : LogOk E (MPT.after E secure (ops ++ ops')).store.written)
    (hc : Claims E t' (MPT.after E secure ops)) (hq : ∀ k ∈ K, t'.contains E k ≠ .error .keyError) :
    (outcomes E ops' t' = outcomes E ops' (MPT.after E secure ops) ∧
      (MPT.run E ops' t').root = (MPT.after E secure (ops ++ ops')).root) ∨
    ∃ pre k post, ops' = pre ++ .delete k :: post ∧
      outcomes E pre t' = outcomes E pre (MPT.after E secure ops) ∧
      (MPT.run E pre t').root = (MPT.after E secure (ops ++ pre)).root ∧
      (∀ k ∈ K, (MPT.run E pre t').contains E k = (MPT.after E secure (ops ++ pre)).contains E k) ∧
      (MPT.delete E k (MPT.run E pre t')).1 = .error .keyError ∧
      effective E secure k ∈ keptKeys E secure (ops ++ pre) ∧
      (∃ e ∈ keptKeys E secure (ops ++ pre), e ≠ effective E secure k) ∧
      ∀ k', Fits E secure k' → Nearest E secure (ops ++ pre) k k' →
        (MPT.run E pre t').contains E k' = .error .keyError := by
  have hl0 : ∀ {pre post}, ops' = pre ++ post → LogOk E (MPT.after E secure (ops ++ pre)).store.written := by
    intro pre post e
    rw [e, ← List.append_assoc, after_append] at hl
    exact log_of_replay (run_writes E _ _) hl
  have h := claims_follows_grow hf (by simpa using hl0 (pre := []) rfl) hc hK hq
  rcases h.history hK hops hl with ⟨h1, h2⟩ | ⟨pre, k, post, h1, h2, h3, h4⟩
  · exact .inl ⟨h1, h2.alike.root⟩
  · exact .inr ⟨pre, k, post, h1, h2, h3.alike.root,
      fun k hk => (h3.answers (hl0 h1) hk (by rw [after_secure]; exact hK k hk)).1, h4⟩

/-- The hypothesis of `C105` on deletes, computed. -/
def nearB (E : Env) (secure : Bool) (K : List Bytes) : List Op → List Op → Bool
  | _, [] => true
  | ops, op :: rest =>
    (match op with
      | .delete k => decide (effective E secure k ∈ keptKeys E secure ops →
          (∀ e ∈ keptKeys E secure ops, e = effective E secure k) ∨ ∃ k' ∈ K, Nearest E secure ops k k')
      | .update _ _ => true) && nearB E secure K (ops ++ [op]) rest

theorem near_of {E : Env} {secure : Bool} {K : List Bytes} {ops' : List Op} :
    ∀ {ops : List Op}, nearB E secure K ops ops' = true → ∀ pre k post, ops' = pre ++ .delete k :: post →
      effective E secure k ∈ keptKeys E secure (ops ++ pre) →
      (∀ e ∈ keptKeys E secure (ops ++ pre), e = effective E secure k) ∨
        ∃ k' ∈ K, Nearest E secure (ops ++ pre) k k' := by
  induction ops' with
  | nil => intro ops _ pre k post e; cases pre <;> cases e
  | cons op rest ih =>
    intro ops h pre k post e
    simp only [nearB, Bool.and_eq_true] at h
    cases pre with
    | nil =>
      rw [List.nil_append, List.cons.injEq] at e
      obtain ⟨rfl, -⟩ := e
      rw [List.append_nil]
      exact of_decide_eq_true h.1
    | cons o pre =>
      rw [List.cons_append, List.cons.injEq] at e
      obtain ⟨rfl, e⟩ := e
      have := ih h.2 pre k post e
      rwa [List.append_assoc] at this

/-- The client that has the proofs of `12 34` and `12 56`; it lacks the node of `99`. -/
def nearClient : MPT :=
  fromNodes toyEnv (proofNodes toyEnv partialOps [0x12, 0x34] ++ proofNodes toyEnv partialOps [0x12, 0x56])
    (MPT.after toyEnv false partialOps).root false

/-- Changes of keys the client can look up, `12 77` being absent at first. -/
def nearOps : List Op :=
  [.update [0x12, 0x77] (bigValue 7), .delete [0x12, 0x34], .delete [0x12, 0x34], .update [0x12, 0x56] [5],
   .delete [0x12, 0x56]]

def nearKeys : List Bytes := [[0x12, 0x34], [0x12, 0x56], [0x12, 0x77]]

theorem near_claims : Claims toyEnv nearClient (MPT.after toyEnv false partialOps) :=
  claims_of (by decide +kernel) (by decide +kernel) (by decide +kernel) (collFree_of (by decide +kernel))

/-- The hypotheses of `C105`, of a client that lacks a node. -/
example : LogOk toyEnv (MPT.after toyEnv false (partialOps ++ nearOps)).store.written ∧
    Claims toyEnv nearClient (MPT.after toyEnv false partialOps) ∧
    (∀ op ∈ nearOps, op.key ∈ nearKeys) ∧
    (∀ k ∈ nearKeys, Fits toyEnv false k ∧ nearClient.contains toyEnv k ≠ .error .keyError) ∧
    nearB toyEnv false nearKeys partialOps nearOps = true ∧
    nearClient.contains toyEnv [0x99] = .error .keyError :=
  ⟨logOk_of (by decide +kernel), near_claims, by decide +kernel, by decide +kernel, by decide +kernel, by decide +kernel⟩
/-- The conclusion evaluated. -/
example : (MPT.run toyEnv nearOps nearClient).root = (MPT.after toyEnv false (partialOps ++ nearOps)).root ∧
    outcomes toyEnv nearOps nearClient = [.ok (), .ok (), .error .branchPath, .ok (), .ok ()] ∧
    (MPT.run toyEnv nearOps nearClient).contains toyEnv [0x12, 0x77] = .ok true ∧
    (MPT.run toyEnv nearOps nearClient).contains toyEnv [0x12, 0x56] = .ok false :=
  ⟨by decide +kernel, by decide +kernel, by decide +kernel, by decide +kernel⟩
/-- The second case of `C105_needed`: deleting `12 77`, the last of the three, needs the node of `99`. -/
example : nearB toyEnv false nearKeys partialOps (nearOps ++ [.delete [0x12, 0x77]]) = false ∧
    (MPT.delete toyEnv [0x12, 0x77] (MPT.run toyEnv nearOps nearClient)).1 = .error .keyError ∧
    (MPT.delete toyEnv [0x12, 0x77] (MPT.after toyEnv false (partialOps ++ nearOps))).1 = .ok () ∧
    Nearest toyEnv false (partialOps ++ nearOps) [0x12, 0x77] [0x99] :=
  ⟨by decide +kernel, by decide +kernel, by decide +kernel, by decide +kernel⟩

end Props
end Pymt
