import Verif.Lemmas.Client
import Verif.Props.Shown

/-!
# Property C104: a client that has the proofs of some keys follows the changes of these keys
-/

namespace Pymt

/-- The client object has the root and mode of `t`, and the nodes on the way of the keys. -/
structure Follows (E : Env) (t' t : MPT) (a : T) (K : List Bytes) : Prop where
  alike : Alike t' t
  bears : Bears E t a
  has : ∀ k ∈ K, ¬ T.Blocked E t'.store.kv a (toNibs (t.keyOf E k))

theorem Follows.update {E : Env} {t' t : MPT} {a : T} {K : List Bytes} (h : Follows E t' t a K) {k v : Bytes}
    (hk : k ∈ K) (hf : Fits E t.secure k) (hl : LogOk E (MPT.update E k v t).2.store.written) :
    (MPT.update E k v t').1 = .ok () ∧ (MPT.update E k v t).1 = .ok () ∧
    Follows E (MPT.update E k v t').2 (MPT.update E k v t).2 (T.insert a (toNibs (t.keyOf E k)) v) K := by
  have hlog : LogOk E t.store.written := log_of_replay (exec_writes E (.update k v) t) hl
  have hfull : (MPT.update E k v t).1 = .ok () ∧
      T.Holds E (MPT.update E k v t).2 (T.insert a (toNibs (t.keyOf E k)) v) :=
    h.bears.holds.update (key := k) (v := v) (fits_nibs hf) rfl hl
  have hnib := NibblePath.nibs_bytes (t.keyOf E k)
  have hlim : (NibblePath.mk (t.keyOf E k) 0).nibs.length < E.limit := by rw [hnib]; exact fits_nibs hf
  obtain ⟨s1, r1, r2, r3⟩ := T.updateAux_client h.alike.agree h.bears.holds.good hlog E.limit h.bears.holds.shape
    h.bears.holds.stored (NibblePath.WF_bytes (t.keyOf E k)) v hlim (by rw [hnib]; exact h.has k hk)
  rw [hnib] at r1 r3
  have hroot : MPT.updateAux E E.limit (t'.root.getD []) ⟨t'.keyOf E k, 0⟩ v t'.store =
      (.ok (T.ref E (T.insert a (toNibs (t.keyOf E k)) v)), s1) := by
    rw [← r1, h.alike.root, h.alike.keyOf]
    rcases h.bears.holds.root with ⟨rfl, h1 | h1⟩ | ⟨h1, h2⟩
    · rw [h1]; rfl
    · rw [h1]
      obtain ⟨f, hf⟩ : ∃ f, E.limit = f + 1 := ⟨E.limit - 1, by omega⟩
      rw [hf]
      simp [MPT.updateAux, T.ref]
    · rw [h2]; rfl
  have hcl : MPT.update E k v t' = (.ok (), { t' with store := s1, root := some (T.ref E (T.insert a (toNibs (t.keyOf E k)) v)) }) := by
    rw [T.update_eq, hroot]
  have hsec := exec_secure E (.update k v) t
  simp only [MPT.exec] at hsec
  have hal := h.alike.exec (E := E) (.update k v)
  simp only [MPT.exec] at hal
  rw [hfull.1, hcl] at hal
  simp only [reduceCtorEq, false_or, true_and] at hal
  rw [hcl]
  refine ⟨rfl, hfull.1, hal, ⟨hfull.2, h.bears.full.insert _ _⟩, fun k' hk' => ?_⟩
  have : (MPT.update E k v t).2.keyOf E k' = t.keyOf E k' := by rw [keyOf_eq, keyOf_eq, hsec]
  rw [this]
  rintro ⟨x, hx, hx'⟩
  rcases r3 _ x hx with hx | hx
  · refine h.has k' hk' ⟨x, hx, fun ha => hx' ?_⟩
    exact T.Grows.avail r2 ha
  · exact hx' hx

theorem Follows.updates {E : Env} {K : List Bytes} {us : List (Bytes × Bytes)} (hus : ∀ u ∈ us, u.1 ∈ K) :
    ∀ {t' t : MPT} {a : T}, Follows E t' t a K → (∀ k ∈ K, Fits E t.secure k) →
    LogOk E (MPT.run E (us.map fun u => .update u.1 u.2) t).store.written →
    outcomes E (us.map fun u => .update u.1 u.2) t' = us.map (fun _ => .ok ()) ∧
    ∃ b, Follows E (MPT.run E (us.map fun u => .update u.1 u.2) t') (MPT.run E (us.map fun u => .update u.1 u.2) t) b K := by
  induction us with
  | nil => intro t' t a h _ _; exact ⟨rfl, a, h⟩
  | cons u us ih =>
    intro t' t a h hf hl
    have hl1 : LogOk E (MPT.update E u.1 u.2 t).2.store.written :=
      log_of_replay (run_writes E (us.map fun u => .update u.1 u.2) (MPT.update E u.1 u.2 t).2) hl
    obtain ⟨g1, -, g2⟩ := h.update (v := u.2) (hus u (by simp)) (hf _ (hus u (by simp))) hl1
    have hsec := exec_secure E (.update u.1 u.2) t
    simp only [MPT.exec] at hsec
    obtain ⟨e1, e2⟩ := ih (fun u hu => hus u (List.mem_cons_of_mem _ hu)) g2 (fun k hk => by rw [hsec]; exact hf k hk) hl
    refine ⟨?_, e2⟩
    simp only [List.map_cons, outcomes, MPT.exec, g1, e1]

/-- What a client object that follows a trie answers. -/
theorem Follows.answers {E : Env} {t' t : MPT} {a : T} {K : List Bytes} (h : Follows E t' t a K)
    (hl : LogOk E t.store.written) {k : Bytes} (hk : k ∈ K) (hf : Fits E t.secure k) :
    t'.contains E k = t.contains E k ∧ (∀ v, t.get E k = .ok v → t'.get E k = .ok v) ∧
    (∀ now p, t.getPoi E now k = .ok p → t'.getPoi E now k = .ok p) ∧
    (∀ now p, t.getPoe E now k = .ok p → t'.getPoe E now k = .ok p) := by
  have hb := h.has k hk
  have hn := fits_nibs hf
  by_cases hne : a = .empty
  · subst hne
    have he := h.bears.holds
    have hnr := he.noRoot hl
    have hnr' : t'.noRoot E = true := by unfold MPT.noRoot at hnr ⊢; rw [h.alike.root]; exact hnr
    have hc : ∀ t : MPT, t.noRoot E = true → t.contains E k = .ok false := by
      intro t ht
      obtain ⟨f, hf⟩ : ∃ f, E.limit = f + 1 := ⟨E.limit - 1, by omega⟩
      unfold MPT.contains
      rw [hf]
      split
      · rfl
      · simp [ht, MPT.containsAux]
    refine ⟨by rw [hc _ hnr, hc _ hnr'], fun v hv => ?_, fun now p hp => ?_, fun now p hp => ?_⟩
    · obtain ⟨e, h1⟩ := he.get_empty hl k
      rw [h1] at hv; cases hv
    · rw [he.getPoi_empty hl] at hp; cases hp
    · rw [he.getPoe_empty hl] at hp; cases hp
  · refine ⟨?_, fun v hv => ?_, fun now p hp => ?_, fun now p hp => ?_⟩
    · rcases h.alike.contains (E := E) k with h1 | h1 | h1
      · exact absurd ((h.bears.holds.contains_light hl hne h.alike hn).1 h1) hb
      · rw [h.bears.holds.contains hl hn] at h1; cases h1
      · exact h1
    · rcases h.alike.get (E := E) k with h1 | h1 | h1
      · exact absurd ((h.bears.holds.get_light hne h.alike hn).1 h1) hb
      · rw [h1] at hv; cases hv
      · rw [h1, hv]
    · rcases h.alike.getPoi (E := E) now k with h1 | h1 | h1
      · exact absurd ((h.bears.holds.getPoi_light hl hne h.alike hn).1 h1) hb
      · rw [h1] at hp; cases hp
      · rw [h1, hp]
    · rcases h.alike.getPoe (E := E) now k with h1 | h1 | h1
      · exact absurd ((h.bears.holds.getPoe_light hl hne h.alike hn).1 h1) hb
      · rw [h1] at hp; cases hp
      · rw [h1, hp]

namespace Props

/-- C104: a client object has the root of a trie and, for every key that is changed, the nodes of a proof of inclusion of
this key.  Then all updates and deletes end as on the trie, and the client gets the same root. -/
def C104 : Prop :=
  ∀ (E : Env) (secure : Bool) (ops ops' : List Op) (t' : MPT), (∀ op ∈ ops ++ ops', Fits E secure op.key) →
    LogOk E (MPT.after E secure (ops ++ ops')).store.written → Claims E t' (MPT.after E secure ops) →
    (∀ op ∈ ops', ∃ now p, (MPT.after E secure ops).getPoi E now op.key = .ok p ∧ ∀ e ∈ p.proof, Has E t' e) →
    outcomes E ops' t' = outcomes E ops' (MPT.after E secure ops) ∧
      (MPT.run E ops' t').root = (MPT.after E secure (ops ++ ops')).root

theorem claims_follows_grow {E : Env} {secure : Bool} {ops : List Op} {t' : MPT} {K : List Bytes}
    (hf : ∀ op ∈ ops, Fits E secure op.key) (hl : LogOk E (MPT.after E secure ops).store.written)
    (hc : Claims E t' (MPT.after E secure ops)) (hK : ∀ k ∈ K, Fits E secure k)
    (hq : ∀ k ∈ K, t'.contains E k ≠ .error .keyError) :
    Follows E t' (MPT.after E secure ops) (T.grow .empty (ops.map (Op.mapKey (effective E secure)))) K := by
  have hb := Bears.after hf hl
  generalize T.grow .empty (ops.map (Op.mapKey (effective E secure))) = a at hb
  have hal : Alike t' (MPT.after E secure ops) := by
    refine ⟨hc.root, hc.secure, fun k v w hv hw => ?_⟩
    have e1 := hc.addressed k v hv
    obtain ⟨e2, hm⟩ := hb.holds.good k w hw
    exact hc.coll v (List.mem_append_right _ (List.mem_map.2 ⟨(k, v), mem_of_dget hv, rfl⟩)) w
      (List.mem_append_left _ hm) (e1.symm.trans e2)
  refine ⟨hal, hb, fun k hk => ?_⟩
  by_cases hne : a = .empty
  · subst hne
    rintro ⟨x, hx, hx'⟩
    rw [T.mem_trail_empty hx] at hx'
    exact hx' (T.avail_empty _ _)
  · intro h
    exact hq k hk ((hb.holds.contains_light hl hne hal (fits_nibs (by rw [after_secure]; exact hK k hk))).2 h)

theorem claims_follows {E : Env} {secure : Bool} {ops : List Op} {t' : MPT} {K : List Bytes}
    (hf : ∀ op ∈ ops, Fits E secure op.key) (hl : LogOk E (MPT.after E secure ops).store.written)
    (hc : Claims E t' (MPT.after E secure ops)) (hK : ∀ k ∈ K, Fits E secure k)
    (hq : ∀ k ∈ K, t'.contains E k ≠ .error .keyError) :
    ∃ a, Follows E t' (MPT.after E secure ops) a K := ⟨_, claims_follows_grow hf hl hc hK hq⟩

/-- C104 in part: updates.  A client object over any storage that can look up some keys (`contains` does not raise
KeyError for them) can make any sequence of updates of these keys.  All calls succeed, the root is that of the trie after
the same calls, and `contains`, `get` and the proof methods still give the answers of the trie for these keys.
Missing: deletes, see `C104_false`; by `C68_history` they end as on the trie or raise KeyError. -/
theorem C104_updates_partial {E : Env} {secure : Bool} {ops : List Op} {us : List (Bytes × Bytes)} {t' : MPT}
    {K : List Bytes} (hf : ∀ op ∈ ops, Fits E secure op.key) (hK : ∀ k ∈ K, Fits E secure k) (hus : ∀ u ∈ us, u.1 ∈ K)
    (hl : LogOk E (MPT.after E secure (ops ++ us.map fun u => .update u.1 u.2)).store.written)
    (hc : Claims E t' (MPT.after E secure ops)) (hq : ∀ k ∈ K, t'.contains E k ≠ .error .keyError) :
    let c := MPT.run E (us.map fun u => .update u.1 u.2) t'
    let t := MPT.after E secure (ops ++ us.map fun u => .update u.1 u.2)
    outcomes E (us.map fun u => .update u.1 u.2) t' = us.map (fun _ => .ok ()) ∧ c.root = t.root ∧
      ∀ k ∈ K, c.contains E k = t.contains E k ∧ (∀ v, t.get E k = .ok v → c.get E k = .ok v) ∧
        (∀ now p, t.getPoi E now k = .ok p → c.getPoi E now k = .ok p) ∧
        (∀ now p, t.getPoe E now k = .ok p → c.getPoe E now k = .ok p) := by
  intro c t
  have e : t = MPT.run E (us.map fun u => .update u.1 u.2) (MPT.after E secure ops) := after_append ..
  have hl' := hl
  rw [show MPT.after E secure (ops ++ us.map fun u => .update u.1 u.2) = t from rfl, e] at hl'
  obtain ⟨a, h⟩ := claims_follows hf (log_of_replay (run_writes E _ _) hl') hc hK hq
  obtain ⟨h1, b, h2⟩ := h.updates hus (fun k hk => by rw [after_secure]; exact hK k hk) hl'
  rw [← e] at h2
  exact ⟨h1, h2.alike.root, fun k hk => h2.answers hl hk (by rw [after_secure]; exact hK k hk)⟩

/-- C104 in part, with proofs: it is enough that the client has the nodes of the proofs of inclusion. -/
theorem C104_proofs_partial {E : Env} {secure : Bool} {ops : List Op} {us : List (Bytes × Bytes)} {t' : MPT}
    (hf : ∀ op ∈ ops, Fits E secure op.key) (hK : ∀ u ∈ us, Fits E secure u.1)
    (hl : LogOk E (MPT.after E secure (ops ++ us.map fun u => .update u.1 u.2)).store.written)
    (hc : Claims E t' (MPT.after E secure ops))
    (hp : ∀ u ∈ us, ∃ now p, (MPT.after E secure ops).getPoi E now u.1 = .ok p ∧ ∀ e ∈ p.proof, Has E t' e) :
    outcomes E (us.map fun u => .update u.1 u.2) t' = us.map (fun _ => .ok ()) ∧
      (MPT.run E (us.map fun u => .update u.1 u.2) t').root =
        (MPT.after E secure (ops ++ us.map fun u => .update u.1 u.2)).root := by
  have hl' : LogOk E (MPT.after E secure ops).store.written := by
    rw [after_append] at hl
    exact log_of_replay (run_writes E _ _) hl
  have hb := Bears.after hf hl'
  generalize T.grow .empty (ops.map (Op.mapKey (effective E secure))) = a at hb
  obtain ⟨a0, h0⟩ := claims_follows (K := []) hf hl' hc (by simp) (by simp)
  have hq : ∀ k ∈ us.map (·.1), t'.contains E k ≠ .error .keyError := by
    intro k hk
    obtain ⟨u, hu, rfl⟩ := List.mem_map.1 hk
    obtain ⟨now, p, g1, g2⟩ := hp u hu
    have hne : a ≠ .empty := by
      rintro rfl
      rw [hb.holds.getPoi_empty hl'] at g1
      cases g1
    have hn := fits_nibs (t := MPT.after E secure ops) (by rw [after_secure]; exact hK u hu)
    rw [ne_eq, hb.holds.contains_light hl' hne h0.alike hn]
    rw [hb.holds.getPoi hl' hne hn] at g1
    split at g1
    · cases g1
    simp only [Except.ok.injEq] at g1
    rintro ⟨x, hx, hx'⟩
    exact hx' (g2 _ (by rw [← g1]; exact List.mem_map.2 ⟨x, hx, rfl⟩))
  have := C104_updates_partial (K := us.map (·.1)) hf (fun k hk => by
    obtain ⟨u, hu, rfl⟩ := List.mem_map.1 hk; exact hK u hu) (fun u hu => List.mem_map.2 ⟨u, hu, rfl⟩) hl hc hq
  exact ⟨this.1, this.2.1⟩

/-- Two keys, and the client that has the proof of the first. -/
def twoOps : List Op := [.update [0x12] (bigValue 1), .update [0x34] (bigValue 2)]

/-- The nodes of the proof of inclusion of a key. -/
def proofNodes (E : Env) (ops : List Op) (k : Bytes) : List Bytes :=
  match (MPT.after E false ops).getPoi E [] k with
  | .ok p => p.proof
  | .error _ => []

def twoClient : MPT := fromNodes realEnv (proofNodes realEnv twoOps [0x12]) (MPT.after realEnv false twoOps).root false

theorem two_log : LogOk realEnv (MPT.after realEnv false (twoOps ++ [.delete [0x12]])).store.written :=
  logOk_of (by decide +kernel)

theorem two_claims : Claims realEnv twoClient (MPT.after realEnv false twoOps) :=
  claims_of (by decide +kernel) (by decide +kernel) (by decide +kernel) (collFree_of (by decide +kernel))

theorem two_proof : okAnd ((MPT.after realEnv false twoOps).getPoi realEnv [] [0x12]) (fun p =>
    p.proof.all fun e => decide (Has realEnv twoClient e)) = true := by decide +kernel

theorem two_outcomes : ¬ outcomes realEnv [.delete [0x12]] twoClient =
    outcomes realEnv [.delete [0x12]] (MPT.after realEnv false twoOps) := by decide +kernel

/-- C104 is false: to delete `12` the client needs the node of `34`, which the proof of `12` does not have. -/
theorem C104_false : ¬ C104 := by
  intro h
  refine two_outcomes (h realEnv false twoOps [.delete [0x12]] twoClient ?_ two_log two_claims ?_).1
  · intro op hop
    simp only [twoOps, List.cons_append, List.nil_append, List.mem_cons, List.not_mem_nil, or_false] at hop
    rcases hop with rfl | rfl | rfl <;> decide
  · intro op hop
    simp only [List.mem_singleton] at hop
    subst hop
    obtain ⟨p, h1, h2⟩ := ok_of two_proof
    exact ⟨[], p, h1, fun e he => of_decide_eq_true (List.all_eq_true.1 h2 e he)⟩

/-- Updates of the keys `12 34` (present) and `12 77` (absent), one of them with an empty value. -/
def clientUpdates : List (Bytes × Bytes) :=
  [([0x12, 0x34], bigValue 5), ([0x12, 0x77], [7]), ([0x12, 0x34], []), ([0x12, 0x77], bigValue 8)]

/-- The client that has the proof of `12 34` only. -/
def lightClient : MPT := fromNodes toyEnv (proofNodes toyEnv partialOps [0x12, 0x34]) (MPT.after toyEnv false partialOps).root false

/-- The hypotheses of `C104_updates_partial`, of a client that lacks nodes (those of `12 56`). -/
example : LogOk toyEnv (MPT.after toyEnv false (partialOps ++ clientUpdates.map fun u => .update u.1 u.2)).store.written ∧
    Claims toyEnv lightClient (MPT.after toyEnv false partialOps) ∧
    (∀ u ∈ clientUpdates, u.1 ∈ [[0x12, 0x34], [0x12, 0x77]]) ∧
    (∀ k ∈ [[0x12, 0x34], [0x12, 0x77]], Fits toyEnv false k ∧ lightClient.contains toyEnv k ≠ .error .keyError) ∧
    lightClient.contains toyEnv [0x12, 0x56] = .error .keyError :=
  ⟨logOk_of (by decide +kernel),
   claims_of (by decide +kernel) (by decide +kernel) (by decide +kernel) (collFree_of (by decide +kernel)),
   by decide +kernel, by decide +kernel, by decide +kernel⟩
/-- The conclusion evaluated. -/
example : (MPT.run toyEnv (clientUpdates.map fun u => .update u.1 u.2) lightClient).root =
      (MPT.after toyEnv false (partialOps ++ clientUpdates.map fun u => .update u.1 u.2)).root ∧
    (MPT.run toyEnv (clientUpdates.map fun u => .update u.1 u.2) lightClient).get toyEnv [0x12, 0x77] =
      .ok (bigValue 8) := ⟨by decide +kernel, by decide +kernel⟩
/-- The hypothesis of `C104_proofs_partial` on proofs. -/
example : ∃ p, (MPT.after toyEnv false partialOps).getPoi toyEnv [] [0x12, 0x34] = .ok p ∧
    ∀ e ∈ p.proof, Has toyEnv lightClient e := by
  obtain ⟨p, h1, h2⟩ := ok_of (m := (MPT.after toyEnv false partialOps).getPoi toyEnv [] [0x12, 0x34])
    (f := fun p => p.proof.all fun e => decide (Has toyEnv lightClient e)) (by decide +kernel)
  exact ⟨p, h1, fun e he => of_decide_eq_true (List.all_eq_true.1 h2 e he)⟩

end Props
end Pymt
