import Verif.Lemmas.EmptInside
import Verif.Lemmas.EmptShared
import Verif.Props.EmptCrowd
import Verif.Props.Crowd
import Verif.Spec.EmptTurns

/-!
# Property C96, continued: the trie inside an `EMPT` that several threads write to
-/

namespace Pymt

theorem ECrowd.inner {E : Env} {secure : Bool} {calls : Nat → List ECall} {log : List Bytes}
    (h : ECrowd E secure calls log) (c : Call) (hc : Inner E calls c) : Fits E secure c.key := by
  cases c with
  | update k r => obtain ⟨j, v, h1, _⟩ := hc; exact h.fits j _ h1
  | delete k => obtain ⟨j, h1⟩ := hc; exact h.fits j _ h1
  | get k => obtain ⟨j, h1⟩ := hc; exact h.fits j _ h1
  | contains k =>
    obtain ⟨j, h1 | h1⟩ := hc
    · exact h.fits j _ h1
    · exact h.fits j _ h1

theorem refOps_of_inner {E : Env} {calls : Nat → List ECall} {ops : List Op}
    (h : ∀ op ∈ ops, ∃ c, Inner E calls c ∧ c.op? = some op) :
    ∃ eops, refOps E eops = ops ∧
      ∀ op ∈ eops, ∃ j c, c ∈ calls j ∧ c.op? = some op ∧ ∀ k v, op = .update k v → v.storable = true := by
  induction ops with
  | nil => exact ⟨[], rfl, by simp⟩
  | cons op ops ih =>
    obtain ⟨eops, h1, h2⟩ := ih fun o ho => h o (by simp [ho])
    obtain ⟨c, hc, hop⟩ := h op (by simp)
    cases c with
    | update k r =>
      obtain ⟨j, v, hm, hv, rfl⟩ := hc
      injection hop with hop
      subst hop
      refine ⟨.update k v :: eops, ?_, ?_⟩
      · rw [← h1]; simp [refOps, refOp, hv]
      · intro o ho
        rcases List.mem_cons.1 ho with rfl | ho
        · exact ⟨j, _, hm, rfl, fun k' v' e => by injection e with _ e; subst e; exact hv⟩
        · exact h2 o ho
    | delete k =>
      obtain ⟨j, hm⟩ := hc
      injection hop with hop
      subst hop
      refine ⟨.delete k :: eops, ?_, ?_⟩
      · rw [← h1]; simp [refOps, refOp]
      · intro o ho
        rcases List.mem_cons.1 ho with rfl | ho
        · exact ⟨j, _, hm, rfl, fun k' v' e => (nomatch e)⟩
        · exact h2 o ho
    | get k => exact (nomatch hop)
    | contains k => exact (nomatch hop)

namespace Props

/-- **C96** (part) At every moment of every interleaving the trie inside is a proper trie, with the contents some
sequence of the threads' calls of `update` and `delete` gives: threads cannot corrupt each other's work, they can only
undo it.  What `get` makes of it depends on the data storage. -/
theorem C96_state_partial (E : Env) (secure : Bool) (calls : Nat → List ECall) (log : List Bytes)
    (h : ECrowd E secure calls log) (sched : List Nat) :
    let w := (EWorld.new E secure calls).run E sched
    ∃ ops : List EOp, (∀ op ∈ ops, ∃ j c, c ∈ calls j ∧ c.op? = some op) ∧
    ∀ k, Fits E secure k → (secure = true → CollFree E (k :: ops.map EOp.key)) →
      (∀ v, econtents ops k = some v → w.obj.contains E k = .ok true ∧
        (dget w.obj.data k = none → w.obj.get E k = .error .keyError) ∧
        (∀ d, dget w.obj.data k = some d → w.obj.get E k =
          if E.keccak (k ++ v.payload) = E.keccak (k ++ d.payload) then .ok d else .error .invalidReference)) ∧
      (econtents ops k = none → (secure = true ∨ ∀ k', k' <+: k → k' ≠ k → econtents ops k' = none) →
        w.obj.contains E k = .ok false) := by
  intro w
  obtain ⟨cs, s, v, hsh⟩ := EShadow.all h.inner h.log h.all sched
  have hcr := hsh.shadow.on h.inner h.log
  obtain ⟨ops, h1, h2⟩ := (CrowdOk.all hcr s.length (Nat.le_refl _)).made 0
  have hsec : v.secure = fun _ => secure := by rw [← hsh.shadow.run]; exact worldAt_secure _ _
  have hobj : v.obj 0 = w.obj.trie := by
    unfold World.obj; rw [hsh.store, hsh.root, hsec]
    show ({ store := w.obj.trie.store, root := w.obj.trie.root, secure := secure } : MPT) = w.obj.trie
    rw [← show w.obj.trie.secure = secure from hsh.secure]
  rw [hsh.shadow.run, hobj] at h2
  have hreads : ReadsAs E w.obj.trie ops := h2.reads (h.log.mono (h.all sched))
  have hws : w.obj.trie.secure = secure := hsh.secure
  obtain ⟨eops, he1, he2⟩ := refOps_of_inner (E := E) (calls := calls) (ops := ops) (fun op ho => by
    obtain ⟨j, c, hc, hop⟩ := h1 op ho
    exact ⟨c, (hsh.shadow.allowed j _ hc).2, hop⟩)
  have hdata := (EWorldOk.new E secure calls).run (E := E) sched
  refine ⟨eops, fun op ho => ?_, fun k hf hcoll => ?_⟩
  · obtain ⟨j, c, h1, h2, _⟩ := he2 op ho
    exact ⟨j, c, h1, h2⟩
  · have hkeys : ops.map Op.key = eops.map EOp.key := by
      rw [← he1]
      clear he1 h1 h2 hreads hcoll
      induction eops with
      | nil => rfl
      | cons o eops ih =>
        have ih := ih fun op ho => he2 op (by simp [ho])
        have : refOps E (o :: eops) = refOp E o ++ refOps E eops := by simp [refOps]
        rw [this, List.map_append, ih]
        cases o with
        | delete k => rfl
        | update k x =>
          obtain ⟨_, _, _, _, hs⟩ := he2 (.update k x) (by simp)
          simp [refOp, hs k x rfl, Op.key, EOp.key]
    obtain ⟨r1, r2⟩ := hreads k (by rw [hws]; exact hf) (by rw [hws, hkeys]; exact hcoll)
    have hst : ∀ k b, Stored w.obj.trie.secure ops k b ↔ contents ops k = some b := fun k b =>
      stored_iff _ _ (fun _ => he1 ▸ refOps_nonempty E eops) k b
    have hcont : ∀ k, contents ops k = (econtents eops k).map (refOf E k) := fun k => by
      rw [← he1]; exact contents_refOps E eops k
    refine ⟨fun x hx => ?_, fun hn hpre => ?_⟩
    · have h3 : contents ops k = some (refOf E k x) := by rw [hcont, hx]; rfl
      obtain ⟨g1, g2⟩ := r1 _ ((hst k _).2 h3)
      refine ⟨g2, fun hd => ?_, fun d hd => ?_⟩
      · unfold EMPT.get dgetItem; rw [hd]; rfl
      · have hmem : ∃ j, ECall.update k x ∈ calls j := by
          obtain ⟨j, c, m1, m2, _⟩ := he2 _ (econtents_some_mem hx)
          cases c with
          | update k' x' => injection m2 with m2; injection m2 with e1 e2; subst e1 e2; exact ⟨j, m1⟩
          | delete => injection m2 with m2; exact (nomatch m2)
          | get => exact (nomatch m2)
          | contains => exact (nomatch m2)
        obtain ⟨j, hmem⟩ := hmem
        unfold EMPT.get dgetItem
        rw [hd, g1]
        simp only [Except.bind_ok']
        rw [decode_ref (h.sizes j k x hmem), ofValue_storable (hdata.data k d hd).1]
        simp only [Except.bind_ok']
        by_cases e : E.keccak (k ++ x.payload) = E.keccak (k ++ d.payload)
        · rw [(DataRef.eq_iff E ⟨k, x.payload⟩ ⟨k, d.payload⟩).2 e, if_pos e]; rfl
        · rw [if_neg e]
          have : DataRef.eq E ⟨k, x.payload⟩ ⟨k, d.payload⟩ = false := by
            rw [Bool.eq_false_iff]; exact fun hb => e ((DataRef.eq_iff E _ _).1 hb)
          rw [this]; rfl
    · refine r2 (fun b hb => ?_) ?_
      · rw [hst, hcont, hn] at hb; exact (nomatch hb)
      · rcases hpre with hp | hp
        · exact .inl (hws.trans hp)
        · refine .inr fun k' p1 p2 b hb => ?_
          rw [hst, hcont, hp k' p1 p2] at hb
          exact (nomatch hb)

/-- **C96** (part) In every interleaving: no `update` with a value that can be stored fails; and `contains` answers True or
False, except for a TypeError or KeyError when others empty the trie or fill the empty trie while it runs. -/
theorem C96_outcome_partial (E : Env) (secure : Bool) (calls : Nat → List ECall) (log : List Bytes)
    (h : ECrowd E secure calls log) (sched : List Nat) (j n : Nat) (x : Py EAns) :
    let w := (EWorld.new E secure calls).run E sched
    (w.threads j).outs[n]? = some x →
    (∀ k v, (calls j)[n]? = some (.update k v) → v.storable = true → x = .ok .none) ∧
    (∀ k, (calls j)[n]? = some (.contains k) →
      (∃ b, x = .ok (.bool b)) ∨ x = .error .typeError ∨ x = .error .keyError) := by
  intro w hx
  obtain ⟨cs, s, v, hsh⟩ := EShadow.all h.inner h.log h.all sched
  exact ⟨fun k v hc hs => hsh.past j n _ x hc hx hs, fun k hc => hsh.past j n _ x hc hx⟩

/-- **C96** (part) When all threads are done, a key that was only ever updated, always with the same value, has that
value unless it is not in the trie any more: what `contains` reports can be read.  (Unless in secure mode `contains`
may also report a key when a proper prefix of it is present, C01.) -/
theorem C96_readable_partial (E : Env) (secure : Bool) (calls : Nat → List ECall) (log : List Bytes)
    (h : ECrowd E secure calls log) (sched : List Nat) :
    let w := (EWorld.new E secure calls).run E sched
    (∀ j, w.idle j = true) → ∀ (j : Nat) (k : Bytes) (v : Value), v.storable = true →
    .update k v ∈ calls j → (∀ j', .delete k ∉ calls j' ∧ ∀ v', .update k v' ∈ calls j' → v' = v) →
    (secure = true ∨ ∀ k', k' <+: k → k' ≠ k → ∀ j' v', .update k' v' ∉ calls j') →
    w.obj.contains E k = .ok true → w.obj.get E k = .ok v := by
  intro w hidle j k v hv hup honly hpre hcon
  have hdata : EWorldOk calls w := (EWorldOk.new E secure calls).run (E := E) sched
  have hd : dget w.obj.data k = some v := by
    obtain ⟨n, hn⟩ := List.getElem?_of_mem hup
    have hid := hidle j
    unfold EWorld.idle at hid
    simp only [Bool.and_eq_true, Option.isNone_iff_eq_none, List.isEmpty_iff] at hid
    have hl := hdata.later j hid.1
    rw [hid.2] at hl
    have hlen : (calls j).length ≤ (w.threads j).outs.length := List.drop_eq_nil_iff.1 hl.symm
    have hlt : n < (calls j).length := (List.getElem?_eq_some_iff.1 hn).1
    obtain ⟨x, hx⟩ : ∃ x, (w.threads j).outs[n]? = some x := ⟨_, List.getElem?_eq_getElem (by omega)⟩
    have hxo := (C96_outcome_partial E secure calls log h sched j n x hx).1 k v hn hv
    subst hxo
    obtain ⟨_, _, v', hv', j', hj'⟩ := C96_listed_partial E secure calls sched k v j n hn hx fun j' => (honly j').1
    rw [(honly j').2 v' hj'] at hv'
    exact hv'
  obtain ⟨ops, h1, h2⟩ := C96_state_partial E secure calls log h sched
  have hmemk : ∀ op ∈ ops, ∃ j c, c ∈ calls j ∧ ECall.key c = op.key := by
    intro op ho
    obtain ⟨j, c, h3, h4⟩ := h1 op ho
    refine ⟨j, c, h3, ?_⟩
    cases c with
    | update | delete => injection h4 with h4; subst h4; rfl
    | get | contains => exact (nomatch h4)
  have hkey : secure = true → CollFree E (k :: ops.map EOp.key) := by
    intro hs
    have hall : ∀ a ∈ k :: ops.map EOp.key, ∃ j c, c ∈ calls j ∧ ECall.key c = a := by
      intro a ha
      rcases List.mem_cons.1 ha with rfl | ha
      · exact ⟨j, _, hup, rfl⟩
      · obtain ⟨op, ho, rfl⟩ := List.mem_map.1 ha
        exact hmemk op ho
    intro a ha b hb hab
    obtain ⟨j1, c1, m1, rfl⟩ := hall a ha
    obtain ⟨j2, c2, m2, rfl⟩ := hall b hb
    exact h.keys hs j1 j2 c1 m1 c2 m2 hab
  obtain ⟨h3, h4⟩ := h2 k (h.fits j _ hup) hkey
  have hsome : ∀ k' v', econtents ops k' = some v' → ∃ j', ECall.update k' v' ∈ calls j' := by
    intro k' v' hk'
    obtain ⟨j', c, m1, m2⟩ := h1 _ (econtents_some_mem hk')
    cases c with
    | update => injection m2 with m2; injection m2 with e1 e2; subst e1 e2; exact ⟨j', m1⟩
    | delete => injection m2 with m2; exact (nomatch m2)
    | get => exact (nomatch m2)
    | contains => exact (nomatch m2)
  cases hc : econtents ops k with
  | none =>
    have := h4 hc (hpre.imp id fun hp k' p1 p2 => by
      cases hk' : econtents ops k' with
      | none => rfl
      | some v' =>
        obtain ⟨j', hj'⟩ := hsome k' v' hk'
        exact absurd hj' (hp k' p1 p2 j' v'))
    rw [hcon] at this
    exact (nomatch this)
  | some v' =>
    obtain ⟨j', hj'⟩ := hsome k v' hc
    rw [(honly j').2 v' hj'] at hc
    rw [((h3 v hc).2.2 v hd), if_pos rfl]

example := C96_state_partial toyEnv false erivals erivalsLog erivals_crowd erace
example := (C96_outcome_partial toyEnv false erivals erivalsLog erivals_crowd erace 1 0 (.ok .none) (by decide +kernel)).1
  [1, 3] (.bytes [6]) rfl rfl
example := C96_readable_partial toyEnv false erivals erivalsLog erivals_crowd erace erace_idle 1 [1, 3] (.bytes [6]) rfl
  (by simp [erivals])
  (by
    intro j
    match j with
    | 0 => simp [erivals]
    | 1 => simp [erivals]
    | j + 2 => simp [erivals])
  (.inr (by
    intro k' _ hne j v hm
    match j with
    | 0 =>
      simp only [erivals, List.mem_singleton, ECall.update.injEq] at hm
      obtain ⟨rfl, _⟩ := hm
      revert hne; rename_i h; revert h; decide
    | 1 =>
      simp only [erivals, List.mem_singleton, ECall.update.injEq] at hm
      exact hne hm.1
    | j + 2 => exact (nomatch hm)))
  (by decide +kernel)
example : let w := (EWorld.new toyEnv false erivals).run toyEnv erace
    w.obj.contains toyEnv [1, 3] = .ok true ∧ w.obj.contains toyEnv [1, 2] = .ok false := by decide +kernel

end Props
end Pymt
