import Verif.Lemmas.EndedTries
import Verif.Lemmas.EndedEmpt
import Verif.Props.Crowd
import Verif.Props.EmptCrowd

/-!
# Properties C154, C155: threads whose calls may be ended by an exception from elsewhere
-/

namespace Pymt.Props

theorem course_secure (E : Env) (secure : Nat → Bool) (calls : Nat → List (Nat × Call)) (l : List Happening) (i : Nat) :
    (triesAfter E secure calls l).shared.secure i = secure i := by
  obtain ⟨orders, id, n, ht⟩ := track_all (mptMachine E) (Tries.new E secure) calls (fun _ => True) l
  have hs := congrArg Shop.shared (ht.at orders.length)
  rw [List.take_length] at hs
  have e := congrArg (fun s => Tries.secure s i) (hs.trans ht.twin.shared)
  exact e.symm.trans (congrFun (worldAt_secure _ _) i)

/-! ### C154: threads do as they please -/

/-- **C154** Threads call `update`, `delete`, `get` and `contains` of tries over one dict, and any call may be ended at any
access by an exception from elsewhere.  Every trie reads, at any moment, as after some of the calls, made one after the other. -/
theorem C154_state (E : Env) (secure : Nat → Bool) (calls : Nat → List (Nat × Call)) (log : List Bytes)
    (h : EndedCrowd E secure calls log) (l : List Happening) (i : Nat) :
    ∃ ops, FromCalls calls i ops ∧ ReadsAs E ((triesAfter E secure calls l).shared.obj i) ops := by
  obtain ⟨orders, id, n, ht⟩ := track_all (mptMachine E) (Tries.new E secure) calls (fun _ => True) l
  have hcr := ht.crowd h
  have hok := CrowdOk.all hcr _ (Nat.le_refl _)
  obtain ⟨ops, h1, h2⟩ := hok.made i
  have hs := congrArg Shop.shared (ht.at (orders.map Prod.fst).length)
  rw [List.length_map, List.take_length] at hs
  have hobj : (worldAt E secure (ThreadSystem.told orders) (orders.map Prod.fst) orders.length).obj i =
      (triesAfter E secure calls l).shared.obj i := congrArg (fun s => Tries.obj s i) (hs.trans ht.twin.shared)
  rw [List.length_map, hobj] at h2
  refine ⟨ops, fun op hop => ?_, h2.reads (h.log.mono (h.all l))⟩
  obtain ⟨x, c, hc, e⟩ := h1 op hop
  obtain ⟨j, hj⟩ := ht.twin.sub x _ hc
  exact ⟨j, c, hj, e⟩

/-- **C154** An `update` that is not ended returns, whatever other calls were ended and where. -/
theorem C154_update (E : Env) (secure : Nat → Bool) (calls : Nat → List (Nat × Call)) (log : List Bytes)
    (h : EndedCrowd E secure calls log) (l : List Happening) (j m i : Nat) (k v : Bytes) (x : Py Ans)
    (hc : (calls j)[m]? = some (i, .update k v))
    (hx : ((triesAfter E secure calls l).jobs j).outs[m]? = some (some x)) : x = .ok .none := by
  obtain ⟨orders, id, n, ht⟩ := track_all (mptMachine E) (Tries.new E secure) calls (fun _ => True) l
  obtain ⟨y, m', c, e1, e2, e3⟩ := ht.twin.past j m x hx
  rw [hc] at e1
  injection e1 with e1
  subst e1
  refine CrowdOk.update_ok (ht.crowd h) _ (Nat.le_refl _) y m' i k v x e2 ?_
  have ho := congrArg (fun s => Job.outs (Shop.jobs s y)) (ht.at (orders.map Prod.fst).length)
  rw [List.length_map, List.take_length] at ho
  rw [List.length_map]
  exact (congrArg (·[m']?) ho).trans e3

/-- **C154** A call that is not ended has the outcome it would have had on the trie as it was at some moment while it ran,
and if it changed the trie, the root was at a later moment that of the trie it computed.  The exceptions are those of C88:
TypeError when the last key was deleted while it ran, KeyError from `contains` when the first key was inserted. -/
theorem C154_outcome (E : Env) (secure : Nat → Bool) (calls : Nat → List (Nat × Call)) (log : List Bytes)
    (h : EndedCrowd E secure calls log) (l : List Happening) (j m i : Nat) (c : Call) (x : Py Ans)
    (hc : (calls j)[m]? = some (i, c))
    (hx : ((triesAfter E secure calls l).jobs j).outs[m]? = some (some x)) :
    let w := triesAfter E secure calls
    (∃ l1, l1 <+: l ∧ (w l1).Running j m ∧ x = (c.seq E ((w l1).shared.obj i)).1 ∧
      (c.op? ≠ none → x = .ok .none → ∃ l2, l1 <+: l2 ∧ l2 <+: l ∧ (w l2).Running j m ∧
        (w l2).shared.roots i = (c.seq E ((w l1).shared.obj i)).2.root)) ∨
    (x = .error .typeError ∧ (∀ k v, c ≠ .update k v) ∧ ∃ l1 l2, l1 <+: l2 ∧ l2 <+: l ∧ (w l1).Running j m ∧
      (w l2).Running j m ∧ (w l1).shared.roots i ≠ none ∧ (w l2).shared.roots i = none) ∨
    (x = .error .keyError ∧ (∃ k, c = .contains k) ∧ ∃ l1 l2, l1 <+: l2 ∧ l2 <+: l ∧ (w l1).Running j m ∧
      (w l2).Running j m ∧ (w l1).shared.roots i = some (emptyHash E) ∧ (w l2).shared.roots i ≠ some (emptyHash E)) := by
  intro w
  obtain ⟨orders, id, n, ht⟩ := track_all (mptMachine E) (Tries.new E secure) calls (fun _ => True) l
  obtain ⟨mo, hm⟩ := ht.lives
  obtain ⟨y, m', c', e1, e2, e3, e4⟩ := hm.lived j m x hx
  rw [hc] at e1
  injection e1 with e1
  subst e1
  have hlen : (orders.map Prod.fst).length = orders.length := List.length_map _
  have obj : ∀ q, q ≤ orders.length → (worldAt E secure (ThreadSystem.told orders) (orders.map Prod.fst) q).obj i =
      (w (mo q)).shared.obj i := fun q hq =>
    congrArg (fun s => Tries.obj s i) ((congrArg Shop.shared (ht.at q)).trans (hm.shared q hq))
  have roots : ∀ q, q ≤ orders.length → (worldAt E secure (ThreadSystem.told orders) (orders.map Prod.fst) q).roots i =
      (w (mo q)).shared.roots i := fun q hq => congrArg MPT.root (obj q hq)
  have run : ∀ q, q ≤ orders.length → (worldAt E secure (ThreadSystem.told orders) (orders.map Prod.fst) q).Running y m' →
      (w (mo q)).Running j m := fun q hq hr => by
    refine e4 q hq ⟨?_, ?_⟩
    · exact (congrArg (fun s => (Job.outs (Shop.jobs s y)).length) (ht.at q)).symm.trans hr.1
    · exact (congrArg (fun s => (Job.cur (Shop.jobs s y)).isSome) (ht.at q)).symm.trans hr.2
  have ho := congrArg (fun s => Job.outs (Shop.jobs s y)) (ht.at (orders.map Prod.fst).length)
  rw [hlen, List.take_length] at ho
  have := (ht.crowd h).outcome (j := y) (n := m') e2 (by rw [hlen]; exact (congrArg (·[m']?) ho).trans e3)
  rw [hlen] at this
  rcases this with ⟨q, h1, h2, h3, h4⟩ | ⟨h1, h2, q, q', h3, h4, h5, h6, h7, h8⟩ | ⟨h1, h2, q, q', h3, h4, h5, h6, h7, h8⟩
  · rw [obj q h1] at h3 h4
    refine .inl ⟨mo q, hm.pre q, run q h1 h2, h3, fun a b => ?_⟩
    obtain ⟨q', g1, g2, g3, g4⟩ := h4 a b
    rw [roots q' g2] at g4
    exact ⟨mo q', hm.mono _ _ (Nat.le_of_lt g1), hm.pre q', run q' g2 g3, g4⟩
  · have h9 := Nat.le_trans h3 h4
    rw [roots q h9] at h7
    rw [roots q' h4] at h8
    exact .inr (.inl ⟨h1, h2, mo q, mo q', hm.mono _ _ h3, hm.pre q', run q h9 h5, run q' h4 h6, h7, h8⟩)
  · have h9 := Nat.le_trans h3 h4
    rw [roots q h9] at h7
    rw [roots q' h4] at h8
    exact .inr (.inr ⟨h1, h2, mo q, mo q', hm.mono _ _ h3, hm.pre q', run q h9 h5, run q' h4 h6, h7, h8⟩)

/-- **C154** A value that `get` of an `EMPT` gives was stored under this key by some call, whatever calls were ended and where. -/
theorem C154_value (E : Env) (secure : Bool) (calls : Nat → List ECall) (l : List Happening) (k : Bytes) (v : Value) :
    let w := emptAfter E secure calls l
    (w.shared.get E k = .ok v ∨
      ∃ j m : Nat, (calls j)[m]? = some (.get k) ∧ (w.jobs j).outs[m]? = some (some (.ok (.value v)))) →
    v.storable = true ∧ ∃ j, .update k v ∈ calls j := by
  intro w hw
  obtain ⟨calls', sched, h1, h2, h3⟩ := empt_unended E secure calls l
  obtain ⟨a, x, hx⟩ := C96_value_partial E secure calls' sched k v (by
    rcases hw with hw | ⟨j, m, hc, ho⟩
    · left; rw [h1]; exact hw
    · right
      obtain ⟨x, m', c, e1, e2, e3⟩ := h3 j m _ ho
      rw [hc] at e1
      injection e1 with e1
      subst e1
      exact ⟨x, m', e2, e3⟩)
  exact ⟨a, h2 x _ hx⟩

/-- **C154** A key that was stored in an `EMPT` without an exception, and that nobody deletes, is in the `EMPT`, with a value
that some call stored; whatever calls were ended and where. -/
theorem C154_listed (E : Env) (secure : Bool) (calls : Nat → List ECall) (l : List Happening) (k : Bytes) (v : Value)
    (j m : Nat) :
    let w := emptAfter E secure calls l
    (calls j)[m]? = some (.update k v) → (w.jobs j).outs[m]? = some (some (.ok .none)) → (∀ j', .delete k ∉ calls j') →
    v.storable = true ∧ k ∈ w.shared.iter ∧ ∃ v', dget w.shared.data k = some v' ∧ ∃ j', .update k v' ∈ calls j' := by
  intro w hc ho hdel
  obtain ⟨calls', sched, h1, h2, h3⟩ := empt_unended E secure calls l
  obtain ⟨x, m', c, e1, e2, e3⟩ := h3 j m _ ho
  rw [hc] at e1
  injection e1 with e1
  subst e1
  obtain ⟨a1, a2, v', a3, y, a4⟩ := C96_listed_partial E secure calls' sched k v x m' e2 e3 fun y hy => by
    obtain ⟨j', hj'⟩ := h2 y _ hy
    exact hdel j' hj'
  rw [h1] at a2 a3
  exact ⟨a1, a2, v', a3, h2 y _ a4⟩

/-! ### C155: writers take turns -/

theorem effect_of_success {E : Env} {secure : Nat → Bool} {calls : Nat → List (Nat × Call)} {log : List Bytes} {sched : List Nat}
    (hcr : CrowdOn E secure calls log sched) {i j m : Nat} {c : Call} {op : Op} (hc : (calls j)[m]? = some (i, c))
    (hop : c.op? = some op) (hx : ((worldAt E secure calls sched sched.length).threads j).outs[m]? = some (.ok .none)) :
    op ∈ (effects E secure calls sched i sched.length).map Prod.snd := by
  obtain ⟨h1, _⟩ := changes hcr i j sched.length (Nat.le_refl _)
  have hmem : op ∈ successes calls (worldAt E secure calls sched sched.length) i j := by
    unfold successes
    refine List.mem_filterMap.2 ⟨((i, c), .ok .none), ?_, by simp [hop]⟩
    refine List.mem_of_getElem? (i := m) ?_
    rw [List.getElem?_zip_eq_some]
    exact ⟨hc, hx⟩
  have : op ∈ ofThread j (effects E secure calls sched i sched.length) := by
    rw [h1]; exact List.mem_append_left _ hmem
  unfold ofThread at this
  obtain ⟨e, he, e1⟩ := List.mem_filterMap.1 this
  split at e1
  · injection e1 with e1
    exact List.mem_map.2 ⟨e, he, e1⟩
  · exact (nomatch e1)

theorem call_of_effect {E : Env} {secure : Nat → Bool} {calls : Nat → List (Nat × Call)} {log : List Bytes} {sched : List Nat}
    (hcr : CrowdOn E secure calls log sched) {i : Nat} {op : Op}
    (h : op ∈ (effects E secure calls sched i sched.length).map Prod.snd) : ∃ j, ∃ c, (i, c) ∈ calls j ∧ c.op? = some op := by
  obtain ⟨⟨j, op'⟩, he, e⟩ := List.mem_map.1 h
  change op' = op at e
  subst e
  obtain ⟨h1, _⟩ := changes hcr i j sched.length (Nat.le_refl _)
  have hok := CrowdOk.all hcr _ (Nat.le_refl _)
  have hmem : op' ∈ ofThread j (effects E secure calls sched i sched.length) :=
    List.mem_filterMap.2 ⟨(j, op'), he, by simp⟩
  rw [h1] at hmem
  rcases List.mem_append.1 hmem with hm | hm
  · unfold successes at hm
    obtain ⟨⟨⟨i', c⟩, r⟩, hz, e1⟩ := List.mem_filterMap.1 hm
    split at e1
    · next hi =>
      obtain ⟨hi, _⟩ := hi
      change i' = i at hi
      subst hi
      exact ⟨j, c, (List.of_mem_zip hz).1, e1⟩
    · exact (nomatch e1)
  · unfold World.pend at hm
    split at hm
    · next i' hcur =>
      split at hm
      · next hi =>
        subst hi
        obtain ⟨c, hd, _⟩ := hok.busy j _ _ hcur
        have hg := drop_get hd
        unfold World.opOf at hm
        rw [hg] at hm
        refine ⟨j, c, List.mem_of_getElem? hg, ?_⟩
        simpa using hm
      · exact (nomatch hm)
    · exact (nomatch hm)

/-- **C155** If writers of a trie take turns (readers need not), the trie reads, at any moment, as after calls made one after
the other, among them every one that returned without an exception: no change is lost because other calls were ended, or
because they were ended where they were. -/
theorem C155_order (E : Env) (secure : Nat → Bool) (calls : Nat → List (Nat × Call)) (log : List Bytes)
    (h : EndedCrowd E secure calls log) (l : List Happening) (i : Nat) (ht : EndedTurns E secure calls l i) :
    ∃ ops, FromCalls calls i ops ∧ ReadsAs E ((triesAfter E secure calls l).shared.obj i) ops ∧
      ∀ (j m : Nat) (c : Call) (op : Op), (calls j)[m]? = some (i, c) → c.op? = some op →
        ((triesAfter E secure calls l).jobs j).outs[m]? = some (some (.ok .none)) → op ∈ ops := by
  obtain ⟨orders, id, n, hk⟩ := track_all (mptMachine E) (Tries.new E secure) calls (Changes i) l
  have hcr := hk.crowd h
  have hb := (hk.rounds ht).bears hcr (orders.map Prod.fst).length (Nat.le_refl _)
  have hat := hk.at (orders.map Prod.fst).length
  rw [List.length_map, List.take_length] at hat
  have hobj : (worldAt E secure (ThreadSystem.told orders) (orders.map Prod.fst) (orders.map Prod.fst).length).obj i =
      (triesAfter E secure calls l).shared.obj i := by
    rw [List.length_map]
    exact congrArg (fun s => Tries.obj s i) ((congrArg Shop.shared hat).trans hk.twin.shared)
  have hsec : ((triesAfter E secure calls l).shared.obj i).secure = secure i := by
    rw [← hobj]; exact congrFun (worldAt_secure _ _) i
  rw [hobj, ← hsec] at hb
  refine ⟨_, fun op hop => ?_, hb.reads (h.log.mono (h.all l)), fun j m c op hc hop hx => ?_⟩
  · obtain ⟨x, c, hc, e⟩ := call_of_effect hcr hop
    obtain ⟨j, hj⟩ := hk.twin.sub x _ hc
    exact ⟨j, c, hj, e⟩
  · obtain ⟨y, m', c', e1, e2, e3⟩ := hk.twin.past j m _ hx
    rw [hc] at e1
    injection e1 with e1
    subst e1
    refine effect_of_success hcr e2 hop ?_
    have ho := congrArg (fun s => Job.outs (Shop.jobs s y)) hat
    rw [List.length_map]
    exact (congrArg (·[m']?) ho).trans e3

theorem contents_all {k v : Bytes} : ∀ (ops : List Op) (m : Contents), (.update k v ∈ ops ∨ m k = some v) →
    (∀ op ∈ ops, op.key = k → op = .update k v) → contentsFrom m ops k = some v
  | [], m, h, _ => h.resolve_left List.not_mem_nil
  | op :: ops, m, h, h2 => by
    show contentsFrom (op.apply m) ops k = some v
    refine contents_all ops _ ?_ fun o ho => h2 o (.tail _ ho)
    by_cases hk : op.key = k
    · right
      rw [h2 op (.head _) hk]
      simp [Op.apply]
    · rcases h with h | h
      · rcases List.mem_cons.1 h with e | h
        · exact absurd (by rw [← e]; rfl) hk
        · exact .inl h
      · right
        cases op with
        | update k' v' => have : k ≠ k' := fun e => hk e.symm; simp [Op.apply, this, h]
        | delete k' => have : k ≠ k' := fun e => hk e.symm; simp [Op.apply, this, h]

/-- **C155** For example, what a call has stored under a key is there as long as no other call changes this key: not even a
call for this key that is ended and made again does any harm. -/
theorem C155_kept (E : Env) (secure : Nat → Bool) (calls : Nat → List (Nat × Call)) (log : List Bytes)
    (h : EndedCrowd E secure calls log) (l : List Happening) (i : Nat) (ht : EndedTurns E secure calls l i)
    (ks : List Bytes) (hks : secure i = true → CollFree E ks ∧ ∀ j c, (i, c) ∈ calls j → c.key ∈ ks)
    (j m : Nat) (k v : Bytes) (hv : v ≠ []) (hc : (calls j)[m]? = some (i, .update k v))
    (hx : ((triesAfter E secure calls l).jobs j).outs[m]? = some (some (.ok .none)))
    (honly : ∀ j' c, (i, c) ∈ calls j' → c.op? ≠ none → c.key = k → c = .update k v) :
    ((triesAfter E secure calls l).shared.obj i).get E k = .ok v := by
  obtain ⟨ops, h1, h2, h3⟩ := C155_order E secure calls log h l i ht
  have hkey : ∀ (c : Call) (op : Op), c.op? = some op → c.key = op.key := by
    intro c op e
    cases c with
    | update k v => injection e with e; subst e; rfl
    | delete k => injection e with e; subst e; rfl
    | get => exact (nomatch e)
    | contains => exact (nomatch e)
  have hsec : ((triesAfter E secure calls l).shared.obj i).secure = secure i := course_secure E secure calls l i
  have hcont : contents ops k = some v := contents_all ops _ (.inl (h3 j m _ _ hc rfl hx)) fun op hop hk => by
    obtain ⟨j', c, hc', e⟩ := h1 op hop
    have := honly j' c hc' (by rw [e]; simp) (by rw [hkey c op e]; exact hk)
    subst this
    injection e with e
    exact e.symm
  have hmem : (i, Call.update k v) ∈ calls j := List.mem_of_getElem? hc
  refine ((h2 k ?_ fun hs => ?_).1 v ⟨hcont, fun _ => ?_⟩).1
  · rw [hsec]; exact h.fits j _ hmem
  · rw [hsec] at hs
    obtain ⟨hks, hall⟩ := hks hs
    refine hks.mono fun a ha => ?_
    rcases List.mem_cons.1 ha with e | ha
    · rw [e]; exact hall j _ hmem
    · obtain ⟨op, hop, e⟩ := List.mem_map.1 ha
      obtain ⟨j', c, hc', e'⟩ := h1 op hop
      rw [← e, ← hkey c op e']
      exact hall j' c hc'
  · exact (kept_of (l := []) (m := fun _ => none) (by simp) v hcont).resolve_right hv

/-! ### Cases: two threads, one of whose calls is ended -/

/-- The event changes nothing. -/
def vain (w : Shop Tries (Nat × Call) (Nat × Prog Ans) (Option (Py Ans))) : Happening → Bool
  | .moves j => (w.jobs j).cur.isNone && (w.jobs j).rest.isEmpty
  | .ends j => (w.jobs j).cur.isNone

theorem vain_same {E : Env} {w : Shop Tries (Nat × Call) (Nat × Prog Ans) (Option (Py Ans))} {e : Happening}
    (h : vain w e = true) : (mptMachine E).happen w e = w := by
  cases e with
  | moves j =>
    simp only [vain, Bool.and_eq_true, Option.isNone_iff_eq_none, List.isEmpty_iff] at h
    simp only [Machine.happen, Machine.step, h.1, h.2]
  | ends j =>
    simp only [vain, Option.isNone_iff_eq_none] at h
    simp only [Machine.happen, h]

/-- `ok` holds in every state that two threads can reach whose calls may be ended. -/
def exploreEnds (E : Env) (ok : Shop Tries (Nat × Call) (Nat × Prog Ans) (Option (Py Ans)) → Bool) :
    Nat → Shop Tries (Nat × Call) (Nat × Prog Ans) (Option (Py Ans)) → Bool
  | 0, _ => false
  | n + 1, w => ok w && [Happening.moves 0, .ends 0, .moves 1, .ends 1].all fun e =>
      vain w e || exploreEnds E ok n ((mptMachine E).happen w e)

theorem happen_other (E : Env) (w : Shop Tries (Nat × Call) (Nat × Prog Ans) (Option (Py Ans))) (e : Happening) {a b : Nat}
    (he : e = .moves a ∨ e = .ends a) (hb : b ≠ a) : ((mptMachine E).happen w e).jobs b = w.jobs b := by
  rcases he with rfl | rfl
  · cases hc : (w.jobs a).cur with
    | none => cases hr : (w.jobs a).rest <;> simp [Machine.happen, Machine.step, hc, hr, Shop.set, hb]
    | some p =>
      cases hm : (mptMachine E).may.move w.shared p with
      | mk s' q => cases q <;> simp [Machine.happen, Machine.step, hc, hm, Shop.set, hb]
  · cases hc : (w.jobs a).cur <;> simp [Machine.happen, Shop.set, hb, hc]

theorem exploreEnds_sound {E : Env} {ok : Shop Tries (Nat × Call) (Nat × Prog Ans) (Option (Py Ans)) → Bool} {n : Nat}
    {w : Shop Tries (Nat × Call) (Nat × Prog Ans) (Option (Py Ans))} (h : exploreEnds E ok n w = true)
    (hw : ∀ j, vain w (.moves (j + 2)) = true) (l : List Happening) : ok ((mptMachine E).course l w) = true := by
  induction l generalizing n w with
  | nil =>
    cases n with
    | zero => exact (nomatch h)
    | succ n => simp only [exploreEnds, Bool.and_eq_true] at h; exact h.1
  | cons e l ih =>
    cases n with
    | zero => exact (nomatch h)
    | succ n =>
      have h0 := h
      show ok ((mptMachine E).course l ((mptMachine E).happen w e)) = true
      simp only [exploreEnds, Bool.and_eq_true, List.all_eq_true] at h
      have go : e ∈ [Happening.moves 0, .ends 0, .moves 1, .ends 1] → ok ((mptMachine E).course l ((mptMachine E).happen w e)) = true := by
        intro he
        have := h.2 e he
        rw [Bool.or_eq_true] at this
        rcases this with h1 | h1
        · rw [vain_same h1]; exact ih h0 hw
        · refine ih h1 fun j => ?_
          have hj : ((mptMachine E).happen w e).jobs (j + 2) = w.jobs (j + 2) := by
            simp only [List.mem_cons, List.not_mem_nil, or_false] at he
            rcases he with he | he | he | he
            · exact happen_other E w e (a := 0) (.inl he) (by omega)
            · exact happen_other E w e (a := 0) (.inr he) (by omega)
            · exact happen_other E w e (a := 1) (.inl he) (by omega)
            · exact happen_other E w e (a := 1) (.inr he) (by omega)
          have := hw j
          simp only [vain] at this ⊢
          rw [hj]
          exact this
      match e with
      | .moves 0 => exact go (by simp)
      | .ends 0 => exact go (by simp)
      | .moves 1 => exact go (by simp)
      | .ends 1 => exact go (by simp)
      | .moves (j + 2) => rw [vain_same (hw j)]; exact ih h0 hw
      | .ends (j + 2) =>
        have hv : vain w (.ends (j + 2)) = true := by
          have := hw j
          simp only [vain, Bool.and_eq_true] at this
          exact this.1
        rw [vain_same hv]; exact ih h0 hw

theorem rivals_ended : EndedCrowd toyEnv (fun _ => false) rivals rivalsLog where
  fits := rivals_crowd.fits
  all := by
    intro l
    have := exploreEnds_sound (E := toyEnv) (ok := fun w => w.shared.store.written.all fun x => decide (x ∈ rivalsLog)) (n := 30)
      (w := Shop.new (Tries.new toyEnv (fun _ => false)) rivals) (by decide +kernel) (fun _ => rfl) l
    simpa [triesAfter] using this
  log := rivals_crowd.log

/-- Thread 0 is ended after it has written a node; then thread 1 makes its call. -/
def cutShort : List Happening := List.replicate 3 (.moves 0) ++ [.ends 0] ++ List.replicate 10 (.moves 1)

/-- The node of the ended call is in the dict, its key is not in the trie, and the other call has done what it should. -/
example :
    let w := triesAfter toyEnv (fun _ => false) rivals cutShort
    (w.jobs 0).outs = [none] ∧ (w.jobs 1).outs = [some (.ok .none)] ∧ w.shared.store.kv.length = 2 ∧
    (w.shared.obj 0).contains toyEnv [1, 2] = .ok false ∧ (w.shared.obj 0).get toyEnv [1, 3] = .ok (bigValue 6) := by
  decide +kernel

example := C154_outcome toyEnv (fun _ => false) rivals rivalsLog rivals_ended cutShort 1 0 0 (.update [1, 3] (bigValue 6))
  (.ok .none) rfl (by decide +kernel)

/-- Ended later, in the middle of the other call: it has set the root already, which the other call then overwrites. -/
example :
    let w := triesAfter toyEnv (fun _ => false) rivals
      (List.replicate 2 (.moves 1) ++ List.replicate 4 (.moves 0) ++ [.ends 0] ++ List.replicate 10 (.moves 1))
    (w.jobs 0).outs = [none] ∧ (w.jobs 1).outs = [some (.ok .none)] ∧
    (w.shared.obj 0).contains toyEnv [1, 2] = .ok false ∧ (w.shared.obj 0).get toyEnv [1, 3] = .ok (bigValue 6) := by
  decide +kernel

theorem cutShort_turns : EndedTurns toyEnv (fun _ => false) rivals cutShort 0 := by
  have key : ∀ q, q < 15 → ¬ (((triesAfter toyEnv (fun _ => false) rivals (cutShort.take q)).jobs 0).cur.isSome = true ∧
      ((triesAfter toyEnv (fun _ => false) rivals (cutShort.take q)).jobs 1).cur.isSome = true) := by decide +kernel
  intro l1 hl j j' c c' w h1 h2 h3 h4 h5 h6
  have e : l1 = cutShort.take l1.length := List.prefix_iff_eq_take.1 hl
  have hk := key l1.length (Nat.lt_succ_of_le hl.length_le)
  rw [← e] at hk
  match j, j' with
  | 0, 0 => rfl
  | 1, 1 => rfl
  | 0, 1 => exact absurd ⟨h1, h4⟩ hk
  | 1, 0 => exact absurd ⟨h4, h1⟩ hk
  | j + 2, _ => simp [rivals] at h2
  | _, j' + 2 => simp [rivals] at h5

example : ((triesAfter toyEnv (fun _ => false) rivals cutShort).shared.obj 0).get toyEnv [1, 3] = .ok (bigValue 6) := by
  refine C155_kept toyEnv (fun _ => false) rivals rivalsLog rivals_ended cutShort 0 cutShort_turns [] (fun h => (nomatch h)) 1 0
    [1, 3] (bigValue 6) (by simp [bigValue]) rfl (by decide +kernel) ?_
  intro j' c hc _ hk
  match j' with
  | 0 =>
    simp only [rivals, List.mem_singleton] at hc
    injection hc with _ hc
    subst hc
    exact absurd hk (by decide)
  | 1 =>
    simp only [rivals, List.mem_singleton] at hc
    injection hc with _ hc
  | j' + 2 => exact absurd hc List.not_mem_nil

/-- Thread 0 stores a value and reads it; thread 1 stores one and reads both. -/
def storing : Nat → List ECall
  | 0 => [.update [1, 2] (.bytes [5]), .get [1, 2]]
  | 1 => [.update [1, 3] (.bytes [6]), .get [1, 3], .get [1, 2]]
  | _ => []

/-- The first call of thread 0 is ended when the trie is changed and the data storage is not. -/
def halfStored : List Happening :=
  List.replicate 4 (.moves 0) ++ [.ends 0] ++ List.replicate 30 (.moves 1) ++ List.replicate 20 (.moves 0)

/-- Then nobody gets its value, and the value of the other thread is there. -/
example : ((emptAfter toyEnv false storing halfStored).jobs 0).outs = [none, some (.error .keyError)] := by
  decide +kernel

example : ((emptAfter toyEnv false storing halfStored).jobs 1).outs =
    [some (.ok .none), some (.ok (.value (.bytes [6]))), some (.error .keyError)] := by decide +kernel

example : (emptAfter toyEnv false storing halfStored).shared.iter = [[1, 3]] := by decide +kernel

example : ∃ j, .update [1, 3] (.bytes [6]) ∈ storing j :=
  (C154_value toyEnv false storing halfStored [1, 3] (.bytes [6]) (.inr ⟨1, 1, rfl, by decide +kernel⟩)).2

example : [1, 3] ∈ (emptAfter toyEnv false storing halfStored).shared.iter :=
  (C154_listed toyEnv false storing halfStored [1, 3] (.bytes [6]) 1 0 rfl (by decide +kernel) fun j' h => by
    match j' with
    | 0 => simp [storing] at h
    | 1 => simp [storing] at h
    | j' + 2 => exact absurd h List.not_mem_nil).2.1

end Pymt.Props
