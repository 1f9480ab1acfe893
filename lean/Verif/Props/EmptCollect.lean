import Verif.Spec.EmptCollect
import Verif.Model.EmptProofs
import Verif.Spec.ToyEmpt
import Verif.Props.Collect
import Verif.Lemmas.Empt
import Verif.Props.Empt

/-!
# Property C107: removing nodes that are no longer in use from the trie storage of an `EMPT`

`Reaches` and `Collected` are defined in `Verif/Spec/Collect.lean`, `ETidy` in `Verif/Spec/EmptCollect.lean`.
-/

namespace Pymt

/-- The trie of an `EMPT` with removals is a trie with removals. -/
private theorem ETidy.tidy {E : Env} {secure : Bool} {ops : List EOp} (hf : ∀ op ∈ ops, Fits E secure op.key)
    (hl : LogOk E (EMPT.after E secure ops).trie.store.written) {outs : List (Py Unit)} {s : EMPT}
    (h : ETidy E secure ops outs s) :
    outs = EMPT.outcomes E ops (EMPT.new E secure) ∧ s.data = (EMPT.after E secure ops).data ∧
    ∃ l outs', (∀ op ∈ l, Fits E secure op.key) ∧ Tidy E secure l outs' s.trie ∧
      (EMPT.after E secure ops).trie = MPT.after E secure l ∧
      (EValid E secure ops [] → ∀ k, contents l k = contents (refOps E ops) k) := by
  induction h with
  | new => exact ⟨rfl, rfl, [], [], fun _ h => (nomatch h), .new, rfl, fun _ _ => rfl⟩
  | @call ops outs s _ op ih =>
    have e : EMPT.after E secure (ops ++ [op]) = (EMPT.exec E op (EMPT.after E secure ops)).2 := by
      rw [EMPT.after_append]; rfl
    have hl0 : LogOk E (EMPT.after E secure ops).trie.store.written := by
      obtain ⟨l, h⟩ := EMPT.exec_trie E op (EMPT.after E secure ops)
      refine log_of_replay (run_writes E l _) ?_
      rw [← h, ← e]; exact hl
    obtain ⟨h1, h2, l, outs', h3, h4, h5, h6⟩ := ih (fun o ho => hf o (List.mem_append_left _ ho)) hl0
    have hop : Fits E secure op.key := hf op (by simp)
    have key : ∀ (l : List EOp) (s : EMPT), EMPT.outcomes E (l ++ [op]) s =
        EMPT.outcomes E l s ++ [(EMPT.exec E op (EMPT.run E l s)).1] := by
      intro l
      induction l with
      | nil => intro s; rfl
      | cons o l ih => intro s; simp only [List.cons_append, EMPT.outcomes, ih]; rfl
    have keyM : ∀ (o : Op) (l : List Op) (s : MPT), outcomes E (l ++ [o]) s =
        outcomes E l s ++ [(MPT.exec E o (MPT.run E l s)).1] := by
      intro o l
      induction l with
      | nil => intro s; rfl
      | cons o l ih => intro s; simp only [List.cons_append, outcomes, ih]; rfl
    -- one call on the trie has the same outcome with and without removals
    have one : ∀ o : Op, o.key = op.key →
        LogOk E (MPT.exec E o (EMPT.after E secure ops).trie).2.store.written →
        (∀ x ∈ l ++ [o], Fits E secure x.key) ∧ Tidy E secure (l ++ [o]) (outs' ++ [(MPT.exec E o s.trie).1]) (MPT.exec E o s.trie).2 ∧
        (MPT.exec E o (EMPT.after E secure ops).trie).2 = MPT.after E secure (l ++ [o]) ∧
        (MPT.exec E o s.trie).1 = (MPT.exec E o (EMPT.after E secure ops).trie).1 := by
      intro o ho hlo
      have e' : (MPT.exec E o (EMPT.after E secure ops).trie).2 = MPT.after E secure (l ++ [o]) := by
        rw [h5, after_append]; rfl
      have hfl : ∀ x ∈ l ++ [o], Fits E secure x.key := by
        intro x hx
        rcases List.mem_append.1 hx with hx | hx
        · exact h3 x hx
        · rw [List.mem_singleton.1 hx, ho]; exact hop
      have ht := h4.call o
      obtain ⟨g1, -⟩ := Props.C90_history hfl (e' ▸ hlo) ht
      obtain ⟨g2, -⟩ := Props.C90_history h3 (h5 ▸ hl0) h4
      rw [keyM, g2] at g1
      refine ⟨hfl, ht, e', ?_⟩
      have := List.append_cancel_left g1
      rw [h5]
      exact List.cons.inj this |>.1
    suffices H : (EMPT.exec E op s).1 = (EMPT.exec E op (EMPT.after E secure ops)).1 ∧
        (EMPT.exec E op s).2.data = (EMPT.exec E op (EMPT.after E secure ops)).2.data ∧
        ∃ l outs', (∀ op ∈ l, Fits E secure op.key) ∧ Tidy E secure l outs' (EMPT.exec E op s).2.trie ∧
          (EMPT.exec E op (EMPT.after E secure ops)).2.trie = MPT.after E secure l ∧
          (EValid E secure (ops ++ [op]) [] → ∀ k, contents l k = contents (refOps E (ops ++ [op])) k) by
      obtain ⟨H1, H2, H3⟩ := H
      refine ⟨?_, e ▸ H2, e ▸ H3⟩
      rw [key, h1, H1]; rfl
    rw [e] at hl
    clear e ih key keyM h1 hf
    have hmir : EValid E secure (ops ++ [op]) [] → (∀ k, contents l k = contents (refOps E ops) k) ∧
        Valid E secure (refOps E ops) [op.key] ∧ (EMPT.after E secure ops).trie = MPT.after E secure (refOps E ops) ∧
        ∀ k, dget (EMPT.after E secure ops).data k = econtents ops k := by
      intro hv
      have hc := hv.cut
      have hm := hc.mirror
      have hc' : EValid E secure ops [] := ⟨hc.fits, fun _ h => (nomatch h), hc.sizes, hc.log,
        fun hs => (hc.keys hs).mono fun a ha => List.mem_append_right _ ha⟩
      exact ⟨h6 hc', hc.valid hm, hm.trie, hm.data⟩
    generalize hS : EMPT.after E secure ops = S at *
    have same : (EMPT.exec E op s).1 = (EMPT.exec E op S).1 →
        (EMPT.exec E op s).2 = s → (EMPT.exec E op S).2 = S →
        (EValid E secure (ops ++ [op]) [] → ∀ k, contents (refOps E ops) k = contents (refOps E (ops ++ [op])) k) →
        (EMPT.exec E op s).1 = (EMPT.exec E op S).1 ∧ (EMPT.exec E op s).2.data = (EMPT.exec E op S).2.data ∧
        ∃ l outs', (∀ op ∈ l, Fits E secure op.key) ∧ Tidy E secure l outs' (EMPT.exec E op s).2.trie ∧
          (EMPT.exec E op S).2.trie = MPT.after E secure l ∧
          (EValid E secure (ops ++ [op]) [] → ∀ k, contents l k = contents (refOps E (ops ++ [op])) k) := by
      intro e1 e2 e3 e4
      rw [e2, e3]
      exact ⟨e1, h2, l, outs', h3, h4, h5, fun hv k => ((hmir hv).1 k).trans (e4 hv k)⟩
    cases op with
    | update k v =>
      by_cases hv : v.storable = true
      · have u1 := EMPT.update_storable (E := E) (k := k) hv s
        have u2 := EMPT.update_storable (E := E) (k := k) hv S
        have hlo : LogOk E (MPT.exec E (.update k (refOf E k v)) S.trie).2.store.written := by
          simp only [EMPT.exec, u2] at hl
          simp only [MPT.exec]
          revert hl
          cases MPT.update E k (refOf E k v) S.trie with
          | mk r t => cases r <;> exact id
        obtain ⟨o1, o2, o3, o4⟩ := one (.update k (refOf E k v)) rfl hlo
        simp only [MPT.exec] at o2 o3 o4
        simp only [EMPT.exec]
        rw [u1, u2]
        have con : EValid E secure (ops ++ [.update k v]) [] → ∀ x, contents (l ++ [.update k (refOf E k v)]) x =
            contents (refOps E (ops ++ [.update k v])) x := by
          intro hev x
          rw [refOps_append, contents_append, contents_append, funext (hmir hev).1]
          simp [refOps, refOp, hv]
        revert o2 o3 o4
        cases MPT.update E k (refOf E k v) s.trie with
        | mk r t =>
          cases MPT.update E k (refOf E k v) S.trie with
          | mk r' t' =>
            intro o2 o3 o4
            simp only at o2 o3 o4
            subst o4
            cases r with
            | error e => exact ⟨rfl, h2, _, _, o1, o2, o3, con⟩
            | ok u => exact ⟨rfl, by simp only [h2], _, _, o1, o2, o3, con⟩
      · have hv : v.storable = false := by simpa using hv
        have : EMPT.exec E (.update k v) s = ((EMPT.exec E (.update k v) S).1, s) ∧
            EMPT.exec E (.update k v) S = ((EMPT.exec E (.update k v) S).1, S) := by
          match v, hv with
          | .bytearray b, _ => exact ⟨rfl, rfl⟩
          | .obj i false _ enc, _ => exact ⟨rfl, rfl⟩
          | .obj i true false enc, _ => exact ⟨rfl, rfl⟩
        exact same (by rw [this.1]) (by rw [this.1]) (by rw [this.2]) fun _ x => by
          rw [refOps_append]
          simp [refOps, refOp, hv]
    | delete k =>
      have d1 := EMPT.delete_eq E k s
      have d2 := EMPT.delete_eq E k S
      have hc : s.trie.contains E k = S.trie.contains E k := by
        rw [h5]
        exact (Props.C90_query h3 hop (h5 ▸ hl0) h4).2.1
      rw [hc, h2] at d1
      have con : contents (l ++ [.delete k]) = Op.apply (contents l) (.delete k) := by
        rw [contents_append]; rfl
      have conr : contents (refOps E (ops ++ [.delete k])) = Op.apply (contents (refOps E ops)) (.delete k) := by
        rw [refOps_append, contents_append]; rfl
      have gone : contents (refOps E ops) k = none →
          ∀ x, contents (refOps E ops) x = contents (refOps E (ops ++ [.delete k])) x := by
        intro hn x
        rw [conr]
        simp only [Op.apply]
        split
        · rename_i e; rw [e, hn]
        · rfl
      have absent : EValid E secure (ops ++ [.delete k]) [] → S.trie.contains E k ≠ .ok true →
          contents (refOps E ops) k = none := by
        intro hev hcn
        obtain ⟨-, m2, m3, -⟩ := hmir hev
        cases hq : contents (refOps E ops) k with
        | none => rfl
        | some w =>
          have := Props.C01_contains_partial m2 (.inr (.inl (by simp only [EOp.key]; rw [hq]; rfl)))
          simp only [EOp.key] at this
          rw [hq, ← m3] at this
          exact absurd this hcn
      revert d1 d2
      cases hcon : S.trie.contains E k with
      | error e =>
        exact fun d1 d2 => same (by simp only [EMPT.exec, d1, d2]) (by simp only [EMPT.exec, d1])
          (by simp only [EMPT.exec, d2]) fun hev => gone (absent hev (by simp [hcon]))
      | ok b =>
        cases b with
        | false =>
          exact fun d1 d2 => same (by simp only [EMPT.exec, d1, d2]) (by simp only [EMPT.exec, d1])
            (by simp only [EMPT.exec, d2]) fun hev => gone (absent hev (by simp [hcon]))
        | true =>
          cases hd : dget S.data k with
          | none =>
            exact fun d1 d2 => same (by simp only [EMPT.exec, d1, d2]) (by simp only [EMPT.exec, d1])
              (by simp only [EMPT.exec, d2]) fun hev => gone (by
                rw [contents_refOps, ← (hmir hev).2.2.2, hd]; rfl)
          | some x =>
            intro d1 d2
            simp only at d1 d2
            obtain ⟨o1, o2, o3, o4⟩ := one (.delete k) rfl (by simp only [EMPT.exec, d2] at hl; exact hl)
            simp only [EMPT.exec, d1, d2]
            exact ⟨o4, by first | rfl | simp only [h2], _, _, o1, o2, o3, fun hev x => by
              rw [con, conr, funext (hmir hev).1]⟩
  | collect _ hc ih =>
    obtain ⟨h1, h2, l, outs', h3, h4, h5, h6⟩ := ih hf hl
    exact ⟨h1, h2, l, outs', h3, h4.collect hc, h5, h6⟩

namespace Props

/-- C107, calls: with removals of unreachable nodes at any time, every call ends as without, and root, data storage,
iteration and length are the same. -/
theorem C107_history {E : Env} {secure : Bool} {ops : List EOp} (hf : ∀ op ∈ ops, Fits E secure op.key)
    (hl : LogOk E (EMPT.after E secure ops).trie.store.written)
    {outs : List (Py Unit)} {s : EMPT} (h : ETidy E secure ops outs s) :
    outs = EMPT.outcomes E ops (EMPT.new E secure) ∧ s.trie.root = (EMPT.after E secure ops).trie.root ∧
    s.trie.rootHash E = (EMPT.after E secure ops).trie.rootHash E ∧
    s.data = (EMPT.after E secure ops).data ∧ s.iter = (EMPT.after E secure ops).iter ∧
    s.len = (EMPT.after E secure ops).len := by
  obtain ⟨h1, h2, l, outs', h3, h4, h5, -⟩ := h.tidy hf hl
  obtain ⟨-, g2, g3, -⟩ := C90_history h3 (h5 ▸ hl) h4
  rw [← h5] at g2 g3
  exact ⟨h1, g2, g3, h2, by unfold EMPT.iter; rw [h2], by unfold EMPT.len; rw [h2]⟩

/-- C107, queries: lookups, references and proofs are the same as without removals. -/
theorem C107_query {E : Env} {secure : Bool} {ops : List EOp} {k : Bytes} (hf : ∀ op ∈ ops, Fits E secure op.key)
    (hk : Fits E secure k) (hl : LogOk E (EMPT.after E secure ops).trie.store.written)
    {outs : List (Py Unit)} {s : EMPT} (h : ETidy E secure ops outs s) :
    s.get E k = (EMPT.after E secure ops).get E k ∧
    s.contains E k = (EMPT.after E secure ops).contains E k ∧
    EMPT.getReference E s.trie k = EMPT.getReference E (EMPT.after E secure ops).trie k ∧
    (∀ now, s.getPoi E now k = (EMPT.after E secure ops).getPoi E now k) ∧
    (∀ now, s.getPoe E now k = (EMPT.after E secure ops).getPoe E now k) ∧
    (∀ p, s.verifyPoi E p = (EMPT.after E secure ops).verifyPoi E p) ∧
    (∀ p, s.verifyPoe E p = (EMPT.after E secure ops).verifyPoe E p) := by
  obtain ⟨-, h2, l, outs', h3, h4, h5, -⟩ := h.tidy hf hl
  obtain ⟨g1, g2, g3, g4, g5, g6⟩ := C90_query h3 hk (h5 ▸ hl) h4
  rw [← h5] at g1 g2 g3 g4 g5 g6
  refine ⟨?_, g2, ?_, g3, g4, g5, g6⟩
  · unfold EMPT.get; rw [h2, g1]
  · unfold EMPT.getReference; rw [g1]

/-- C107, iteration: the pairs are the same as without removals. -/
theorem C107_items {E : Env} {secure : Bool} {ops : List EOp} (h : EValid E secure ops [])
    {outs : List (Py Unit)} {s : EMPT} (ht : ETidy E secure ops outs s) :
    s.items E = (EMPT.after E secure ops).items E := by
  have hi := (C107_history h.fits h.log ht).2.2.2.2.1
  have hm := h.mirror
  have key : ∀ l : List Bytes, (∀ k ∈ l, econtents ops k ≠ none) →
      (l.mapM fun key => do let v ← s.get E key; return (key, v)) =
      (l.mapM fun key => do let v ← (EMPT.after E secure ops).get E key; return (key, v)) := by
    intro l
    induction l with
    | nil => intro _; rfl
    | cons k l ih =>
      intro hl
      have hf : Fits E secure k := by
        cases hv : econtents ops k with
        | none => exact absurd hv (hl k (by simp))
        | some v => exact h.fits _ (econtents_some_mem hv)
      rw [List.mapM_cons, List.mapM_cons, (C107_query h.fits hf h.log ht).1, ih fun x hx => hl x (List.mem_cons_of_mem _ hx)]
  unfold EMPT.items
  rw [hi]
  refine key _ fun k hk => ?_
  rw [← hm.data]
  exact mem_keys_iff.1 hk

/-- C107, nothing less will do: unless the trie is new, every node of 32 bytes and more that can be reached is in the
trie storage, and without it reading some key that is present raises KeyError. -/
theorem C107_needed {E : Env} {secure : Bool} {ops : List EOp} (h : EValid E secure ops [])
    {outs : List (Py Unit)} {s : EMPT} (ht : ETidy E secure ops outs s) {root r : Bytes}
    (hr : s.trie.root = some root) (hnew : root ≠ emptyHash E)
    (hreach : Reaches s.trie.store.kv root r) (h32 : r.length = 32) :
    dget s.trie.store.kv r ≠ none ∧
    ∃ k v, econtents ops k = some v ∧ s.get E k = .ok v ∧
      ∀ s' : EMPT, s'.data = s.data → s'.trie.root = s.trie.root → s'.trie.secure = s.trie.secure →
        (∀ x w, dget s'.trie.store.kv x = some w → dget s.trie.store.kv x = some w) →
        dget s'.trie.store.kv r = none → s'.get E k = .error .keyError := by
  obtain ⟨-, h2, l, outs', h3, h4, h5, h6⟩ := ht.tidy h.fits h.log
  obtain ⟨g1, k, w, g2, g3, g4⟩ := C90_needed h3 (h5 ▸ h.log) h4 hr hnew hreach h32
  rw [h6 h, contents_refOps] at g2
  cases hv : econtents ops k with
  | none => rw [hv] at g2; exact (nomatch g2)
  | some v =>
    have hd : dget (EMPT.after E secure ops).data k = some v := by rw [h.mirror.data, hv]
    refine ⟨g1, k, v, hv, ?_, fun s' e1 e2 e3 e4 e5 => ?_⟩
    · have hf : Fits E secure k := h.fits _ (econtents_some_mem hv)
      rw [(C107_query h.fits hf h.log ht).1]
      have hq : EValid E secure ops [k] := ⟨h.fits, fun x hx => by rw [List.mem_singleton.1 hx]; exact hf, h.sizes, h.log,
        fun hs => (h.keys hs).mono fun a ha => by
          rcases List.mem_append.1 ha with ha | ha
          · rw [List.mem_singleton.1 ha]
            exact List.mem_map.2 ⟨_, econtents_some_mem hv, rfl⟩
          · exact ha⟩
      exact (C27_mapping_partial hq).1 v hv
    · unfold EMPT.get
      rw [e1, h2]
      simp only [dgetItem, hd, Except.bind_ok', g4 s'.trie e2 e3 e4 e5, Except.bind_error']

/-- The history of the examples: an update that leaves nodes behind, an object, and a delete. -/
private def untidyEOps : List EOp :=
  [.update [0x12, 0x34] (.bytes (bigValue 1)), .update [0x12, 0x35] (.obj 7 true true [1]),
   .update [0x77] (.bytes []), .update [0x12, 0x34] (.bytes (bigValue 2)), .delete [0x77]]

/-- The object after a collection. -/
private def sweptE : EMPT :=
  let s := EMPT.after toyEnv false untidyEOps
  { s with trie := { s.trie with store :=
      { s.trie.store with kv := s.trie.store.kv.filter fun e => (marks s.trie).contains e.1 } } }

/-- The hypotheses of C107 are met by a history with a collection that removes nodes, followed by a call. -/
example : EValid toyEnv false (untidyEOps ++ [.delete [0x12, 0x35]]) [] ∧
    Collected (EMPT.after toyEnv false untidyEOps).trie sweptE.trie ∧
    sweptE.trie.store.kv.length < (EMPT.after toyEnv false untidyEOps).trie.store.kv.length ∧
    (EMPT.exec toyEnv (.delete [0x12, 0x35]) sweptE).1 = .ok () ∧
    sweptE.get toyEnv [0x12, 0x34] = .ok (.bytes (bigValue 2)) ∧
    (∃ root, sweptE.trie.root = some root ∧ root.length = 32 ∧ root ≠ emptyHash toyEnv ∧
      Reaches sweptE.trie.store.kv root root) :=
  ⟨evalid_of (by decide +kernel), collected_of (by decide +kernel) (by decide +kernel), by decide +kernel,
    by decide +kernel, by decide +kernel, sweptE.trie.root.getD [], by decide +kernel, by decide +kernel,
    by decide +kernel, .root⟩

/-- Such a history. -/
example : ∃ outs, ETidy toyEnv false (untidyEOps ++ [.delete [0x12, 0x35]]) outs
    (EMPT.exec toyEnv (.delete [0x12, 0x35]) sweptE).2 := by
  have key : ∀ l : List EOp, ∃ outs, ETidy toyEnv false l.reverse outs (EMPT.after toyEnv false l.reverse) := by
    intro l
    induction l with
    | nil => exact ⟨_, .new⟩
    | cons op l ih =>
      obtain ⟨outs, h⟩ := ih
      rw [List.reverse_cons, EMPT.after_append]
      exact ⟨_, h.call op⟩
  obtain ⟨outs, h⟩ := key untidyEOps.reverse
  rw [List.reverse_reverse] at h
  exact ⟨_, .call (.collect h (collected_of (K := marks (EMPT.after toyEnv false untidyEOps).trie) (by decide +kernel)
    (by decide +kernel))) _⟩

end Props
end Pymt
