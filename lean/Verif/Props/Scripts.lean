import Verif.Lemmas.Scripts
import Verif.Spec.Toy
import Verif.Spec.ToyEmpt

/-!
# Properties C152 and C153: programs with a trie, an `EMPT` or a `SparseEMPT` of their own, over one dict
-/

namespace Pymt.Props

/-- **C152** Programs that run in threads, each with a trie of its own, all tries over one dict: whatever they compute and
however the choice of their calls depends on the answers, in any interleaving each notes what it would note alone, in the
same order; and when it has ended, its trie has the root it would have had. -/
theorem C152 {β : Type} (E : Env) (secure : Nat → Bool) (program : Nat → Script β) (log : List Bytes)
    (h : Private E secure program log) (sched : List Nat) (j : Nat) :
    let w := ((mptThreads E).choosing (Script.choice program) sched (World.new E secure fun _ => [])).1
    let own := (program j).alone E (MPT.new E (secure j))
    (program j).noted (w.threads j).outs <+: own.1 ∧
    ((w.threads j).cur = none → (program j).next (w.threads j).outs = none →
      (program j).noted (w.threads j).outs = own.1 ∧ w.roots j = own.2.root) := by
  intro w own
  have hok := ScriptsOk.run h sched
  obtain ⟨hle, hout⟩ := ScriptsOk.outs h sched hok j
  refine ⟨?_, fun hcur hn => ?_⟩
  · show (program j).noted (w.threads j).outs <+: _
    rw [hout]
    exact (Script.noted_answers E _ _ _).1
  · have hall : ((program j).calls E (MPT.new E (secure j))).length ≤ (w.threads j).outs.length := by
      rw [hout, Script.next_answers E _ _ _ hle] at hn
      exact List.getElem?_eq_none_iff.1 hn
    refine ⟨?_, ?_⟩
    · rw [hout]
      exact (Script.noted_answers E _ _ _).2 hall
    · obtain ⟨s', _, _, hroots, h3⟩ := C151_mpt E secure (Script.choice program) sched
      obtain ⟨h4, h5, _⟩ := h3 j
      have := ((C86 E secure _ log (h.peaceful hok.calls) s' j).2 (h5.trans hcur)).1
      rw [hroots, h4] at this
      refine this.trans ?_
      obtain ⟨n, hm⟩ := hok.calls j
      have hl := hok.length j
      rw [hcur] at hl
      simp only [Option.isSome_none, Bool.false_eq_true, if_false, Nat.add_zero] at hl
      have hn' : ((program j).calls E (MPT.new E (secure j))).length ≤ n := by
        have hl : (((((program j).calls E (MPT.new E (secure j))).take n).map (j, ·)).length : Nat) =
            (w.threads j).outs.length := hm ▸ hl
        simp at hl
        omega
      rw [← hl, List.take_length, hm, writesOf_own, List.take_of_length_le hn']
      show _ = ((program j).alone E _).2.root
      rw [Script.alone_state]
      rfl

/-! ### `SparseEMPT` and `EMPT` -/

theorem map_map_none {α γ : Type} (r : Py α) (x : γ) : ((r.map fun _ => Ans.none).map fun _ => x) = r.map fun _ => x := by
  cases r <;> rfl

theorem sparseScript_alone (E : Env) : ∀ (cs : List SCall) (t : MPT), (sparseScript E cs).alone E t = SCall.seqAll E cs t
  | [], _ => rfl
  | c :: cs, t => by
    have key : ∀ (k : Py SAns → Script (Py SAns)), (c.script E k).alone E t = (k (c.seq E t).1).alone E (c.seq E t).2 := by
      intro k
      cases c with
      | update key v =>
        cases v with
        | bytes b =>
          have e : Sparse.update E key (.bytes b) t = MPT.update E key (DataRef.encode E ⟨key, b⟩) t := rfl
          simp only [SCall.script, DataRef.ofValue, Script.alone, Call.seq, SCall.seq, e, map_map_none]
        | bytearray b => rfl
        | obj i a b enc => cases a <;> rfl
      | delete key =>
        simp only [SCall.script, Script.alone, Call.seq, SCall.seq, Sparse.delete, M.bind_apply, M.get, M.lift]
        cases h : t.contains E key with
        | error e => rfl
        | ok b =>
          cases b with
          | false => rfl
          | true => exact congrArg (fun x => (k x).alone E _) (map_map_none _ _)
      | reference key =>
        simp only [SCall.script, Script.alone, Call.seq, SCall.seq, EMPT.getReference]
        cases h : t.get E key with
        | error e => rfl
        | ok v => rfl
      | contains key =>
        simp only [SCall.script, Script.alone, Call.seq, SCall.seq]
        cases h : t.contains E key with
        | error e => rfl
        | ok v => rfl
    simp only [sparseScript, key, Script.alone, SCall.seqAll, sparseScript_alone E cs]

theorem emptScript_alone (E : Env) : ∀ (cs : List ECall) (s : EMPT),
    (emptScript E s.data cs).alone E s.trie = ((ECall.seqAll E cs s).1, (ECall.seqAll E cs s).2.trie)
  | [], _ => rfl
  | c :: cs, s => by
    have key : ∀ (k : Py EAns → Dict Value → Script (Py EAns)), (c.script E s.data k).alone E s.trie =
        (k (c.seq E s).1 (c.seq E s).2.data).alone E (c.seq E s).2.trie := by
      intro k
      cases c with
      | update key v =>
        have hput : ∀ ref, (Script.call (.update key (DataRef.encode E ref)) fun
              | .ok _ => k (.ok .none) (dset s.data key v)
              | .error e => k (.error e) s.data).alone E s.trie =
            (k ((EMPT.onTrie (MPT.update E key (ref.encode E)) >>= fun _ =>
                M.modify fun s => { s with data := dset s.data key v }) s |>.1.map fun _ => .none)
              ((EMPT.onTrie (MPT.update E key (ref.encode E)) >>= fun _ =>
                M.modify fun s => { s with data := dset s.data key v }) s |>.2.data)).alone E
              ((EMPT.onTrie (MPT.update E key (ref.encode E)) >>= fun _ =>
                M.modify fun s => { s with data := dset s.data key v }) s |>.2.trie) := by
          intro ref
          simp only [Script.alone, Call.seq, M.bind_apply, EMPT.onTrie, M.modify]
          cases h : MPT.update E key (ref.encode E) s.trie with
          | mk r t => cases r <;> rfl
        cases v with
        | bytes b => exact hput _
        | bytearray b => rfl
        | obj i a b enc =>
          cases a with
          | false => rfl
          | true =>
            cases b with
            | false => rfl
            | true => exact hput _
      | delete key =>
        simp only [ECall.script, Script.alone, Call.seq, ECall.seq, EMPT.delete, M.bind_apply, M.get, M.lift]
        cases h : s.trie.contains E key with
        | error e => rfl
        | ok b =>
          cases b with
          | false => rfl
          | true =>
            show Script.alone E (match dgetItem s.data key with | .error e => _ | .ok _ => _) s.trie = _
            cases hd : dgetItem s.data key with
            | error e => simp [hd]; rfl
            | ok v =>
              simp [hd]
              exact congrArg (fun x => (k x _).alone E _) (map_map_none _ _)
      | get key =>
        simp only [ECall.script, ECall.seq, EMPT.get]
        cases hd : dgetItem s.data key with
        | error e => rfl
        | ok v =>
          simp only [Script.alone, Call.seq]
          cases h : s.trie.get E key with
          | error e => rfl
          | ok x => rfl
      | contains key =>
        simp only [ECall.script, Script.alone, Call.seq, ECall.seq, EMPT.contains]
        cases h : s.trie.contains E key with
        | error e => rfl
        | ok v => rfl
    simp only [emptScript, key, Script.alone, ECall.seqAll, emptScript_alone E cs]

theorem sparseScript_keys (E : Env) : ∀ (cs : List SCall) (t : MPT), ∀ c ∈ (sparseScript E cs).calls E t,
    ∃ c' ∈ cs, c.key = c'.key
  | [], _, c, h => by simp [sparseScript, Script.calls] at h
  | c' :: cs, t, c, h => by
    have rest : ∀ a t, c ∈ (Script.note a (sparseScript E cs)).calls E t → ∃ c'' ∈ c' :: cs, c.key = c''.key := by
      intro a t hc
      obtain ⟨x, hx, e⟩ := sparseScript_keys E cs t c hc
      exact ⟨x, by simp [hx], e⟩
    have here : c.key = c'.key → ∃ c'' ∈ c' :: cs, c.key = c''.key := fun e => ⟨c', by simp, e⟩
    cases c' with
    | update key v =>
      cases v with
      | bytes b =>
        rcases List.mem_cons.1 h with rfl | h
        · exact here rfl
        · exact rest _ _ h
      | bytearray b => exact rest _ _ h
      | obj i a b enc => cases a <;> exact rest _ _ h
    | delete key =>
      rcases List.mem_cons.1 h with rfl | h
      · exact here rfl
      · revert h
        simp only [Call.seq]
        cases t.contains E key with
        | error e => exact rest _ _
        | ok b =>
          cases b with
          | false => exact rest _ _
          | true =>
            intro h
            rcases List.mem_cons.1 h with rfl | h
            · exact here rfl
            · exact rest _ _ h
    | reference key =>
      rcases List.mem_cons.1 h with rfl | h
      · exact here rfl
      · revert h
        simp only [Call.seq]
        cases t.get E key with
        | error e => exact rest _ _
        | ok b => exact rest _ _
    | contains key =>
      rcases List.mem_cons.1 h with rfl | h
      · exact here rfl
      · revert h
        simp only [Call.seq]
        cases t.contains E key with
        | error e => exact rest _ _
        | ok b => exact rest _ _

theorem emptScript_keys (E : Env) : ∀ (cs : List ECall) (d : Dict Value) (t : MPT), ∀ c ∈ (emptScript E d cs).calls E t,
    ∃ c' ∈ cs, c.key = c'.key
  | [], _, _, c, h => by simp [emptScript, Script.calls] at h
  | c' :: cs, d, t, c, h => by
    have rest : ∀ a d t, c ∈ (Script.note a (emptScript E d cs)).calls E t → ∃ c'' ∈ c' :: cs, c.key = c''.key := by
      intro a d t hc
      obtain ⟨x, hx, e⟩ := emptScript_keys E cs d t c hc
      exact ⟨x, by simp [hx], e⟩
    have here : c.key = c'.key → ∃ c'' ∈ c' :: cs, c.key = c''.key := fun e => ⟨c', by simp, e⟩
    cases c' with
    | update key v =>
      have hput : ∀ ref, c ∈ (Script.call (.update key (DataRef.encode E ref)) fun
              | .ok _ => .note (.ok .none) (emptScript E (dset d key v) cs)
              | .error e => .note (.error e) (emptScript E d cs)).calls E t →
          ∃ c'' ∈ ECall.update key v :: cs, c.key = c''.key := by
        intro ref h
        rcases List.mem_cons.1 h with rfl | h
        · exact here rfl
        · revert h
          simp only [Call.seq]
          cases (MPT.update E key (ref.encode E) t).1 with
          | error e => exact rest _ _ _
          | ok b => exact rest _ _ _
      cases v with
      | bytes b => exact hput _ h
      | bytearray b => exact rest _ _ _ h
      | obj i a b enc =>
        cases a with
        | false => exact rest _ _ _ h
        | true =>
          cases b with
          | false => exact rest _ _ _ h
          | true => exact hput _ h
    | delete key =>
      rcases List.mem_cons.1 h with rfl | h
      · exact here rfl
      · revert h
        simp only [Call.seq]
        cases t.contains E key with
        | error e => exact rest _ _ _
        | ok b =>
          cases b with
          | false => exact rest _ _ _
          | true =>
            show c ∈ Script.calls E (match dgetItem d key with | .error e => _ | .ok _ => _) t → _
            cases dgetItem d key with
            | error e => exact rest _ _ _
            | ok v =>
              intro h
              rcases List.mem_cons.1 h with rfl | h
              · exact here rfl
              · exact rest _ _ _ h
    | get key =>
      revert h
      simp only [emptScript, ECall.script]
      cases dgetItem d key with
      | error e => exact rest _ _ _
      | ok v =>
        intro h
        rcases List.mem_cons.1 h with rfl | h
        · exact here rfl
        · revert h
          simp only [Call.seq]
          cases t.get E key with
          | error e => exact rest _ _ _
          | ok b => exact rest _ _ _
    | contains key =>
      rcases List.mem_cons.1 h with rfl | h
      · exact here rfl
      · revert h
        simp only [Call.seq]
        cases t.contains E key with
        | error e => exact rest _ _ _
        | ok b => exact rest _ _ _

/-- **C153** (`SparseEMPT`) Threads that each use a `SparseEMPT` of their own, all made with one dict (as all that are made
without arguments are): in any interleaving the calls of each have the outcomes they would have if the thread were alone,
and in the end its root is the same. -/
theorem C153_sparse (E : Env) (secure : Nat → Bool) (calls : Nat → List SCall) (log : List Bytes)
    (hf : ∀ j, ∀ c ∈ calls j, Fits E (secure j) c.key)
    (ha : ∀ j, ∀ x ∈ (SCall.seqAll E (calls j) (MPT.new E (secure j))).2.store.written, x ∈ log) (hl : LogOk E log)
    (sched : List Nat) (j : Nat) :
    let program := fun j => sparseScript E (calls j)
    let w := ((mptThreads E).choosing (Script.choice program) sched (World.new E secure fun _ => [])).1
    let own := SCall.seqAll E (calls j) (MPT.new E (secure j))
    (program j).noted (w.threads j).outs <+: own.1 ∧
    ((w.threads j).cur = none → (program j).next (w.threads j).outs = none →
      (program j).noted (w.threads j).outs = own.1 ∧ w.roots j = own.2.root) := by
  have hp : Private E secure (fun j => sparseScript E (calls j)) log := by
    refine ⟨fun j c hc => ?_, fun j x hx => ha j x ?_, hl⟩
    · obtain ⟨c', hc', e⟩ := sparseScript_keys E _ _ c hc
      rw [e]; exact hf j c' hc'
    · rwa [sparseScript_alone] at hx
  have := C152 E secure _ log hp sched j
  simp only [sparseScript_alone] at this
  exact this

/-- **C153** (`EMPT`) The same for threads that each use an `EMPT` with a data storage of its own, all with one dict as trie
storage.  (They must all be made before the first call: later the constructor raises ValueError, C33.) -/
theorem C153_empt (E : Env) (secure : Nat → Bool) (calls : Nat → List ECall) (log : List Bytes)
    (hf : ∀ j, ∀ c ∈ calls j, Fits E (secure j) c.key)
    (ha : ∀ j, ∀ x ∈ (ECall.seqAll E (calls j) (EMPT.new E (secure j))).2.trie.store.written, x ∈ log) (hl : LogOk E log)
    (sched : List Nat) (j : Nat) :
    let program := fun j => emptScript E [] (calls j)
    let w := ((mptThreads E).choosing (Script.choice program) sched (World.new E secure fun _ => [])).1
    let own := ECall.seqAll E (calls j) (EMPT.new E (secure j))
    (program j).noted (w.threads j).outs <+: own.1 ∧
    ((w.threads j).cur = none → (program j).next (w.threads j).outs = none →
      (program j).noted (w.threads j).outs = own.1 ∧ w.roots j = own.2.trie.root) := by
  have hal : ∀ j, (emptScript E [] (calls j)).alone E (MPT.new E (secure j)) =
      ((ECall.seqAll E (calls j) (EMPT.new E (secure j))).1, (ECall.seqAll E (calls j) (EMPT.new E (secure j))).2.trie) :=
    fun j => emptScript_alone E (calls j) (EMPT.new E (secure j))
  have hp : Private E secure (fun j => emptScript E [] (calls j)) log := by
    refine ⟨fun j c hc => ?_, fun j x hx => ha j x ?_, hl⟩
    · obtain ⟨c', hc', e⟩ := emptScript_keys E _ _ _ c hc
      rw [e]; exact hf j c' hc'
    · rwa [hal] at hx
  have := C152 E secure _ log hp sched j
  simp only [hal] at this
  exact this

/-! ### Cases -/

/-- Calls of two threads with a `SparseEMPT` each. -/
def sparseCalls : Nat → List SCall
  | 0 => [.update [1, 2] (.bytes [5]), .update [1, 3] sampleObj, .delete [1, 2], .delete [1, 2], .contains [1, 2]]
  | 1 => [.update [1, 2] (.bytes [6]), .reference [1, 2], .update [1, 7] (.bytes [8]), .contains [1, 3]]
  | _ => []

/-- All the nodes both would write. -/
def sparseCallsLog : List Bytes :=
  (SCall.seqAll toyEnv (sparseCalls 0) (MPT.new toyEnv false)).2.store.written ++
    (SCall.seqAll toyEnv (sparseCalls 1) (MPT.new toyEnv false)).2.store.written

-- The hypotheses of `C153_sparse` (and so those of `C152`).
example : (∀ j, ∀ c ∈ sparseCalls j, Fits toyEnv false c.key) ∧
    (∀ j, ∀ x ∈ (SCall.seqAll toyEnv (sparseCalls j) (MPT.new toyEnv false)).2.store.written, x ∈ sparseCallsLog) ∧
    LogOk toyEnv sparseCallsLog := by
  refine ⟨fun j => ?_, fun j => ?_, logOk_of (by decide +kernel)⟩
  · match j with
    | 0 => decide
    | 1 => decide
    | n + 2 => exact fun _ h => nomatch h
  · match j with
    | 0 => exact fun _ => List.mem_append_left _
    | 1 => exact fun _ => List.mem_append_right _
    | n + 2 => exact fun _ h => absurd h List.not_mem_nil

/-- A run that switches threads after every access. -/
def sparseRun : World := ((mptThreads toyEnv).choosing (Script.choice fun j => sparseScript toyEnv (sparseCalls j))
  (zigzag 60) (World.new toyEnv (fun _ => false) fun _ => [])).1

-- Both threads come to their end.
example : (sparseScript toyEnv (sparseCalls 0)).noted (sparseRun.threads 0).outs =
      [.ok .none, .error .typeError, .ok .none, .error .keyNotFound, .ok (.bool false)] ∧
    (sparseScript toyEnv (sparseCalls 1)).noted (sparseRun.threads 1).outs =
      [.ok .none, .ok (.ref ⟨[1, 2], [6]⟩), .ok .none, .ok (.bool false)] := by decide +kernel

/-- Calls of two threads with an `EMPT` each. -/
def emptCalls : Nat → List ECall
  | 0 => [.update [1, 2] (.bytes [5]), .get [1, 2], .delete [1, 2], .get [1, 2]]
  | 1 => [.update [1, 2] sampleObj, .get [1, 2], .contains [3], .delete [3]]
  | _ => []

/-- All the nodes both would write. -/
def emptCallsLog : List Bytes :=
  (ECall.seqAll toyEnv (emptCalls 0) (EMPT.new toyEnv true)).2.trie.store.written ++
    (ECall.seqAll toyEnv (emptCalls 1) (EMPT.new toyEnv true)).2.trie.store.written

-- The hypotheses of `C153_empt`.
example : (∀ j, ∀ c ∈ emptCalls j, Fits toyEnv true c.key) ∧
    (∀ j, ∀ x ∈ (ECall.seqAll toyEnv (emptCalls j) (EMPT.new toyEnv true)).2.trie.store.written, x ∈ emptCallsLog) ∧
    LogOk toyEnv emptCallsLog := by
  refine ⟨fun j => ?_, fun j => ?_, logOk_of (by decide +kernel)⟩
  · match j with
    | 0 => decide
    | 1 => decide
    | n + 2 => exact fun _ h => nomatch h
  · match j with
    | 0 => exact fun _ => List.mem_append_left _
    | 1 => exact fun _ => List.mem_append_right _
    | n + 2 => exact fun _ h => absurd h List.not_mem_nil

/-- A run that switches threads after every access. -/
def emptRun : World := ((mptThreads toyEnv).choosing (Script.choice fun j => emptScript toyEnv [] (emptCalls j))
  (zigzag 60) (World.new toyEnv (fun _ => true) fun _ => [])).1

example : (emptScript toyEnv [] (emptCalls 0)).noted (emptRun.threads 0).outs =
      [.ok .none, .ok (.value (.bytes [5])), .ok .none, .error .keyError] ∧
    (emptScript toyEnv [] (emptCalls 1)).noted (emptRun.threads 1).outs =
      [.ok .none, .ok (.value sampleObj), .ok (.bool false), .error .keyNotFound] := by decide +kernel

end Pymt.Props
