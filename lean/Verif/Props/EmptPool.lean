import Verif.Lemmas.EmptPool
import Verif.Lemmas.EmptPoolFree
import Verif.Spec.ToyEmpt
import Verif.Props.Threads

/-!
# Properties C168 and C169: threads, each with an `EMPT` of its own, over the same two dicts
-/

namespace Pymt.Props

/-- **C168** (full statement) Threads, each with an `EMPT` of its own, all made with the same trie storage and the same data
storage (as all that are made without arguments are): in any interleaving the calls of each have the outcomes they would
have if the thread were alone. -/
def C168 : Prop :=
  ∀ (E : Env) (secure : Nat → Bool) (calls : Nat → List ECall) (log : List Bytes),
    (∀ j, ∀ c ∈ calls j, Fits E (secure j) c.key) →
    (∀ j, ∀ x ∈ (ECall.seqAll E (calls j) (EMPT.new E (secure j))).2.trie.store.written, x ∈ log) → LogOk E log →
    ∀ (sched : List Nat) (j : Nat),
      (((EPool.new E secure calls).run E sched).threads j).outs <+:
        (ECall.seqAll E (calls j) (EMPT.new E (secure j))).1

/-- What is proved: so it is when no key is used by two threads, apart from calls of `contains`.  When a thread has made all its calls, its root is the one
it would have had, and so are the values of its keys.  Missing: threads that use the same key (`C168_false`). -/
theorem C168_partial (E : Env) (secure : Nat → Bool) (calls : Nat → List ECall) (log : List Bytes)
    (hd : ∀ i j, i ≠ j → ∀ c ∈ calls i, ∀ c' ∈ calls j, c.key = c'.key → c = .contains c.key ∨ c' = .contains c'.key)
    (hf : ∀ j, ∀ c ∈ calls j, Fits E (secure j) c.key)
    (ha : ∀ j, ∀ x ∈ (ECall.seqAll E (calls j) (EMPT.new E (secure j))).2.trie.store.written, x ∈ log) (hl : LogOk E log)
    (sched : List Nat) (j : Nat) :
    let w := (EPool.new E secure calls).run E sched
    let own := ECall.seqAll E (calls j) (EMPT.new E (secure j))
    (w.threads j).outs <+: own.1 ∧
    ((w.threads j).cur = none → (w.threads j).rest = [] →
      (w.threads j).outs = own.1 ∧ w.roots j = own.2.trie.root ∧
      ∀ c ∈ calls j, c ≠ .contains c.key → dget w.data c.key = dget own.2.data c.key) := by
  intro w own
  have hok : PoolOk E log (fun j => (calls j).filterMap ECall.dataKey?) secure
      (fun j => ECall.seqAll E (calls j) (EMPT.new E (secure j))) w := by
    refine (PoolOk.new E log secure calls hf).run hl (fun i j hij k hk hk' => ?_) ha sched
    obtain ⟨c, hc, e⟩ := List.mem_filterMap.1 hk
    obtain ⟨c', hc', e'⟩ := List.mem_filterMap.1 hk'
    have h1 : c.key = k := by cases c <;> simp_all [ECall.dataKey?]
    have h2 : c'.key = k := by cases c' <;> simp_all [ECall.dataKey?]
    rcases hd i j hij c hc c' hc' (h1.trans h2.symm) with h | h
    · rw [h] at e; exact nomatch e
    · rw [h] at e'; exact nomatch e'
  obtain ⟨s, hs⟩ := hok.thread j
  cases hcur : (w.threads j).cur with
  | none =>
    obtain ⟨_, ho⟩ := hs.idle hcur
    refine ⟨⟨_, (congrArg Prod.fst ho).symm⟩, fun _ hr => ?_⟩
    rw [hr] at ho
    simp only [ECall.seqAll, List.append_nil] at ho
    have h2 : own.2 = s := congrArg Prod.snd ho
    refine ⟨(congrArg Prod.fst ho).symm, ?_, fun c hc hn => ?_⟩
    · rw [h2]; exact hs.within.root
    · rw [h2]
      refine hs.within.data _ (List.mem_filterMap.2 ⟨c, hc, ?_⟩)
      cases c <;> first | rfl | exact absurd rfl hn
  | some p =>
    obtain ⟨_, _, _, ho⟩ := hs.busy p hcur
    exact ⟨⟨_, (congrArg Prod.fst ho).symm⟩, fun h => (nomatch h)⟩

/-! ### Cases -/

/-- Calls of two threads with different keys, and `contains` of a key of the other. -/
def poolCalls : Nat → List ECall
  | 0 => [.update [1, 2] (.bytes [5]), .get [1, 2], .update [1, 3] (.bytes [6]), .delete [1, 2], .get [1, 2], .get [1, 3],
    .contains [1, 7]]
  | 1 => [.update [1, 7] sampleObj, .get [1, 7], .contains [3], .delete [3], .get [1, 7]]
  | _ => []

/-- All the nodes both would write. -/
def poolLog : List Bytes :=
  (ECall.seqAll toyEnv (poolCalls 0) (EMPT.new toyEnv true)).2.trie.store.written ++
    (ECall.seqAll toyEnv (poolCalls 1) (EMPT.new toyEnv true)).2.trie.store.written

-- The hypotheses of `C168_partial`.
example : (∀ i j, i ≠ j → ∀ c ∈ poolCalls i, ∀ c' ∈ poolCalls j, c.key = c'.key → c = .contains c.key ∨ c' = .contains c'.key) ∧
    (∀ j, ∀ c ∈ poolCalls j, Fits toyEnv true c.key) ∧
    (∀ j, ∀ x ∈ (ECall.seqAll toyEnv (poolCalls j) (EMPT.new toyEnv true)).2.trie.store.written, x ∈ poolLog) ∧
    LogOk toyEnv poolLog := by
  refine ⟨fun i j => ?_, fun j => ?_, fun j => ?_, logOk_of (by decide +kernel)⟩
  · match i, j with
    | 0, 0 => exact fun h => absurd rfl h
    | 0, 1 => exact fun _ => by decide
    | 1, 0 => exact fun _ => by decide
    | 1, 1 => exact fun h => absurd rfl h
    | 0, n + 2 => exact fun _ _ _ _ h => nomatch h
    | 1, n + 2 => exact fun _ _ _ _ h => nomatch h
    | n + 2, _ => exact fun _ _ h => nomatch h
  · match j with
    | 0 => decide
    | 1 => decide
    | n + 2 => exact fun _ h => nomatch h
  · match j with
    | 0 => exact fun _ => List.mem_append_left _
    | 1 => exact fun _ => List.mem_append_right _
    | n + 2 => exact fun _ h => absurd h List.not_mem_nil

/-- A run that switches threads after every access. -/
def poolRun : EPool := (EPool.new toyEnv (fun _ => true) poolCalls).run toyEnv (zigzag 80)

-- Both threads come to their end.
example : (poolRun.threads 0).outs =
      [.ok .none, .ok (.value (.bytes [5])), .ok .none, .ok .none, .error .keyError, .ok (.value (.bytes [6])),
        .ok (.bool false)] ∧
    (poolRun.threads 0).cur.isNone = true ∧ (poolRun.threads 0).rest = [] ∧
    (poolRun.threads 1).outs =
      [.ok .none, .ok (.value sampleObj), .ok (.bool false), .error .keyNotFound, .ok (.value sampleObj)] ∧
    (poolRun.threads 1).cur.isNone = true ∧ (poolRun.threads 1).rest = [] := by decide +kernel

/-! ### The same key -/

/-- A thread stores a value and reads it; another stores a value under the same key, in an object of its own. -/
def clashCalls : Nat → List ECall
  | 0 => [.update [1, 2] (.bytes [5]), .get [1, 2]]
  | 1 => [.update [1, 2] (.bytes [6])]
  | _ => []

/-- All the nodes both would write. -/
def clashLog : List Bytes :=
  (ECall.seqAll toyEnv (clashCalls 0) (EMPT.new toyEnv false)).2.trie.store.written ++
    (ECall.seqAll toyEnv (clashCalls 1) (EMPT.new toyEnv false)).2.trie.store.written

/-- The first thread stores its value; then the other makes its call; then the first reads. -/
def clashSched : List Nat := List.replicate 6 0 ++ List.replicate 6 1 ++ List.replicate 20 0

/-- The first thread has lost its value, though nobody else has used its object. -/
theorem C168_lost : (((EPool.new toyEnv (fun _ => false) clashCalls).run toyEnv clashSched).threads 0).outs =
      [.ok .none, .error .invalidReference] ∧
    (ECall.seqAll toyEnv (clashCalls 0) (EMPT.new toyEnv false)).1 = [.ok .none, .ok (.value (.bytes [5]))] := by
  decide +kernel

theorem C168_false : ¬ C168 := by
  intro h
  have := h toyEnv (fun _ => false) clashCalls clashLog
    (fun j => by
      match j with
      | 0 => decide
      | 1 => decide
      | n + 2 => exact fun _ h => nomatch h)
    (fun j => by
      match j with
      | 0 => exact fun _ => List.mem_append_left _
      | 1 => exact fun _ => List.mem_append_right _
      | n + 2 => exact fun _ h => absurd h List.not_mem_nil)
    (logOk_of (by decide +kernel)) clashSched 0
  rw [C168_lost.1, C168_lost.2] at this
  revert this
  decide

/-! ## What the others cannot do -/

theorem zip_hist {h : List (ECall × Py EAns)} {l : List ECall} : (h.map (·.1) ++ l).zip (h.map (·.2)) = h := by
  induction h with
  | nil => simp
  | cons e h ih => simp [ih]

/-- **C169** Threads, each with an `EMPT` of its own over the same two dicts, with any keys, and in any interleaving.  The others
can make a `get` raise KeyError or InvalidReferenceError and a `delete` raise KeyError, and nothing else: `contains` is
always right; `update` succeeds whenever it would alone; `get` returns only what the thread itself stored last under that key
(up to the class of the value, and unless two hashes are equal); and between calls the root of the thread is the one of an
`EMPT` to which only those of its own changes were made that did not raise. -/
theorem C169 (E : Env) (secure : Nat → Bool) (calls : Nat → List ECall) (log : List Bytes)
    (hP : PoolPeace E secure calls log) (sched : List Nat) (j : Nat) :
    let w := (EPool.new E secure calls).run E sched
    let hist := (calls j).zip (w.threads j).outs
    (w.threads j).outs.length ≤ (calls j).length ∧
    (∀ (p : Nat) (c : ECall) (r : Py EAns), hist[p]? = some (c, r) → c.Fair E (econtents (changesMade (hist.take p))) r) ∧
    ((w.threads j).cur = none → w.roots j = (EMPT.after E (secure j) (changesMade hist)).trie.root) := by
  intro w hist
  obtain ⟨h, t, hs⟩ := ((FreeOk.new E log secure calls).run hP sched).thread j
  have hcalls : ∃ l, calls j = h.map (·.1) ++ l := by
    cases hcur : (w.threads j).cur with
    | none => exact ⟨_, (hs.idle hcur).1⟩
    | some p => obtain ⟨c, e, _⟩ := hs.busy p hcur; exact ⟨_, e⟩
  obtain ⟨l, hl⟩ := hcalls
  have ho : (w.threads j).outs = h.map (·.2) := hs.outs
  have e : hist = h := by
    show (calls j).zip (w.threads j).outs = h
    rw [ho, hl, zip_hist]
  rw [e]
  refine ⟨?_, hs.fair, fun hcur => ?_⟩
  · rw [ho, hl]; simp
  · have hm := (hs.idle hcur).2
    rw [← hm.eq]
    exact hs.inside.root

/-- All the parts of a list. -/
def parts {α : Type} : List α → List (List α)
  | [] => [[]]
  | a :: l => parts l ++ (parts l).map (a :: ·)

theorem mem_parts {α : Type} {l l' : List α} (h : l'.Sublist l) : l' ∈ parts l := by
  induction h with
  | slnil => simp [parts]
  | cons a _ ih => exact List.mem_append_left _ ih
  | cons_cons a _ ih => exact List.mem_append_right _ (List.mem_map_of_mem ih)

/-- Two threads that use the same keys. -/
def rivalCalls : Nat → List ECall
  | 0 => [.update [1, 2] (.bytes [5]), .get [1, 2], .update [1, 3] (.bytes [7]), .contains [1, 3], .delete [1, 2]]
  | 1 => [.update [1, 2] (.bytes [6]), .get [1, 2], .delete [1, 2], .get [1, 3]]
  | _ => []

/-- All the nodes that any of their changes could write. -/
def rivalLog : List Bytes :=
  (parts ((rivalCalls 0).filterMap ECall.op?) ++ parts ((rivalCalls 1).filterMap ECall.op?)).flatMap fun done =>
    (EMPT.after toyEnv false done).trie.store.written

-- The hypothesis of `C169`.
example : PoolPeace toyEnv (fun _ => false) rivalCalls rivalLog where
  fits j := by
    match j with
    | 0 => decide
    | 1 => decide
    | n + 2 => exact fun _ h => nomatch h
  apart j := by
    match j with
    | 0 => unfold KeysApart; decide
    | 1 => unfold KeysApart; decide
    | n + 2 => exact fun _ h => nomatch h
  size j k v h := by
    match j with
    | 0 =>
      simp [rivalCalls] at h
      rcases h with ⟨rfl, rfl⟩ | ⟨rfl, rfl⟩ <;> decide
    | 1 =>
      simp [rivalCalls] at h
      obtain ⟨rfl, rfl⟩ := h
      decide
    | n + 2 => exact nomatch h
  all j done h x hx := by
    refine List.mem_flatMap.2 ⟨done, ?_, hx⟩
    match j with
    | 0 => exact List.mem_append_left _ (mem_parts h)
    | 1 => exact List.mem_append_right _ (mem_parts h)
    | n + 2 =>
      have := mem_parts h
      simp [rivalCalls, parts] at this
      subst this
      decide
  log := logOk_of (by decide +kernel)

/-- They take turns, after every access. -/
def rivalRun : EPool := (EPool.new toyEnv (fun _ => false) rivalCalls).run toyEnv (zigzag 60)

-- Calls that the other made fail, and calls that did not.
example : (rivalRun.threads 0).outs =
      [.ok .none, .error .invalidReference, .ok .none, .ok (.bool true), .error .keyError] ∧
    (rivalRun.threads 1).outs = [.ok .none, .ok (.value (.bytes [6])), .ok .none, .error .valueError] := by decide +kernel

end Pymt.Props
