import Verif.Lemmas.Collect
import Verif.Props.Partial
import Verif.Props.Storage
import Verif.Lemmas.Reopen

/-!
# Properties C90, C91: removing nodes that are no longer in use

`Reaches`, `Collected`, `Tidy`, `Depot` are defined in `Verif/Spec/Collect.lean`, `outcomes` in `Verif/Spec/Partial.lean`.
-/

namespace Pymt
namespace Props

/-- C90, calls: with removals of unreachable nodes at any time, every call ends as without, and the root is the same. -/
theorem C90_history {E : Env} {secure : Bool} {ops : List Op} (hf : ∀ op ∈ ops, Fits E secure op.key)
    (hl : LogOk E (MPT.after E secure ops).store.written)
    {outs : List (Py Unit)} {t : MPT} (h : Tidy E secure ops outs t) :
    outs = outcomes E ops (MPT.new E secure) ∧ t.root = (MPT.after E secure ops).root ∧
    t.rootHash E = (MPT.after E secure ops).rootHash E ∧
    ∀ k v, dget t.store.kv k = some v → dget (MPT.after E secure ops).store.kv k = some v := by
  obtain ⟨h1, h2, -⟩ := h.under hf hl
  exact ⟨h1, h2.root, by unfold MPT.rootHash; rw [h2.root], h2.sub⟩

/-- C90, queries: lookups and proofs are the same as without removals. -/
theorem C90_query {E : Env} {secure : Bool} {ops : List Op} {k : Bytes} (hf : ∀ op ∈ ops, Fits E secure op.key)
    (hk : Fits E secure k) (hl : LogOk E (MPT.after E secure ops).store.written)
    {outs : List (Py Unit)} {t : MPT} (h : Tidy E secure ops outs t) :
    t.get E k = (MPT.after E secure ops).get E k ∧
    t.contains E k = (MPT.after E secure ops).contains E k ∧
    (∀ now, t.getPoi E now k = (MPT.after E secure ops).getPoi E now k) ∧
    (∀ now, t.getPoe E now k = (MPT.after E secure ops).getPoe E now k) ∧
    (∀ p, t.verifyPoi E p = (MPT.after E secure ops).verifyPoi E p) ∧
    (∀ p, t.verifyPoe E p = (MPT.after E secure ops).verifyPoe E p) := by
  obtain ⟨-, h2, h3⟩ := h.under hf hl
  have hlt : LogOk E t.store.written := hl.mono h2.log
  have h4 := Bears.after hf hl
  have hs := after_secure E secure ops
  obtain ⟨n1, n2, n3, n4⟩ := h3.holds.never_key hlt (k := k) (fits_nibs (by rwa [h2.secure, hs]))
  obtain ⟨q1, q2, q3, q4⟩ := h4.holds.never_key hl (k := k) (fits_nibs (by rwa [hs]))
  have ha := h2.alike
  refine ⟨?_, ?_, fun now => ?_, fun now => ?_, fun p => ha.verifyPoi p, fun p => ha.verifyPoe p⟩
  · by_cases hn : T.grow .empty (ops.map (Op.mapKey (effective E secure))) = .empty
    · have g1 := h3.holds
      rw [hn] at g1
      have none1 : dget (MPT.after E secure ops).store.kv (emptyHash E) = none := by
        cases hd : dget (MPT.after E secure ops).store.kv (emptyHash E) with
        | none => rfl
        | some v =>
          obtain ⟨e1, e2⟩ := h4.holds.good _ _ hd
          have hc := ((Sound.new E secure).run ops hl.size).chain.mem e2
          rw [← hl.coll _ List.mem_cons_self v (List.mem_cons_of_mem _ e2) e1] at hc
          exact absurd hc.1 (by decide)
      have none2 : dget t.store.kv (emptyHash E) = none := by
        cases hd : dget t.store.kv (emptyHash E) with
        | none => rfl
        | some v => rw [h2.sub _ _ hd] at none1; simp at none1
      unfold MPT.get
      rw [ha.keyOf, show t.rootFalsy = (MPT.after E secure ops).rootFalsy by unfold MPT.rootFalsy; rw [h2.root],
        ← h2.root]
      rcases g1.root with ⟨_, e | e⟩ | ⟨e, _⟩
      · rw [show (MPT.after E secure ops).rootFalsy = true by unfold MPT.rootFalsy; rw [← h2.root, e]; rfl]
        rfl
      · rw [e]
        simp only [Option.getD_some]
        have h32 : (emptyHash E).length = 32 := E.keccak_len _
        congr 1
        cases E.limit with
        | zero => rfl
        | succ f => simp [MPT.getAux, MPT.getNode, h32, dgetItem, none1, none2]
      · exact absurd rfl e
    · rcases ha.get (E := E) k with h | h | h
      · exact absurd h (n1 hn)
      · exact absurd h (q1 hn)
      · exact h
  · rcases ha.contains (E := E) k with h | h | h
    · exact absurd h n2
    · exact absurd h q2
    · exact h
  · rcases ha.getPoi (E := E) now k with h | h | h
    · exact absurd h (n3 now)
    · exact absurd h (q3 now)
    · exact h
  · rcases ha.getPoe (E := E) now k with h | h | h
    · exact absurd h (n4 now)
    · exact absurd h (q4 now)
    · exact h

/-- C90, nothing less will do: unless the trie is new, every node of 32 bytes and more that can be reached is in the
storage, and without it the lookup of some key that was written and is present raises KeyError. -/
theorem C90_needed {E : Env} {secure : Bool} {ops : List Op} (hf : ∀ op ∈ ops, Fits E secure op.key)
    (hl : LogOk E (MPT.after E secure ops).store.written) {outs : List (Py Unit)} {t : MPT}
    (h : Tidy E secure ops outs t) {root r : Bytes} (hr : t.root = some root) (hnew : root ≠ emptyHash E)
    (hreach : Reaches t.store.kv root r) (h32 : r.length = 32) :
    dget t.store.kv r ≠ none ∧
    ∃ k v, contents ops k = some v ∧ t.get E k = .ok v ∧
      ∀ t' : MPT, t'.root = t.root → t'.secure = t.secure →
        (∀ x w, dget t'.store.kv x = some w → dget t.store.kv x = some w) →
        dget t'.store.kv r = none → t'.get E k = .error .keyError := by
  obtain ⟨-, h2, h3⟩ := h.under hf hl
  have g1 := h3.holds
  obtain ⟨hn, hroot⟩ : T.grow .empty (ops.map (Op.mapKey (effective E secure))) ≠ .empty ∧
      root = T.ref E (T.grow .empty (ops.map (Op.mapKey (effective E secure)))) := by
    rcases g1.root with ⟨_, e | e⟩ | ⟨e0, e⟩
    · rw [hr] at e; exact (nomatch e)
    · rw [hr] at e; injection e with e; exact absurd e hnew
    · rw [hr] at e; injection e with e; exact ⟨e0, e⟩
  subst hroot
  obtain ⟨p, v, h5, h6⟩ := g1.needed h3.full hn hreach h32
  obtain ⟨k, hk, rfl⟩ := T.grow_sub h5
  have hfk : Fits E secure k := by
    obtain ⟨op, ho, he⟩ := List.mem_map.1 (contents_some_mem hk)
    rw [← he]
    exact hf op ho
  have hsec : t.secure = secure := by rw [h2.secure, after_secure]
  have hkey : t.keyOf E k = effective E secure k := by simp [keyOf_eq, effective, hsec]
  have hlen : (toNibs (t.keyOf E k)).length < E.limit := fits_nibs (by rwa [hsec])
  have hget : t.get E k = .ok v := by
    rw [g1.get hn hlen, hkey]
    exact T.getT_of_lookup h3.full.shape h5
  have lost : ∀ t' : MPT, t'.root = t.root → t'.secure = t.secure →
      (∀ x w, dget t'.store.kv x = some w → dget t.store.kv x = some w) →
      dget t'.store.kv r = none → t'.get E k = .error .keyError := by
    intro t' e1 e2 e3 e4
    have hal : Alike t' t := ⟨e1, e2, fun x v w hv hw => by rw [e3 x v hv] at hw; injection hw⟩
    rw [g1.get_light hn hal hlen, hkey]
    exact h6 _ e4
  refine ⟨fun hd => ?_, k, v, hk, hget, lost⟩
  have := lost t rfl rfl (fun _ _ h => h) hd
  rw [hget] at this
  simp at this

/-- A history without removals is one. -/
theorem tidy_plain (E : Env) (secure : Bool) (ops : List Op) :
    ∃ outs, Tidy E secure ops outs (MPT.after E secure ops) := by
  have key : ∀ l : List Op, ∃ outs, Tidy E secure l.reverse outs (MPT.after E secure l.reverse) := by
    intro l
    induction l with
    | nil => exact ⟨_, .new⟩
    | cons op l ih =>
      obtain ⟨outs, h⟩ := ih
      rw [List.reverse_cons, after_append]
      exact ⟨_, h.call op⟩
  have := key ops.reverse
  rwa [List.reverse_reverse] at this

/-- The trie of the examples, after an update that leaves nodes behind. -/
def untidyOps : List Op := partialOps ++ [.update [0x99] (bigValue 4)]

/-- The marks of a collector: the root and what four rounds of following references add. -/
def marks (t : MPT) : List Bytes :=
  let grow := fun K : List Bytes => (K ++ K.flatMap (oneStep t.store.kv)).eraseDups
  grow (grow (grow (grow (grow [t.root.getD []]))))

/-- The trie after a collection. -/
def swept : MPT :=
  let t := MPT.after toyEnv false untidyOps
  { t with store := { t.store with kv := t.store.kv.filter fun e => (marks t).contains e.1 } }

/-- The hypotheses of C90 are met by a history with a collection that removes nodes, followed by a call. -/
example : Valid toyEnv false (untidyOps ++ [.delete [0x12, 0x34]]) [[0x99]] ∧
    Collected (MPT.after toyEnv false untidyOps) swept ∧
    swept.store.kv.length < (MPT.after toyEnv false untidyOps).store.kv.length ∧
    (MPT.exec toyEnv (.delete [0x12, 0x34]) swept).1 = .ok () ∧
    swept.get toyEnv [0x99] = .ok (bigValue 4) ∧
    (∃ root, swept.root = some root ∧ root.length = 32 ∧ Reaches swept.store.kv root root) :=
  ⟨valid_of (by decide +kernel), collected_of (by decide +kernel) (by decide +kernel), by decide +kernel,
    by decide +kernel, by decide +kernel, swept.root.getD [], by decide +kernel, by decide +kernel, .root⟩

/-- Such a history. -/
example : ∃ outs, Tidy toyEnv false (untidyOps ++ [.delete [0x12, 0x34]]) outs
    (MPT.exec toyEnv (.delete [0x12, 0x34]) swept).2 := by
  obtain ⟨outs, h⟩ := tidy_plain toyEnv false untidyOps
  exact ⟨_, .call (.collect h (collected_of (K := marks (MPT.after toyEnv false untidyOps)) (by decide +kernel)
    (by decide +kernel))) _⟩

/-- A history with an empty value that is lost (C25). -/
def lossyOps : List Op := [.update [1, 2] [], .update [0x99] (bigValue 3), .update [1, 2, 3] (bigValue 5),
  .update [0x99] (bigValue 4)]

/-- The hypotheses of C90 are met by it, and a collection removes nodes. -/
example : (∀ op ∈ lossyOps, Fits toyEnv false op.key) ∧
    LogOk toyEnv (MPT.after toyEnv false lossyOps).store.written ∧
    (let t := MPT.after toyEnv false lossyOps
     let t' : MPT := { t with store := { t.store with kv := t.store.kv.filter fun e => (marks t).contains e.1 } }
     Collected t t' ∧ t'.store.kv.length < t.store.kv.length ∧
     t'.contains toyEnv [1, 2] = .ok false ∧ t'.get toyEnv [1, 2, 3] = .ok (bigValue 5) ∧
     (MPT.exec toyEnv (.delete [1, 2]) t').1 = .error .assertion) :=
  ⟨by decide +kernel, logOk_of (by decide +kernel), collected_of (by decide +kernel) (by decide +kernel),
    by decide +kernel, by decide +kernel, by decide +kernel, by decide +kernel⟩

/-! ### C91: several objects over one dict, snapshots -/

theorem depot_bears {E : Env} {hist : Nat → List Op} {w : Shared} (h : Depot E hist w)
    (hl : LogOk E w.store.written) (i : Nat) : (∀ op ∈ hist i, Fits E (w.obj i).secure op.key) ∧
    Bears E (w.obj i) (T.grow .empty ((hist i).map (Op.mapKey (effective E (w.obj i).secure)))) := by
  induction h generalizing i with
  | new secure => exact ⟨fun _ h => (nomatch h), Bears.new E (secure i)⟩
  | @call hist w _ j op hf ih =>
    have hl0 : LogOk E w.store.written := log_of_replay (Shared.exec_store (E := E) (i := j) (op := op) (w := w)) hl
    rw [Shared.exec_secure]
    obtain ⟨ih1, ih2⟩ := ih hl0 i
    by_cases e : i = j
    · subst e
      dsimp only
      rw [if_pos rfl, Shared.obj_exec_same]
      have he : T.grow .empty ((hist i ++ [op]).map (Op.mapKey (effective E (w.obj i).secure))) =
          (T.grow .empty ((hist i).map (Op.mapKey (effective E (w.obj i).secure)))).act
            (op.mapKey (effective E (w.obj i).secure)) := by
        unfold T.grow
        rw [List.map_append, List.foldl_append]; rfl
      rw [he]
      refine ⟨fun o ho => ?_, ih2.exec hf (by rw [← Shared.obj_exec_same]; exact hl)⟩
      rcases List.mem_append.1 ho with ho | ho
      · exact ih1 o ho
      · rw [List.mem_singleton.1 ho]; exact hf
    · dsimp only
      rw [if_neg e, Shared.obj_exec_ne E e]
      exact ⟨ih1, ih2.holds.withStore Shared.exec_store hl, ih2.full⟩
  | @fork hist w _ j l ih =>
    by_cases e : i = l
    · subst e
      have : (w.fork E j i).obj i = MPT.init E w.store (w.obj j).root (w.obj j).secure := by
        simp [Shared.fork, Shared.obj, MPT.init]
      dsimp only
      rw [if_pos rfl, this]
      exact ⟨(ih hl j).1, (ih hl j).2.reopen ⟨[], rfl⟩ hl _⟩
    · have : (w.fork E j l).obj i = w.obj i := by
        simp [Shared.fork, Shared.obj, e]
      dsimp only
      rw [if_neg e, this]
      exact ih hl i
  | @collect hist w st _ hc ih =>
    have hl0 : LogOk E w.store.written := by
      have := (hc 0).log
      rw [show w.store.written = (w.obj 0).store.written from rfl, ← this]; exact hl
    exact ⟨(ih hl0 i).1, (ih hl0 i).2.collected (hc i)⟩

/-- C91: every object answers, and goes on, as an object with a storage of its own that saw the same calls and no
removals. -/
theorem C91_objects {E : Env} {hist : Nat → List Op} {w : Shared} (h : Depot E hist w)
    (hl : LogOk E w.store.written) {i : Nat} {k : Bytes} (hf : Fits E (w.obj i).secure k)
    (hlo : LogOk E (MPT.after E (w.obj i).secure (hist i)).store.written) :
    let own := MPT.after E (w.obj i).secure (hist i)
    (w.obj i).rootHash E = own.rootHash E ∧ (w.obj i).contains E k = own.contains E k ∧
    (∀ v, (w.obj i).get E k = .ok v ↔ own.get E k = .ok v) ∧
    (∀ k', own.contains E k' = .ok true → (w.obj i).get E k = own.get E k) ∧
    (∀ now, (w.obj i).getPoi E now k = own.getPoi E now k) ∧
    (∀ now, (w.obj i).getPoe E now k = own.getPoe E now k) ∧
    ∀ op, Fits E (w.obj i).secure op.key → LogOk E (MPT.exec E op (w.obj i)).2.store.written →
      LogOk E (MPT.exec E op own).2.store.written → (MPT.exec E op (w.obj i)).1 = (MPT.exec E op own).1 := by
  intro own
  obtain ⟨hff, ⟨h1, h3⟩⟩ := depot_bears h hl i
  obtain ⟨h2, -⟩ := Bears.after hff hlo
  have hs : (w.obj i).secure = own.secure := (after_secure _ _ _).symm
  have hf' : Fits E own.secure k := hs ▸ hf
  have hk : own.keyOf E k = (w.obj i).keyOf E k := by simp [keyOf_eq, hs]
  have hrh : (w.obj i).rootHash E = own.rootHash E := h1.rootHash.trans h2.rootHash.symm
  obtain ⟨o1, o2⟩ := h1.observe h2 hs hl hlo hf
  refine ⟨hrh, o1, o2, fun k' hk' => ?_, fun now => ?_, fun now => ?_, fun op hop l1 l2 => h1.outcome h2 hs hop l1 l2⟩
  · have hn := h2.ne_of_contains hlo hk'
    rw [h1.get hn (fits_nibs hf), h2.get hn (fits_nibs hf'), hk]
  · generalize T.grow .empty ((hist i).map (Op.mapKey (effective E (w.obj i).secure))) = a at h1 h2
    by_cases hn : a = .empty
    · subst hn; rw [h1.getPoi_empty hl, h2.getPoi_empty hlo]
    · rw [h1.getPoi hl hn (fits_nibs hf), h2.getPoi hlo hn (fits_nibs hf'), hk]
  · generalize T.grow .empty ((hist i).map (Op.mapKey (effective E (w.obj i).secure))) = a at h1 h2
    by_cases hn : a = .empty
    · subst hn; rw [h1.getPoe_empty hl, h2.getPoe_empty hlo]
    · rw [h1.getPoe hl hn (fits_nibs hf), h2.getPoe hlo hn (fits_nibs hf'), hk, hrh]

/-- C91, in terms of contents: what the calls of an object wrote can be read, whatever the others did and whatever
was removed. -/
theorem C91_value {E : Env} {hist : Nat → List Op} {w : Shared} (h : Depot E hist w)
    (hl : LogOk E w.store.written) {i : Nat} {k v : Bytes} (hv : Valid E (w.obj i).secure (hist i) [k])
    (hk : contents (hist i) k = some v) : (w.obj i).get E k = .ok v ∧ (w.obj i).contains E k = .ok true := by
  obtain ⟨-, q1, q2, -⟩ := C91_objects h hl (hv.fitsq k (by simp)) hv.log
  refine ⟨(q2 v).2 (C02_get hv hk), ?_⟩
  rw [q1, C01_contains_partial hv (.inr (.inl (by simp [hk]))), hk]; rfl

/-- A mark-and-sweep collector for several objects, given the marks. -/
theorem shared_collected {w : Shared} {K : List Bytes} (h0 : ∀ i root, (w.objs i).1 = some root → root ∈ K)
    (hK : ∀ r ∈ K, ∀ r' ∈ oneStep w.store.kv r, r' ∈ K) (i : Nat) :
    Collected (w.obj i)
      { w.obj i with store := { w.store with kv := w.store.kv.filter fun e => K.contains e.1 } } :=
  collected_of (t := w.obj i) (h0 i) hK

theorem depot_sweep {E : Env} {hist : Nat → List Op} {w : Shared} (h : Depot E hist w) {K : List Bytes}
    (h0 : ∀ i root, (w.objs i).1 = some root → root ∈ K) (hK : ∀ r ∈ K, ∀ r' ∈ oneStep w.store.kv r, r' ∈ K) :
    Depot E hist { w with store := { w.store with kv := w.store.kv.filter fun e => K.contains e.1 } } :=
  h.collect (shared_collected h0 hK)

/-- The trie objects of the example: object 0 writes, object 1 is made as a snapshot, object 0 goes on. -/
def depotBefore : Shared :=
  Shared.exec toyEnv 0 (.update [0x99] (bigValue 5)) <| Shared.exec toyEnv 0 (.update [0x99] (bigValue 4)) <|
    Shared.fork toyEnv 0 1 <| Shared.exec toyEnv 0 (.update [0x99] (bigValue 3)) <|
    Shared.exec toyEnv 0 (.update [0x12, 0x34] (bigValue 1)) (Shared.new toyEnv fun _ => false)

/-- What the collector of the example keeps. -/
def depotMarks : List Bytes := emptyHash toyEnv :: (marks (depotBefore.obj 0) ++ marks (depotBefore.obj 1))

/-- The dict after the collection. -/
def depotStore : Store :=
  { depotBefore.store with kv := depotBefore.store.kv.filter fun e => depotMarks.contains e.1 }

/-- The calls behind object 0 and object 1. -/
def depotHist (l : Nat) : List Op :=
  if l = 0 then [.update [0x12, 0x34] (bigValue 1), .update [0x99] (bigValue 3), .update [0x99] (bigValue 4),
    .update [0x99] (bigValue 5)]
  else if l = 1 then [.update [0x12, 0x34] (bigValue 1), .update [0x99] (bigValue 3)] else []

theorem depot_before : ∃ hist, Depot toyEnv hist depotBefore ∧ hist 0 = depotHist 0 ∧ hist 1 = depotHist 1 := by
  have step : ∀ {hist : Nat → List Op} {w : Shared} (_ : Depot toyEnv hist w) (op : Op),
      Fits toyEnv (w.obj 0).secure op.key →
      Depot toyEnv (fun j => if j = 0 then hist 0 ++ [op] else hist j) (Shared.exec toyEnv 0 op w) :=
    fun h op h1 => .call h 0 op h1
  have h1 := step (.new fun _ => false) (.update [0x12, 0x34] (bigValue 1)) (by decide +kernel)
  have h2 := step h1 (.update [0x99] (bigValue 3)) (by decide +kernel)
  have h3 := h2.fork 0 1
  have h4 := step h3 (.update [0x99] (bigValue 4)) (by decide +kernel)
  have h5 := step h4 (.update [0x99] (bigValue 5)) (by decide +kernel)
  exact ⟨_, h5, rfl, rfl⟩

/-- The hypotheses of C91 are met. -/
theorem depot_example : ∃ hist, Depot toyEnv hist { depotBefore with store := depotStore } ∧
    hist 0 = depotHist 0 ∧ hist 1 = depotHist 1 := by
  obtain ⟨hist, h, e⟩ := depot_before
  have hK : ∀ r ∈ depotMarks, ∀ r' ∈ oneStep depotBefore.store.kv r, r' ∈ depotMarks := by decide +kernel
  unfold depotStore
  refine ⟨hist, depot_sweep h ?_ hK, e⟩
  have m0 : (depotBefore.objs 0).1.getD [] ∈ depotMarks := by decide +kernel
  have m1 : (depotBefore.objs 1).1.getD [] ∈ depotMarks := by decide +kernel
  intro i root hr
  by_cases c0 : i = 0
  · rw [c0] at hr; rwa [hr] at m0
  by_cases c1 : i = 1
  · rw [c1] at hr; rwa [hr] at m1
  have other : ∀ (op : Op) (w : Shared), (Shared.exec toyEnv 0 op w).objs i = w.objs i :=
    fun op w => by simp [Shared.exec, c0]
  have : (depotBefore.objs i).1 = some (emptyHash toyEnv) := by
    unfold depotBefore
    rw [other, other, show ∀ w, (Shared.fork toyEnv 0 1 w).objs i = w.objs i from
      fun w => by simp [Shared.fork, c1], other, other]
    rfl
  rw [hr] at this
  rw [Option.some.inj this, depotMarks]
  exact List.mem_cons_self

/-- The collection removes nodes, and the snapshot still has the old value. -/
example : LogOk toyEnv depotStore.written ∧ depotStore.kv.length < depotBefore.store.kv.length ∧
    Valid toyEnv false (depotHist 1) [[0x99]] ∧
    (({ depotBefore with store := depotStore } : Shared).obj 1).get toyEnv [0x99] = .ok (bigValue 3) :=
  ⟨logOk_of (by decide +kernel), by decide +kernel, valid_of (by decide +kernel), by decide +kernel⟩

end Props
end Pymt
