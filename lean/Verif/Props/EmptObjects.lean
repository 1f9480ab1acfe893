import Verif.Lemmas.Heap
import Verif.Lemmas.Build
import Verif.Props.Empt
import Verif.Props.Roots
import Verif.Props.Codec
import Verif.Props.Proofs
import Verif.Model.EmptProofs

/-!
# Properties C32-C35, C51-C53, and C24 for `EMPT`: objects made from each other, shared storages, `build_trie`,
inherited methods
-/

namespace Pymt
namespace Props

/-! ### C32: the sparse trie mirrors the full trie -/

/-- The full statement of the first half of C32. -/
def C32 : Prop := ∀ (E : Env) (secure : Bool) (ops : List EOp), EValid E secure ops [] →
  (Sparse.after E secure ops).root = (EMPT.after E secure ops).trie.root

/-- C32 is false: `SparseEMPT.update` raises TypeError for every object. -/
theorem C32_false : ¬ C32 := by
  intro h
  have := h toyEnv false [.update [0x12] sampleObj] (evalid_of (by decide +kernel))
  revert this
  decide +kernel

/-- C32, calls, in part: with values of type bytes (or bytearray, which both refuse) the two objects hold equal
tries after every history: same root, storage and secure flag, so all queries and proofs agree.
Missing: objects with `encode_rlp` (`C32_false`). -/
theorem C32_mirror_partial {E : Env} {secure : Bool} {ops : List EOp} (h : EValid E secure ops [])
    (hf : ∀ k v, .update k v ∈ ops → ∃ b, v = .bytes b ∨ v = .bytearray b) :
    Sparse.after E secure ops = (EMPT.after E secure ops).trie := by
  rw [h.mirror.trie]
  refine h.sparse fun k v hm => ?_
  obtain ⟨b, rfl | rfl⟩ := hf k v hm <;> rfl

example : EValid toyEnv false (sampleEOps.filter (fun op => op.key ≠ [0x99])) [] ∧
    (∀ k v, .update k v ∈ sampleEOps.filter (fun op => op.key ≠ [0x99]) → ∃ b, v = .bytes b ∨ v = .bytearray b) := by
  refine ⟨evalid_of (by decide +kernel), fun k v hm => ?_⟩
  simp only [sampleEOps, List.mem_filter, List.mem_cons, EOp.update.injEq, reduceCtorEq, List.not_mem_nil,
    or_false, false_or, EOp.key] at hm
  rcases hm with ⟨⟨_, rfl⟩ | ⟨_, rfl⟩ | ⟨h1, _⟩ | ⟨_, rfl⟩ | ⟨_, rfl⟩ | ⟨_, rfl⟩, h2⟩
  · exact ⟨_, .inl rfl⟩
  · exact ⟨_, .inl rfl⟩
  · subst h1; simp at h2
  · exact ⟨_, .inr rfl⟩
  · exact ⟨_, .inl rfl⟩
  · exact ⟨_, .inl rfl⟩

/-- C32, values: no object can be put in a `SparseEMPT`; nothing changes. -/
theorem C32_objects (E : Env) (t : MPT) (k : Bytes) (i : Nat) (a b : Bool) (enc : Bytes) :
    ∃ e, Sparse.update E k (.obj i a b enc) t = (.error e, t) := by
  cases a <;> exact ⟨_, rfl⟩

theorem init_rootHash (E : Env) (st st' : Store) (root : Option Bytes) (sec : Bool) :
    (MPT.init E st root sec).rootHash E = MPT.rootHash E ⟨st', root, sec⟩ := by
  have h32 : (emptyHash E).length = 32 := E.keccak_len _
  have hne : emptyHash E ≠ [] := fun he => by rw [he] at h32; simp at h32
  cases root with
  | none => simp [MPT.init, MPT.rootHash, hne, h32]
  | some r => rfl

/-- C32, copy: `get_sparse_trie` gives an object with the same root hash, storage entries and secure flag (and
the same `root()` unless that is None).  From then on, whatever calls are made on the two objects in
whatever order, each gives the results, and ends in the state, that it would have without the other. -/
theorem C32_copy {E : Env} {o : EObj} {h : Heap} (ho : o.Alive h) {α : Type} (cs : List (M EMPT α ⊕ M MPT α)) :
    let sp := (o.getSparse E h).1
    let h' := (o.getSparse E h).2
    let end' := runES cs o sp h'
    (o.load h' = o.load h ∧ (sp.load h').store = (o.load h).trie.store ∧ (sp.load h').secure = o.secure ∧
      (o.root ≠ none → (sp.load h').root = o.root) ∧ (sp.load h').rootHash E = (o.load h).trie.rootHash E) ∧
    (leftResults end'.1, end'.2.1.load end'.2.2.2) = runAlone (leftCalls cs) (o.load h) ∧
    (rightResults end'.1, end'.2.2.1.load end'.2.2.2) = runAlone (rightCalls cs) (sp.load h') := by
  have hlen : (o.getSparse E h).2.tries.length = h.tries.length + 1 := by simp [EObj.getSparse]
  have hload : o.load (o.getSparse E h).2 = o.load h := by
    simp only [EObj.load, Heap.trieAt, Heap.dataAt, EObj.getSparse, List.getD]
    rw [List.getElem?_append_left ho.1]
  have hsp : (o.getSparse E h).1.load (o.getSparse E h).2 = (o.load h).getSparse E := by
    simp [SObj.load, EObj.getSparse, Heap.trieAt, EMPT.getSparse, MPT.init]
  have hf := runES_frame cs (o := o) (p := (o.getSparse E h).1) (h := (o.getSparse E h).2)
    ⟨by rw [hlen]; exact Nat.lt_succ_of_lt ho.1, ho.2⟩
    (by unfold SObj.Alive; rw [hlen]; exact Nat.lt_succ_self _) (Nat.ne_of_lt ho.1)
  rw [hload] at hf
  refine ⟨⟨hload, ?_, ?_, ?_, ?_⟩, hf⟩
  · rw [hsp]; rfl
  · rw [hsp]; rfl
  · intro hr
    rw [hsp]
    cases hroot : o.root with
    | none => exact absurd hroot hr
    | some r => simp [EMPT.getSparse, MPT.init, EObj.load, hroot]
  · rw [hsp]
    exact init_rootHash E _ _ _ _

example : (⟨0, 0, some (emptyHash toyEnv), false⟩ : EObj).Alive Heap.start := ⟨by decide, by decide⟩

/-! ### C24 for the objects made from an `EMPT` -/

/-- C24: the `RootEMPT` and the `SparseEMPT` made from any `EMPT` give the same answer (value or exception) to
every proof as the `EMPT` itself. -/
theorem C24_conversions (E : Env) (s : EMPT) (p : Proof Bytes) :
    RootTrie.verifyPoi E (s.getRootTrie E) p = s.verifyPoi E p ∧
    RootTrie.verifyPoe E (s.getRootTrie E) p = s.verifyPoe E p ∧
    Sparse.verifyPoi E (s.getSparse E) p = s.verifyPoi E p ∧
    Sparse.verifyPoe E (s.getSparse E) p = s.verifyPoe E p := by
  have key : ∀ st, (MPT.init E st s.trie.root s.trie.secure).verifyPoi E p = s.trie.verifyPoi E p ∧
      (MPT.init E st s.trie.root s.trie.secure).verifyPoe E p = s.trie.verifyPoe E p := by
    intro st
    cases hr : s.trie.root with
    | none =>
      have h1 : s.trie.noRoot E = true := by simp [MPT.noRoot, hr]
      have h2 : (MPT.init E st none s.trie.secure).noRoot E = true := by simp [MPT.noRoot, MPT.init]
      constructor
      · unfold MPT.verifyPoi; simp [h1, h2]
      · unfold MPT.verifyPoe; simp [h1, h2]
    | some r =>
      refine C24_root_only E _ _ p ?_
      simp [MPT.init, hr]
  exact ⟨(key _).1, (key _).2, (key _).1, (key _).2⟩

/-- C32: the `SparseEMPT` made from any `EMPT` makes the same proofs, or raises the same exceptions. -/
theorem C32_proofs (E : Env) (s : EMPT) (now k : Bytes) :
    Sparse.getPoi E (s.getSparse E) now k = s.getPoi E now k ∧
    Sparse.getPoe E (s.getSparse E) now k = s.getPoe E now k := by
  show (s.getSparse E).getPoi E now k = s.trie.getPoi E now k ∧ (s.getSparse E).getPoe E now k = s.trie.getPoe E now k
  cases hr : s.trie.root with
  | none =>
    have h1 : s.trie.noRoot E = true := by simp [MPT.noRoot, hr]
    have h2 : (s.getSparse E).noRoot E = true := by simp [MPT.noRoot, EMPT.getSparse, MPT.init, hr]
    unfold MPT.getPoi MPT.getPoe
    simp [h1, h2]
  | some r =>
    have : s.getSparse E = s.trie := by
      cases s with
      | mk t d =>
        cases t
        simp only at hr
        simp [EMPT.getSparse, MPT.init, hr]
    rw [this]
    exact ⟨rfl, rfl⟩

/-- A copy that makes a proof. -/
example : (Sparse.getPoi toyEnv ((EMPT.after toyEnv false sampleEOps).getSparse toyEnv) [] [0x12, 0x34]).toOption.isSome =
    true := by decide +kernel

/-! ### C33: default storages -/

/-- The full statement of C33: whatever was done with a first `EMPT()`, a second one is new, and a second one
made before stays as it was. -/
def C33 : Prop := ∀ (E : Env) (ops : List EOp), EValid E false ops [] →
  ∃ o1, EObj.makeDefault E Heap.start = .ok o1 ∧
    (∃ o2, EObj.makeDefault E (EObj.call (fun s => (.ok (), EMPT.run E ops s)) o1 Heap.start).2.2 = .ok o2 ∧
      o2.load (EObj.call (fun s => (.ok (), EMPT.run E ops s)) o1 Heap.start).2.2 = EMPT.new E false)

/-- C33 is false: the second `EMPT()` raises ValueError. -/
theorem C33_false : ¬ C33 := by
  intro h
  obtain ⟨o1, h1, o2, h2, _⟩ := h toyEnv [.update [0x12] (.bytes [1])] (evalid_of (by decide +kernel))
  have e1 : EObj.makeDefault toyEnv Heap.start = .ok ⟨0, 0, some (emptyHash toyEnv), false⟩ := by decide +kernel
  rw [e1, Except.ok.injEq] at h1
  subst h1
  have e2 : EObj.makeDefault toyEnv (EObj.call
      (fun s => (.ok (), EMPT.run toyEnv [.update [0x12] (.bytes [1])] s))
      ⟨0, 0, some (emptyHash toyEnv), false⟩ Heap.start).2.2 = .error .valueError := by decide +kernel
  rw [e2] at h2
  simp at h2

/-- Whenever anything is left in the default trie storage, `EMPT()` raises ValueError. -/
theorem C33_second_raises (E : Env) (h : Heap) (hne : (h.trieAt defaultTrie).kv ≠ []) :
    EObj.makeDefault E h = .error .valueError := by
  have hl : (h.trieAt defaultTrie).kv.length ≠ 0 := by simpa using hne
  simp [EObj.makeDefault, EObj.make, EMPT.init, hl]

/-- And two objects made by `EMPT()` before any call show each other's keys: the second has the key in its
iteration, but reading it raises. -/
theorem C33_leak : ∃ o1 o2 : EObj, EObj.makeDefault toyEnv Heap.start = .ok o1 ∧
    EObj.makeDefault toyEnv Heap.start = .ok o2 ∧
    let h := (EObj.call (EMPT.update toyEnv [0x12] (.bytes [1])) o1 Heap.start).2.2
    (o2.load h).iter = [[0x12]] ∧ (o2.load h).len = 1 ∧ (o2.load h).contains toyEnv [0x12] = .ok false ∧
    ∃ e, (o2.load h).get toyEnv [0x12] = .error e :=
  ⟨⟨0, 0, some (emptyHash toyEnv), false⟩, ⟨0, 0, some (emptyHash toyEnv), false⟩, by decide +kernel,
    by decide +kernel, by decide +kernel, by decide +kernel, by decide +kernel, .keyError, by decide +kernel⟩

/-- C33 in part: two objects that were given storages of their own do not influence each other, whatever calls
are made on them in whatever order.  Missing: objects made with the default storages (`C33_false`). -/
theorem C33_independent_partial {o p : EObj} {h : Heap} (ho : o.Alive h) (hp : p.Alive h)
    (h1 : o.trieAddr ≠ p.trieAddr) (h2 : o.dataAddr ≠ p.dataAddr) {α : Type}
    (cs : List (M EMPT α ⊕ M EMPT α)) :
    let end' := runEE cs o p h
    (leftResults end'.1, end'.2.1.load end'.2.2.2) = runAlone (leftCalls cs) (o.load h) ∧
    (rightResults end'.1, end'.2.2.1.load end'.2.2.2) = runAlone (rightCalls cs) (p.load h) :=
  runEE_frame cs ho hp h1 h2

example : ∃ (o p : EObj) (h : Heap), o.Alive h ∧ p.Alive h ∧ o.trieAddr ≠ p.trieAddr ∧ o.dataAddr ≠ p.dataAddr :=
  ⟨⟨0, 0, none, false⟩, ⟨1, 1, none, true⟩, ⟨[Store.empty, Store.empty], [[], []]⟩, ⟨by decide, by decide⟩,
    ⟨by decide, by decide⟩, by decide, by decide⟩

/-! ### C34: build_trie -/

/-- The full statement of C34. -/
def C34 : Prop := ∀ (E : Env) (secure : Bool) (ops : List EOp), EValid E secure ops [] →
  ∃ s', EMPT.buildTrie E (EMPT.after E secure ops) = (.ok (), s') ∧
    s'.trie.rootHash E = (EMPT.after E secure ops).trie.rootHash E

/-- C34 is false: RuntimeError as soon as there is a node. -/
theorem C34_false : ¬ C34 := by
  intro h
  obtain ⟨s', hs, _⟩ := h toyEnv false [.update [0x12] (.bytes [1])] (evalid_of (by decide +kernel))
  have : (EMPT.buildTrie toyEnv (EMPT.after toyEnv false [.update [0x12] (.bytes [1])])).1 = .error .runtime := by
    decide +kernel
  rw [hs] at this
  simp at this

/-- `build_trie` on any object with a node in its trie storage raises RuntimeError; by then the first node is
deleted, and the root still names the old trie. -/
theorem C34_raises (E : Env) (s : EMPT) {k v : Bytes} {rest : Dict Bytes} (h : s.trie.store.kv = (k, v) :: rest) :
    (EMPT.buildTrie E s).1 = .error .runtime ∧ dget (EMPT.buildTrie E s).2.trie.store.kv k = none ∧
    (EMPT.buildTrie E s).2.trie.root = s.trie.root ∧ (EMPT.buildTrie E s).2.data = s.data := by
  have hd : EMPT.dropNodes s = (.error .runtime, { s with trie := { s.trie with store :=
      { s.trie.store with kv := ddel s.trie.store.kv k } } }) := by
    unfold EMPT.dropNodes; rw [h]
  unfold EMPT.buildTrie
  rw [M.bind_apply, hd]
  exact ⟨rfl, by simp [dget_ddel], rfl, rfl⟩

/-- After that the trie can be unusable: every key is still in the data storage, and no key can be read. -/
theorem C34_damage :
    let s := (EMPT.buildTrie toyEnv (EMPT.after toyEnv false [.update [0x12] (.bytes [1])])).2
    s.len = 1 ∧ s.get toyEnv [0x12] = .error .keyError ∧ s.contains toyEnv [0x12] = .error .keyError := by
  decide +kernel

/-- C34 in part: over an empty trie storage and the data of any history whose present values are byte strings,
`build_trie` succeeds, gives the root hash that the original had, and leaves the data as it is.
Missing: trie storages that are not empty (`C34_false`); values that are objects (TypeError). -/
theorem C34_rebuild_partial {E : Env} {secure : Bool} {ops : List EOp} (h : EValid E secure ops [])
    (hb : ∀ k v, econtents ops k = some v → ∃ b, v = .bytes b)
    (h' : EValid E secure (putAll (EMPT.after E secure ops).data) []) :
    ∃ s', EMPT.buildTrie E { trie := MPT.new E secure, data := (EMPT.after E secure ops).data } = (.ok (), s') ∧
      s'.trie.rootHash E = (EMPT.after E secure ops).trie.rootHash E ∧
      s'.data = (EMPT.after E secure ops).data := by
  have hm := h.mirror
  have hmem : ∀ e ∈ (EMPT.after E secure ops).data, econtents ops e.1 = some e.2 := fun e he => by
    rw [← hm.data]; exact dget_mem hm.nodup he
  have hc : econtents (putAll (EMPT.after E secure ops).data) = econtents ops := by
    rw [econtents_putAll hm.nodup fun e he => hm.storable _ _ (hmem e he)]
    funext k; exact hm.data k
  have ha := addRefs_ok (data := (EMPT.after E secure ops).data) (EMPT.after E secure ops).data []
    h' (fun e he => hb _ _ (hmem e he))
  refine ⟨{ trie := MPT.after E secure (refOps E (putAll (EMPT.after E secure ops).data)),
            data := (EMPT.after E secure ops).data }, ha, ?_, rfl⟩
  · rw [hm.trie]
    have hv := h.valid hm
    have hv' := h'.valid h'.mirror
    have hsub : ∀ x ∈ (putAll (EMPT.after E secure ops).data).map EOp.key, x ∈ ops.map EOp.key := by
      intro x hx
      simp only [putAll, List.map_map, List.mem_map, Function.comp, EOp.key] at hx
      obtain ⟨e, he, rfl⟩ := hx
      exact List.mem_map.2 ⟨_, econtents_some_mem (hmem e he), rfl⟩
    refine (C06_root ?_ ?_ ?_).1
    · refine ⟨hv'.empties, hv'.fits, fun k hk => ?_, hv'.log, fun hs => ?_⟩
      · obtain ⟨op, ho, rfl⟩ := List.mem_map.1 hk
        exact hv.fits op ho
      · refine (h.keys hs).mono fun x hx => ?_
        rw [List.nil_append]
        rcases List.mem_append.1 hx with hx | hx
        · obtain ⟨op, ho, rfl⟩ := List.mem_map.1 hx
          exact refOps_key ho
        · obtain ⟨op, ho, rfl⟩ := List.mem_map.1 hx
          exact hsub _ (refOps_key ho)
    · refine ⟨hv.empties, hv.fits, fun k hk => ?_, hv.log, fun hs => ?_⟩
      · obtain ⟨op, ho, rfl⟩ := List.mem_map.1 hk
        exact hv'.fits op ho
      · refine (h.keys hs).mono fun x hx => ?_
        rw [List.nil_append]
        rcases List.mem_append.1 hx with hx | hx
        · obtain ⟨op, ho, rfl⟩ := List.mem_map.1 hx
          exact hsub _ (refOps_key ho)
        · obtain ⟨op, ho, rfl⟩ := List.mem_map.1 hx
          exact refOps_key ho
    · funext k
      rw [contents_refOps, contents_refOps, hc]

/-- A history without objects, with overwrites and deletions. -/
def bytesEOps : List EOp := sampleEOps.filter (fun op => op.key ≠ [0x99])

example : EValid toyEnv false bytesEOps [] ∧
    EValid toyEnv false (putAll (EMPT.after toyEnv false bytesEOps).data) [] ∧
    (EMPT.after toyEnv false bytesEOps).data = [([0x12, 0x34], .bytes [2, 3]), ([0x12, 0x56], .bytes [])] :=
  ⟨evalid_of (by decide +kernel), evalid_of (by decide +kernel), by decide +kernel⟩

/-! ### C35: methods inherited from `MutableMapping` -/

/-- C35, `pop`: the value is returned and the state is that after a deletion; for an absent key KeyError and no
change, or the default. -/
theorem C35_pop {E : Env} {secure : Bool} {ops : List EOp} {k : Bytes} (h : EValid E secure (ops ++ [.delete k]) []) :
    (∀ v, econtents ops k = some v →
      EMPT.pop E k (EMPT.after E secure ops) = (.ok v, EMPT.after E secure (ops ++ [.delete k])) ∧
      ∀ d, EMPT.popDefault E k d (EMPT.after E secure ops) = (.ok v, EMPT.after E secure (ops ++ [.delete k]))) ∧
    (econtents ops k = none →
      EMPT.pop E k (EMPT.after E secure ops) = (.error .keyError, EMPT.after E secure ops) ∧
      ∀ d, EMPT.popDefault E k d (EMPT.after E secure ops) = (.ok d, EMPT.after E secure ops)) := by
  have hq : EValid E secure ops [k] := h.cut
  refine ⟨fun v hk => ?_, fun hk => ?_⟩
  · have hg := hq.get_some hk
    have hd := (h.delete_ok hk).1
    constructor
    · unfold EMPT.pop
      simp only [M.bind_apply, M.get_apply, M.lift_apply, hg, hd, M.pure_apply]
    · intro d
      unfold EMPT.popDefault
      simp only [M.bind_apply, M.get_apply, hg, hd, M.pure_apply]
  · have hg := hq.get_none hk
    constructor
    · unfold EMPT.pop
      simp only [M.bind_apply, M.get_apply, M.lift_apply, hg]
    · intro d
      unfold EMPT.popDefault
      simp only [M.bind_apply, M.get_apply, hg, M.pure_apply]

example : EValid toyEnv false (sampleEOps ++ [.delete [0x99]]) [] ∧ econtents sampleEOps [0x99] = some sampleObj ∧
    EValid toyEnv false (sampleEOps ++ [.delete [0x13]]) [] ∧ econtents sampleEOps [0x13] = none :=
  ⟨evalid_of (by decide +kernel), by decide +kernel, evalid_of (by decide +kernel), by decide +kernel⟩

/-- C35, `popitem`: removes and returns the first key of the iteration with its value; the others stay, in the
same order.  KeyError when there is none. -/
theorem C35_popitem {E : Env} {secure : Bool} {ops : List EOp} {k : Bytes} {rest : List Bytes}
    (hi : (EMPT.after E secure ops).iter = k :: rest) (h : EValid E secure (ops ++ [.delete k]) []) :
    ∃ v, econtents ops k = some v ∧
      EMPT.popitem E (EMPT.after E secure ops) = (.ok (k, v), EMPT.after E secure (ops ++ [.delete k])) ∧
      (EMPT.after E secure (ops ++ [.delete k])).iter = rest := by
  have hq : EValid E secure ops [k] := h.cut
  have hm := hq.mirror
  have hmem : k ∈ (EMPT.after E secure ops).data.map (·.1) := by
    show k ∈ (EMPT.after E secure ops).iter
    rw [hi]; exact List.mem_cons_self
  cases hk : econtents ops k with
  | none => exact absurd ((hm.data k).trans hk) (mem_keys_iff.1 hmem)
  | some v =>
    obtain ⟨hd, hdata⟩ := h.delete_ok hk
    refine ⟨v, rfl, ?_, ?_⟩
    · unfold EMPT.popitem
      simp only [M.bind_apply, M.get_apply, hi, M.lift_apply, hq.get_some hk, hd, M.pure_apply]
    · have hn := hm.nodup
      unfold EMPT.iter at hi ⊢
      rw [hdata]
      cases hdat : (EMPT.after E secure ops).data with
      | nil => rw [hdat] at hi; simp at hi
      | cons e d =>
        obtain ⟨k', v'⟩ := e
        rw [hdat] at hi hn
        simp only [List.map_cons, List.cons.injEq] at hi
        rw [← hi.1, ddel_head hn, hi.2]

theorem C35_popitem_empty {E : Env} {s : EMPT} (hi : s.iter = []) : EMPT.popitem E s = (.error .keyError, s) := by
  unfold EMPT.popitem
  simp only [M.bind_apply, M.get_apply, hi, M.raise_apply]

example : (EMPT.after toyEnv false sampleEOps).iter = [0x12, 0x34] :: [[0x12, 0x56], [0x99]] ∧
    EValid toyEnv false (sampleEOps ++ [.delete [0x12, 0x34]]) [] :=
  ⟨by decide +kernel, evalid_of (by decide +kernel)⟩

/-- C35, `setdefault`: a present value is returned and kept, an absent one is put (or, for a value that cannot
be kept, refused). -/
theorem C35_setdefault {E : Env} {secure : Bool} {ops : List EOp} {k : Bytes} {d : Value}
    (h : EValid E secure (ops ++ [.update k d]) []) :
    (∀ v, econtents ops k = some v →
      EMPT.setdefault E k d (EMPT.after E secure ops) = (.ok v, EMPT.after E secure ops)) ∧
    (econtents ops k = none → d.storable = true →
      EMPT.setdefault E k d (EMPT.after E secure ops) = (.ok d, EMPT.after E secure (ops ++ [.update k d]))) ∧
    (econtents ops k = none → d.storable = false →
      ∃ e, EMPT.setdefault E k d (EMPT.after E secure ops) = (.error e, EMPT.after E secure ops)) := by
  have hq : EValid E secure ops [k] := h.cut
  unfold EMPT.setdefault
  refine ⟨fun v hk => ?_, fun hk hs => ?_, fun hk hs => ?_⟩
  · simp only [M.bind_apply, M.get_apply, hq.get_some hk, M.pure_apply]
  · simp only [M.bind_apply, M.get_apply, hq.get_none hk, h.update_ok hs, M.pure_apply]
  · obtain ⟨e, he⟩ := EMPT.update_other (E := E) (k := k) hs (EMPT.after E secure ops)
    exact ⟨e, by simp only [M.bind_apply, M.get_apply, hq.get_none hk, he]⟩

example : EValid toyEnv false (sampleEOps ++ [.update [0x99] (.bytes [1])]) [] ∧
    econtents sampleEOps [0x99] = some sampleObj ∧
    EValid toyEnv false (sampleEOps ++ [.update [0x13] (.bytes [1])]) [] ∧ econtents sampleEOps [0x13] = none :=
  ⟨evalid_of (by decide +kernel), by decide +kernel, evalid_of (by decide +kernel), by decide +kernel⟩

/-- The deletions that `clear` makes. -/
def deletes (ks : List Bytes) : List EOp := ks.map .delete

theorem clearLoop_ok {E : Env} {secure : Bool} (ks : List Bytes) : ∀ (ops : List EOp) (n : Nat),
    (EMPT.after E secure ops).iter = ks → ks.length < n → EValid E secure (ops ++ deletes ks) [] →
    EMPT.clearLoop E n (EMPT.after E secure ops) = (.ok (), EMPT.after E secure (ops ++ deletes ks)) ∧
    (EMPT.after E secure (ops ++ deletes ks)).iter = [] := by
  induction ks with
  | nil =>
    intro ops n hi hn _
    obtain ⟨m, rfl⟩ : ∃ m, n = m + 1 := ⟨n - 1, by simp at hn; omega⟩
    simp only [deletes, List.map_nil, List.append_nil]
    refine ⟨?_, hi⟩
    simp only [EMPT.clearLoop, C35_popitem_empty hi]
  | cons k ks ih =>
    intro ops n hi hn h
    obtain ⟨m, rfl⟩ : ∃ m, n = m + 1 := ⟨n - 1, by simp at hn; omega⟩
    have happ : ops ++ deletes (k :: ks) = (ops ++ [.delete k]) ++ deletes ks := by simp [deletes]
    rw [happ] at h ⊢
    have h0 : EValid E secure (ops ++ [.delete k]) [] := ⟨h.cut.fits, by simp, h.cut.sizes, h.cut.log, fun hs =>
      (h.cut.keys hs).mono fun a ha => List.mem_append_right _ (by simpa using ha)⟩
    obtain ⟨v, _, hp, hr⟩ := C35_popitem hi h0
    have := ih (ops ++ [.delete k]) m hr (by simp at hn; omega) h
    refine ⟨?_, this.2⟩
    simp only [EMPT.clearLoop, hp]
    exact this.1

/-- C35, `clear`: it succeeds, no key is left, and the root hash is that of a new trie. -/
theorem C35_clear {E : Env} {secure : Bool} {ops : List EOp}
    (h : EValid E secure (ops ++ deletes (EMPT.after E secure ops).iter) []) :
    ∃ s', EMPT.clear E (EMPT.after E secure ops) = (.ok (), s') ∧ s'.iter = [] ∧ s'.len = 0 ∧
      s'.trie.rootHash E = (EMPT.new E secure).trie.rootHash E ∧ ∀ k, ∃ e, s'.get E k = .error e := by
  obtain ⟨h1, h2⟩ := clearLoop_ok (E := E) (secure := secure) (EMPT.after E secure ops).iter ops
    ((EMPT.after E secure ops).len + 1) rfl (by simp [EMPT.len, EMPT.iter]) h
  have hm := h.mirror
  have hnil : (EMPT.after E secure (ops ++ deletes (EMPT.after E secure ops).iter)).data = [] := by
    exact List.map_eq_nil_iff.1 h2
  have hnone : ∀ k, econtents (ops ++ deletes (EMPT.after E secure ops).iter) k = none := fun k => by
    rw [← hm.data k, hnil]; rfl
  refine ⟨_, h1, h2, by simp [EMPT.len, hnil], ?_, fun k => ⟨_, h.get_none (hnone k)⟩⟩
  rw [hm.trie]
  have hv := h.valid hm
  have := (C06_root (E := E) (secure := secure) (ops := refOps E (ops ++ deletes (EMPT.after E secure ops).iter))
    (ops' := []) hv ⟨fun _ pre hp => ?_, by simp, fun k hk => ?_, ?_, fun hs => ?_⟩ ?_).1
  · exact this
  · rw [List.prefix_nil.1 hp]; exact clean_of_nonempty (by simp)
  · obtain ⟨op, ho, rfl⟩ := List.mem_map.1 hk
    exact hv.fits op ho
  · exact ⟨fun a ha b hb _ => by
      simp only [MPT.after, MPT.run, MPT.new, MPT.init, Store.empty, List.foldl_nil, List.mem_singleton] at ha hb
      rw [ha, hb], by simp [MPT.after, MPT.run, MPT.new, MPT.init, Store.empty]⟩
  · refine (hv.keys hs).mono fun x hx => ?_
    simpa using hx
  · funext k
    rw [contents_refOps, hnone]
    rfl

example : EValid toyEnv false (sampleEOps ++ deletes (EMPT.after toyEnv false sampleEOps).iter) [] ∧
    (EMPT.after toyEnv false sampleEOps).iter.length = 3 :=
  ⟨evalid_of (by decide +kernel), by decide +kernel⟩

/-! ### C51: items() and values() -/

/-- C51: `items()` of a reachable `EMPT` succeeds and lists every present key once, with its value. -/
theorem C51_items {E : Env} {secure : Bool} {ops : List EOp} (h : EValid E secure ops []) :
    ∃ l, (EMPT.after E secure ops).items E = .ok l ∧ (l.map (·.1)).Nodup ∧
      ∀ k v, (k, v) ∈ l ↔ econtents ops k = some v := by
  have hm := h.mirror
  refine ⟨(EMPT.after E secure ops).data, items_data fun e he => ?_, hm.nodup, fun k v => ?_⟩
  · have hk : econtents ops e.1 = some e.2 := by rw [← hm.data]; exact dget_mem hm.nodup he
    refine EValid.get_some (k := e.1) ⟨h.fits, ?_, h.sizes, h.log, ?_⟩ hk
    · intro x hx
      simp only [List.mem_singleton] at hx
      subst hx
      exact h.fits _ (econtents_some_mem hk)
    · intro hs
      refine (h.keys hs).mono fun a ha => ?_
      simp only [List.singleton_append, List.mem_cons, List.nil_append] at ha ⊢
      rcases ha with rfl | ha
      · exact List.mem_map.2 ⟨_, econtents_some_mem hk, rfl⟩
      · exact ha
  · rw [← hm.data]
    exact ⟨fun h => dget_mem hm.nodup h, mem_of_dget⟩

example : EValid toyEnv false sampleEOps [] := evalid_of (by decide +kernel)

/-! ### C52: codec of SparseEMPT and RootEMPT -/

/-- The full statement of C52. -/
def C52 : Prop := ∀ (E : Env) (secure : Bool) (ops : List EOp), EValid E secure ops [] →
  ∃ b t b' t', Sparse.encodeRlp (Sparse.after E secure ops) = .ok b ∧ Sparse.decodeRlp E b = .ok t ∧
    t.root = (Sparse.after E secure ops).root ∧ t.secure = secure ∧
    RootTrie.encodeRlp ((EMPT.after E secure ops).getRootTrie E) = .ok b' ∧ RootTrie.decodeRlp E b' = .ok t' ∧
    t'.root = ((EMPT.after E secure ops).getRootTrie E).root ∧ t'.secure = secure

/-- C52 is false: a `SparseEMPT` emptied by deletions cannot be encoded. -/
theorem C52_false : ¬ C52 := by
  intro h
  obtain ⟨b, t, _, _, hb, _⟩ := h toyEnv false [.update [0x12] (.bytes [1]), .delete [0x12]]
    (evalid_of (by decide +kernel))
  have : Sparse.encodeRlp (Sparse.after toyEnv false [.update [0x12] (.bytes [1]), .delete [0x12]]) =
      .error .typeError := by decide +kernel
  rw [this] at hb
  simp at hb

/-- C52, `SparseEMPT`, in part: with byte-string values and at least one key present, encoding succeeds; if the
encoding is shorter than 2^64 bytes, decoding gives an object with the same root, secure flag and storage
entries, whose queries give the same answers.  Missing: emptied tries (`C52_false`). -/
theorem C52_sparse_partial {E : Env} {secure : Bool} {ops : List EOp} (h : EValid E secure ops [])
    (hf : ∀ k v, .update k v ∈ ops → ∃ b, v = .bytes b ∨ v = .bytearray b)
    (hr : (Sparse.after E secure ops).root ≠ none) :
    ∃ b, Sparse.encodeRlp (Sparse.after E secure ops) = .ok b ∧ (b.length < 2 ^ 64 →
      ∃ t, Sparse.decodeRlp E b = .ok t ∧ t.root = (Sparse.after E secure ops).root ∧ t.secure = secure ∧
        t.store.kv = (Sparse.after E secure ops).store.kv ∧
        ∀ k, t.contains E k = (Sparse.after E secure ops).contains E k ∧
          EMPT.getReference E t k = EMPT.getReference E (Sparse.after E secure ops) k) := by
  have hm := h.mirror
  have he : Sparse.after E secure ops = MPT.after E secure (refOps E ops) :=
    (C32_mirror_partial h hf).trans hm.trie
  rw [he] at hr ⊢
  obtain ⟨b, h1, h2⟩ := C15_codec_partial (E := E) (secure := secure) (ops := refOps E ops)
    (h.valid hm).log.size hr
  refine ⟨b, h1, fun hb => ?_⟩
  obtain ⟨t, g1, g2, g3, g4, g5, _⟩ := h2 hb
  refine ⟨t, g1, g2, g3, g4, fun k => ⟨(g5 k).1, ?_⟩⟩
  unfold EMPT.getReference
  rw [(g5 k).2]

example : EValid toyEnv false bytesEOps [] ∧ (Sparse.after toyEnv false bytesEOps).root ≠ none :=
  ⟨evalid_of (by decide +kernel), by decide +kernel⟩

/-- C52, `RootEMPT`: encoding the `RootEMPT` of any `EMPT` succeeds, and decoding gives an object with the same
root and secure flag, which checks proofs alike. -/
theorem C52_root (E : Env) (s : EMPT) (hl : (s.trie.root.getD []).length < 2 ^ 60) :
    ∃ b t, RootTrie.encodeRlp (s.getRootTrie E) = .ok b ∧ RootTrie.decodeRlp E b = .ok t ∧
      t.root = (s.getRootTrie E).root ∧ t.secure = s.trie.secure ∧
      ∀ p, RootTrie.verifyPoi E t p = s.verifyPoi E p ∧ RootTrie.verifyPoe E t p = s.verifyPoe E p := by
  have hroot : (s.getRootTrie E).root = some (s.trie.root.getD (emptyHash E)) := rfl
  refine ⟨_, MPT.init E Store.empty (s.trie.root.getD (emptyHash E)) s.trie.secure, rfl, ?_, rfl, rfl, fun p => ?_⟩
  · unfold RootTrie.decodeRlp MPT.decode
    have hlen : (s.trie.root.getD (emptyHash E)).length < 2 ^ 60 := by
      cases hr : s.trie.root with
      | none =>
        have : (emptyHash E).length = 32 := E.keccak_len _
        simp [this]
      | some r => rw [hr] at hl; exact hl
    rw [rlpDecode_encode]
    · cases hs : s.trie.secure <;>
        simp [EMPT.getRootTrie, MPT.init, Store.empty, hs, MPT.boolItem, MPT.boolean, MPT.binary, MPT.binaries,
          MPT.rebuild]
    · have h1 := encStr_length_le (b := s.trie.root.getD (emptyHash E)) (by omega)
      have h2 : (MPT.boolItem s.trie.secure).encode.length ≤ 2 := by
        cases s.trie.secure <;> decide
      have h3 : (Item.encode (.list [])).length ≤ 2 := by decide
      have h4 : (Item.encodeList [.str (s.trie.root.getD (emptyHash E)), .list [],
          MPT.boolItem s.trie.secure]).length < 2 ^ 61 := by
        simp only [Item.encodeList, List.length_append, List.append_nil]
        have : (Item.str (s.trie.root.getD (emptyHash E))).encode = encStr (s.trie.root.getD (emptyHash E)) := rfl
        rw [this]
        omega
      have h5 := lenPrefix_length_le (o := 192) (n := (Item.encodeList [.str (s.trie.root.getD (emptyHash E)),
        .list [], MPT.boolItem s.trie.secure]).length) (by omega)
      show (Item.encode (.list [.str (s.trie.root.getD (emptyHash E)), .list [],
        MPT.boolItem s.trie.secure])).length < 2 ^ 64
      rw [Item.encode, List.length_append]
      omega
  · have := C24_conversions E s p
    exact ⟨this.1, this.2.1⟩

example : (((EMPT.after toyEnv false sampleEOps).trie.root.getD []).length) < 2 ^ 60 := by decide +kernel

/-! ### C53: inclusion proofs of an EMPT -/

/-- The full statement of C53. -/
def C53 : Prop := ∀ (E : Env) (secure : Bool) (ops : List EOp) (k now : Bytes), EValid E secure ops [k] →
  econtents ops k ≠ none →
  ∃ p, (EMPT.after E secure ops).getPoi E now k = .ok p ∧
    (EMPT.after E secure ops).verifyPoi E p = .ok true

theorem beBytes_long {n m : Nat} (h : 256 ^ m ≤ n) : m < (beBytes n).length := by
  have h1 := ofBE_lt (beBytes n)
  rw [ofBE_beBytes] at h1
  exact (Nat.pow_lt_pow_iff_right (by decide)).1 (Nat.lt_of_le_of_lt h h1)

theorem encStr_length_ge {b : Bytes} (h : 2 ≤ b.length) : b.length < (encStr b).length := by
  unfold encStr
  split
  · simp at h
  · rw [List.length_append]
    have : 0 < (lenPrefix 128 b.length).length := by unfold lenPrefix; split <;> simp
    omega

theorem encStr_pos (b : Bytes) : 0 < (encStr b).length := by
  unfold encStr
  split
  · split
    · simp
    · rw [List.length_append]
      have : 0 < (lenPrefix 128 1).length := by unfold lenPrefix; split <;> simp
      simp
  · rw [List.length_append]
    have : 0 < (lenPrefix 128 b.length).length := by unfold lenPrefix; split <;> simp
    omega

/-- C53 in part: the proof of a present key is made and accepted, in secure mode always, and otherwise unless the
hashes of all references present are below 2^176 (one hash in 2^80).  So the failure of small tries
(`C18_false`) does not occur with references.  Missing: such hashes. -/
theorem C53_poi_partial {E : Env} {secure : Bool} {ops : List EOp} {k : Bytes} (now : Bytes)
    (h : EValid E secure ops [k]) (hk : econtents ops k ≠ none)
    (hbig : secure = true ∨ ∃ k' v', econtents ops k' = some v' ∧
      2 ^ 176 ≤ ofBE (E.keccak (k' ++ v'.payload))) :
    ∃ p, (EMPT.after E secure ops).getPoi E now k = .ok p ∧
      (EMPT.after E secure ops).verifyPoi E p = .ok true := by
  show ∃ p, (EMPT.after E secure ops).trie.getPoi E now k = .ok p ∧ (EMPT.after E secure ops).trie.verifyPoi E p = .ok true
  have hm := h.mirror
  rw [hm.trie]
  refine C18_poi_partial now (h.valid hm) ?_ ?_
  · rw [contents_refOps]
    cases hv : econtents ops k with
    | none => exact absurd hv hk
    | some v => simp
  · rcases hbig with hs | ⟨k', v', h1, h2⟩
    · exact .inl hs
    · refine .inr ⟨k', refOf E k' v', by rw [contents_refOps, h1]; rfl, ?_⟩
      have hn : DataRef.hash E ⟨k', v'.payload⟩ ≠ 0 := by
        unfold DataRef.hash; simp only
        have : 0 < 2 ^ 176 := by decide
        omega
      have h3 := beBytes_long (n := DataRef.hash E ⟨k', v'.payload⟩) (m := 22) (by
        unfold DataRef.hash; simp only
        exact Nat.le_trans (by decide) h2)
      have h4 := encStr_length_ge (b := beBytes (DataRef.hash E ⟨k', v'.payload⟩)) (by omega)
      have h5 := encStr_pos k'
      have h6 := encStr_pos v'.payload
      have h7 : (encStr DataRef.flag).length = 3 := by decide
      have h8 : 0 < (lenPrefix 192 (Item.encodeList [.str DataRef.flag, .str k', .str v'.payload,
          DataRef.intItem (DataRef.hash E ⟨k', v'.payload⟩)]).length).length := by
        unfold lenPrefix; split <;> simp
      have h9 : 29 ≤ (Item.encodeList [.str DataRef.flag, .str k', .str v'.payload,
          DataRef.intItem (DataRef.hash E ⟨k', v'.payload⟩)]).length := by
        simp only [Item.encodeList, Item.encode, DataRef.intItem, hn, if_false, List.length_append,
          List.append_nil]
        omega
      unfold refOf DataRef.encode
      rw [Item.encode, List.length_append]
      dsimp only
      omega

/-- The trie with one short key and an empty value. -/
example : EValid toyEnv false [.update [0x12] (.bytes [])] [[0x12]] ∧
    econtents [.update [0x12] (.bytes [])] [0x12] = some (.bytes []) ∧
    2 ^ 176 ≤ ofBE (toyEnv.keccak ([0x12] ++ (Value.bytes []).payload)) :=
  ⟨evalid_of (by decide +kernel), by decide +kernel, by decide +kernel⟩

/-- A hash with many leading zeros (and no collisions in the example below). -/
def smallEnv : Env := { toyEnv with
  keccak := fun b => (bytes32 (b.foldl (fun h x => (h * 1000003 + x.toNat + 1) % (2 ^ 61 - 1)) 7)).reverse
  keccak_len := fun b => by simp [bytes32] }

/-- The condition on the hashes cannot be dropped for hash functions in general: C53 fails for one whose values
are all below 2^61. -/
theorem C53_false : ¬ C53 := by
  intro h
  obtain ⟨p, h1, h2⟩ := h smallEnv false [.update [0x12] (.bytes [])] [0x12] [] (evalid_of (by decide +kernel))
    (by decide +kernel)
  obtain ⟨q, h3, h4⟩ := ok_of (m := (EMPT.after smallEnv false [.update [0x12] (.bytes [])]).getPoi smallEnv [] [0x12])
    (f := fun p => decide ((EMPT.after smallEnv false [.update [0x12] (.bytes [])]).verifyPoi smallEnv p =
      .ok false)) (by decide +kernel)
  rw [h1, Except.ok.injEq] at h3
  subst h3
  rw [h2] at h4
  simp at h4

end Props
end Pymt
