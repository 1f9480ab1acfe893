import Verif.Lemmas.Merge
import Verif.Lemmas.Copies
import Verif.Props.EmptHistory
import Verif.Spec.Toy
import Verif.Spec.Merkle

/-!
# Merging the storages of several tries (C120, C121)
-/

namespace Pymt.Props

/-- **C120** The dict of a trie can be merged with any dict of nodes (entries of 32 bytes or more under their hashes,
that is what tries put there), in either order: an object with the root of the trie over the merged dict gives the
same outcomes in any series of calls, has the same root hash afterwards, and makes the same proofs.
Hash assumption: no collision among the nodes of both.  `S.written` is not part of the code and may be anything. -/
theorem C120 {E : Env} {secure : Bool} {ops : List Op} {calls : List Call} {D : Dict Bytes} {S : Store} {k : Bytes}
    (ho : ∀ op ∈ ops, Fits E secure op.key) (hc : ∀ c ∈ calls, Fits E secure c.key) (hk : Fits E secure k)
    (hD : ∀ e ∈ D, e.1 = E.keccak e.2 ∧ 32 ≤ e.2.length)
    (hl : LogOk E ((Call.seqAll E calls (MPT.after E secure ops)).2.store.written ++ D.map (·.2)))
    (hS : S.kv = dmerge (MPT.after E secure ops).store.kv D ∨ S.kv = dmerge D (MPT.after E secure ops).store.kv) :
    let t := Call.seqAll E calls (MPT.after E secure ops)
    let m := Call.seqAll E calls { MPT.after E secure ops with store := S }
    m.1 = t.1 ∧ m.2.root = t.2.root ∧ m.2.rootHash E = t.2.rootHash E ∧
      ∀ now, m.2.getPoi E now k = t.2.getPoi E now k ∧ m.2.getPoe E now k = t.2.getPoe E now k := by
  intro t m
  have hsec : (MPT.after E secure ops).secure = secure := after_secure ..
  have ht : ∀ w ∈ t.2.store.written, w ∈ t.2.store.written ++ D.map (·.2) := fun w h => List.mem_append_left _ h
  have h0 : ∀ w ∈ (MPT.after E secure ops).store.written, w ∈ t.2.store.written ++ D.map (·.2) := fun w h => ht w (by
    obtain ⟨ws, e⟩ := Call.seqAll_writes (E := E) calls (MPT.after E secure ops)
    change w ∈ (Call.seqAll E calls (MPT.after E secure ops)).2.store.written
    rw [e, replay_written]
    exact List.mem_append_left _ h)
  have hd : ∀ e ∈ D, e.2 ∈ t.2.store.written ++ D.map (·.2) := fun e he =>
    List.mem_append_right _ (List.mem_map.2 ⟨e, he, rfl⟩)
  have hg := after_gs (E := E) ops h0
  have hn := after_nodup E secure ops
  have hG := hg.merge hD hd hS hn
  have hs := Sub.merge hg hl (fun e he => (hD e he).1) hd hS hn
  obtain ⟨h1, ⟨S', h2, h3, h4⟩, h5, b, h6⟩ := Call.seqAll_over hl calls (MPT.after E secure ops) _ S
    (Bears.after ho (hl.mono h0)) (by rw [hsec]; exact hc) hs hg hG ht
  have h2 : m.2 = { t.2 with store := S' } := h2
  refine ⟨h1, by rw [h2], by rw [h2]; rfl, fun now => ?_⟩
  rw [h2]
  exact proofs_over hl h6 (by rw [h5, hsec]; exact hk) (hl.mono ht) h3 h4 now

/-- C120 for two tries: over the merged dict the object with the root of the first one does what the first one does,
no matter whose entries win; so the same dict serves the second one. -/
theorem C120_two {E : Env} {secure secure' : Bool} {ops ops' : List Op} {calls : List Call} {S : Store} {k : Bytes}
    (ho : ∀ op ∈ ops, Fits E secure op.key) (hc : ∀ c ∈ calls, Fits E secure c.key) (hk : Fits E secure k)
    (hl : LogOk E ((Call.seqAll E calls (MPT.after E secure ops)).2.store.written ++
      (MPT.after E secure' ops').store.written))
    (hS : S.kv = dmerge (MPT.after E secure ops).store.kv (MPT.after E secure' ops').store.kv ∨
      S.kv = dmerge (MPT.after E secure' ops').store.kv (MPT.after E secure ops).store.kv) :
    let t := Call.seqAll E calls (MPT.after E secure ops)
    let m := Call.seqAll E calls { MPT.after E secure ops with store := S }
    m.1 = t.1 ∧ m.2.root = t.2.root ∧ m.2.rootHash E = t.2.rootHash E ∧
      ∀ now, m.2.getPoi E now k = t.2.getPoi E now k ∧ m.2.getPoe E now k = t.2.getPoe E now k := by
  have hg := after_gs (E := E) (L := (MPT.after E secure' ops').store.written) (secure := secure') ops' fun _ h => h
  have hn := after_nodup E secure' ops'
  have hm : ∀ e ∈ (MPT.after E secure' ops').store.kv,
      e.1 = E.keccak e.2 ∧ e.2 ∈ (MPT.after E secure' ops').store.written ∧ 32 ≤ e.2.length := fun e he =>
    hg e.1 e.2 (dget_mem hn he)
  refine C120 ho hc hk (fun e he => ⟨(hm e he).1, (hm e he).2.2⟩) (hl.mono fun w hw => ?_) hS
  rcases List.mem_append.1 hw with hw | hw
  · exact List.mem_append_left _ hw
  · obtain ⟨e, he, rfl⟩ := List.mem_map.1 hw
    exact List.mem_append_right _ (hm e he).2.1

/-- Two tries with some keys in common, ... -/
def mergeOps1 : List Op := [.update [0x12] (bigValue 1), .update [0x13] (bigValue 2), .update [0x56, 0x78] (bigValue 3)]

/-- ... the second one in secure mode, and without one of its keys. -/
def mergeOps2 : List Op :=
  [.update [0x12] (bigValue 4), .update [0x13] (bigValue 2), .update [0x99] (bigValue 5), .delete [0x12]]

/-- Calls made over the merged dict. -/
def mergeCalls : List Call := [.get [0x12], .contains [0x99], .update [0x99] (bigValue 6), .delete [0x13], .get [0x99]]

/-- The merged dict. -/
def mergedStore : Store :=
  { kv := dmerge (MPT.after toyEnv false mergeOps1).store.kv (MPT.after toyEnv true mergeOps2).store.kv, written := [] }

example : (∀ op ∈ mergeOps1, Fits toyEnv false op.key) ∧ (∀ c ∈ mergeCalls, Fits toyEnv false c.key) ∧
    Fits toyEnv false [0x13] ∧
    LogOk toyEnv ((Call.seqAll toyEnv mergeCalls (MPT.after toyEnv false mergeOps1)).2.store.written ++
      (MPT.after toyEnv true mergeOps2).store.written) ∧
    (MPT.after toyEnv false mergeOps1).store.kv.length = 7 ∧ mergedStore.kv.length = 16 ∧
    (Call.seqAll toyEnv mergeCalls { MPT.after toyEnv false mergeOps1 with store := mergedStore }).1 =
      [.ok (.value (bigValue 1)), .ok (.bool false), .ok .none, .ok .none, .ok (.value (bigValue 6))] ∧
    ({ MPT.after toyEnv true mergeOps2 with store := mergedStore } : MPT).get toyEnv [0x99] = .ok (bigValue 5) :=
  ⟨by decide +kernel, by decide +kernel, by decide +kernel, logOk_of (by decide +kernel), by decide +kernel,
    by decide +kernel, by decide +kernel, by decide +kernel⟩

/-! ### `EMPT` -/

/-- **C121** The claim: when both storages of an `EMPT` are merged with those of another one, an object with the root
of the first reads the values of the first. -/
def C121 : Prop :=
  ∀ (E : Env) (secure secure' : Bool) (ops ops' : List EOp) (k : Bytes) (v : Value) (S : Store),
    EValid E secure ops [k] → EValid E secure' ops' [k] → econtents ops k = some v →
    LogOk E ((EMPT.after E secure ops).trie.store.written ++ (EMPT.after E secure' ops').trie.store.written) →
    S.kv = dmerge (EMPT.after E secure ops).trie.store.kv (EMPT.after E secure' ops').trie.store.kv →
    ({ trie := { (EMPT.after E secure ops).trie with store := S },
       data := dmerge (EMPT.after E secure ops).data (EMPT.after E secure' ops').data } : EMPT).get E k = .ok v

/-- It fails for a key both have, with different values. -/
theorem C121_false : ¬ C121 := by
  intro h
  have := h toyEnv false false [.update [0x12] (.bytes [1])] [.update [0x12] (.bytes [2])] [0x12] (.bytes [1])
    { kv := dmerge (EMPT.after toyEnv false [.update [0x12] (.bytes [1])]).trie.store.kv
        (EMPT.after toyEnv false [.update [0x12] (.bytes [2])]).trie.store.kv, written := [] } (evalid_of (by decide +kernel)) (evalid_of (by decide +kernel)) (by decide +kernel)
    (logOk_of (by decide +kernel)) (by decide +kernel)
  revert this
  decide +kernel

/-- The trie inside is not disturbed by other nodes in its storage. -/
theorem mergedTrie {E : Env} {secure : Bool} {ops : List EOp} {k : Bytes} {D : Dict Bytes} {S : Store}
    (h : EValid E secure ops [k]) (hD : ∀ e ∈ D, e.1 = E.keccak e.2 ∧ 32 ≤ e.2.length)
    (hl : LogOk E ((EMPT.after E secure ops).trie.store.written ++ D.map (·.2)))
    (hS : S.kv = dmerge (EMPT.after E secure ops).trie.store.kv D ∨
      S.kv = dmerge D (EMPT.after E secure ops).trie.store.kv) :
    SameAnswers E { (EMPT.after E secure ops).trie with store := S } (EMPT.after E secure ops).trie k := by
  have hv := h.valid h.mirror
  rw [h.mirror.trie] at hl hS ⊢
  have hk : Fits E secure k := h.fitsq k (by simp)
  have q := C120 (calls := [.get k, .contains k]) (k := k) hv.fits
    (fun c hc => by
      rcases List.mem_cons.1 hc with rfl | hc
      · exact hk
      · rcases List.mem_cons.1 hc with rfl | hc
        · exact hk
        · simp at hc) hk hD (by simpa [Call.seqAll, Call.seq] using hl) hS
  have key : ∀ t : MPT, (Call.seqAll E [.get k, .contains k] t) =
      ([(t.get E k).map .value, (t.contains E k).map .bool], t) := by
    intro t; rfl
  simp only [key] at q
  obtain ⟨q1, -, -, q2⟩ := q
  simp only [List.cons.injEq, and_true] at q1
  have inj : ∀ {α : Type} {f : α → Ans}, (∀ a b, f a = f b → a = b) → ∀ {x y : Py α}, x.map f = y.map f → x = y := by
    intro α f hf x y he
    cases x <;> cases y <;> simp only [Except.map, Except.ok.injEq, Except.error.injEq, reduceCtorEq] at he ⊢
    · exact he
    · exact hf _ _ he
  exact ⟨inj (fun a b e => by injection e) q1.1, inj (fun a b e => by injection e) q1.2, fun now => (q2 now).1,
    fun now => (q2 now).2⟩

/-- C121 over any data storage: a key gives the value found there if that has the payload the key has in the first
`EMPT` (or its hash collides), raises InvalidReferenceError if there is another value, and KeyError if there is none.
Membership and proofs are those of the first `EMPT`.
Missing: the values of keys that have another value in the data storage, see `C121_false`. -/
theorem C121_exact_partial {E : Env} {secure : Bool} {ops : List EOp} {k : Bytes} {D : Dict Bytes} {S : Store}
    {data : Dict Value} (h : EValid E secure ops [k]) (hD : ∀ e ∈ D, e.1 = E.keccak e.2 ∧ 32 ≤ e.2.length)
    (hl : LogOk E ((EMPT.after E secure ops).trie.store.written ++ D.map (·.2)))
    (hS : S.kv = dmerge (EMPT.after E secure ops).trie.store.kv D ∨
      S.kv = dmerge D (EMPT.after E secure ops).trie.store.kv) :
    let s : EMPT := { trie := { (EMPT.after E secure ops).trie with store := S }, data := data }
    s.contains E k = (EMPT.after E secure ops).contains E k ∧
    (∀ now, s.trie.getPoi E now k = (EMPT.after E secure ops).trie.getPoi E now k ∧
      s.trie.getPoe E now k = (EMPT.after E secure ops).trie.getPoe E now k) ∧
    (dget data k = none → s.get E k = .error .keyError) ∧
    ∀ v v', econtents ops k = some v → dget data k = some v' → v'.storable = true → s.get E k =
      if E.keccak (k ++ v.payload) = E.keccak (k ++ v'.payload) then .ok v' else .error .invalidReference := by
  intro s
  obtain ⟨h1, h2, h3, h4⟩ := mergedTrie h hD hl hS
  refine ⟨h2, fun now => ⟨h3 now, h4 now⟩, fun hn => ?_, fun v v' hk hv' hst => ?_⟩
  · unfold EMPT.get dgetItem
    simp only [s]
    rw [hn]; rfl
  · have hcon : contents (refOps E ops) k = some ((⟨k, v.payload⟩ : DataRef).encode E) := by
      rw [contents_refOps, hk]; rfl
    have hget : ({ (EMPT.after E secure ops).trie with store := S } : MPT).get E k =
        .ok ((⟨k, v.payload⟩ : DataRef).encode E) := by
      rw [h1, h.mirror.trie]
      exact C02_get (h.valid h.mirror) hcon
    unfold EMPT.get dgetItem
    simp only [s]
    rw [hv', hget]
    simp only [Except.bind_ok']
    have hdec : DataRef.decode E ((⟨k, v.payload⟩ : DataRef).encode E) = .ok ⟨k, v.payload⟩ := decode_refOf h hk
    rw [hdec, ofValue_storable hst]
    simp only [Except.bind_ok']
    by_cases he : E.keccak (k ++ v.payload) = E.keccak (k ++ v'.payload)
    · rw [if_pos he, (DataRef.eq_iff E _ _).2 he]
      rfl
    · rw [if_neg he]
      have : (⟨k, v.payload⟩ : DataRef).eq E ⟨k, v'.payload⟩ = false := by
        rw [Bool.eq_false_iff]
        exact fun hb => he ((DataRef.eq_iff E _ _).1 hb)
      rw [this]
      rfl

theorem dget_dmerge_nodup {β : Type} (d : Dict β) {e : Dict β} (hn : (e.map (·.1)).Nodup) (k : Bytes) :
    dget (dmerge d e) k = (dget e k).or (dget d k) := by
  rcases dget_dmerge d e k with ⟨h1, h2⟩ | ⟨w, h1, h2⟩
  · rw [h1]
    cases he : dget e k with
    | none => rfl
    | some w => exact absurd (mem_of_dget he) (h2 w)
  · rw [h2, dget_mem hn h1]; rfl

/-- C121 for two: over merged storages in which the second one's values win, a key of the first one gives its value
if the second one does not have the key or has it with the same value; if the payloads differ then the call raises
InvalidReferenceError or gives a value whose hash collides. -/
theorem C121_two_partial {E : Env} {secure secure' : Bool} {ops ops' : List EOp} {k : Bytes} {v : Value} {S : Store}
    (h : EValid E secure ops [k]) (h' : EValid E secure' ops' [k]) (hk : econtents ops k = some v)
    (hl : LogOk E ((EMPT.after E secure ops).trie.store.written ++ (EMPT.after E secure' ops').trie.store.written))
    (hS : S.kv = dmerge (EMPT.after E secure ops).trie.store.kv (EMPT.after E secure' ops').trie.store.kv) :
    let s : EMPT := { trie := { (EMPT.after E secure ops).trie with store := S },
                      data := dmerge (EMPT.after E secure ops).data (EMPT.after E secure' ops').data }
    let s' : EMPT := { trie := { (EMPT.after E secure' ops').trie with store := S },
                       data := dmerge (EMPT.after E secure ops).data (EMPT.after E secure' ops').data }
    (econtents ops' k = none ∨ econtents ops' k = some v → s.get E k = .ok v) ∧
    (∀ v', econtents ops' k = some v' → s'.get E k = .ok v' ∧ s.get E k =
      if E.keccak (k ++ v.payload) = E.keccak (k ++ v'.payload) then .ok v' else .error .invalidReference) := by
  intro s s'
  have other : ∀ {secure : Bool} {ops : List EOp}, EValid E secure ops [k] →
      ∀ e ∈ (EMPT.after E secure ops).trie.store.kv,
      e.1 = E.keccak e.2 ∧ e.2 ∈ (EMPT.after E secure ops).trie.store.written ∧ 32 ≤ e.2.length := by
    intro secure ops h e he
    rw [h.mirror.trie] at he ⊢
    exact after_gs (E := E) _ (fun _ h => h) e.1 e.2 (dget_mem (after_nodup ..) he)
  have hd : ∀ k, dget s.data k = (econtents ops' k).or (econtents ops k) := fun k => by
    simp only [s]
    rw [dget_dmerge_nodup _ h'.mirror.nodup, h'.mirror.data, h.mirror.data]
  have e1 := C121_exact_partial (D := (EMPT.after E secure' ops').trie.store.kv) (S := S) (data := s.data) h
    (fun e he => ⟨(other h' e he).1, (other h' e he).2.2⟩)
    (hl.mono fun w hw => by
      rcases List.mem_append.1 hw with hw | hw
      · exact List.mem_append_left _ hw
      · obtain ⟨e, he, rfl⟩ := List.mem_map.1 hw
        exact List.mem_append_right _ (other h' e he).2.1) (.inl hS)
  have e2 := C121_exact_partial (D := (EMPT.after E secure ops).trie.store.kv) (S := S) (data := s.data) h'
    (fun e he => ⟨(other h e he).1, (other h e he).2.2⟩)
    (hl.mono fun w hw => by
      rcases List.mem_append.1 hw with hw | hw
      · exact List.mem_append_right _ hw
      · obtain ⟨e, he, rfl⟩ := List.mem_map.1 hw
        exact List.mem_append_left _ (other h e he).2.1) (.inr hS)
  obtain ⟨-, -, -, e1⟩ := e1
  obtain ⟨-, -, -, e2⟩ := e2
  constructor
  · intro hn
    have : dget s.data k = some v := by
      rw [hd, hk]
      rcases hn with hn | hn <;> rw [hn] <;> rfl
    have := e1 v v hk this (h.mirror.storable k v hk)
    rw [if_pos rfl] at this
    exact this
  · intro v' hv'
    have hdv : dget s.data k = some v' := by rw [hd, hv']; rfl
    have hst := h'.mirror.storable k v' hv'
    refine ⟨?_, e1 v v' hk hdv hst⟩
    have := e2 v' v' hv' hdv hst
    rw [if_pos rfl] at this
    exact this

/-- A second `EMPT` with one key in common with another value, and one with the same value. -/
def mergeEmpt2 : List EOp :=
  [.update [0x12] (.bytes [7]), .update [0x57] (.bytes [4]), .update [0x88] (.obj 3 true true [5])]

/-- Both over merged storages. -/
def mergedEmpt (s : EMPT) : EMPT :=
  { trie := { s.trie with store :=
      { kv := dmerge (EMPT.after toyEnv false historyOps).trie.store.kv (EMPT.after toyEnv true mergeEmpt2).trie.store.kv,
        written := [] } },
    data := dmerge (EMPT.after toyEnv false historyOps).data (EMPT.after toyEnv true mergeEmpt2).data }

example : EValid toyEnv false historyOps [[0x12], [0x13, 0x45], [0x57]] ∧
    EValid toyEnv true mergeEmpt2 [[0x12], [0x13, 0x45], [0x57]] ∧
    LogOk toyEnv ((EMPT.after toyEnv false historyOps).trie.store.written ++
      (EMPT.after toyEnv true mergeEmpt2).trie.store.written) ∧
    (mergedEmpt (EMPT.after toyEnv false historyOps)).get toyEnv [0x13, 0x45] = .ok (.bytes [2]) ∧
    (mergedEmpt (EMPT.after toyEnv false historyOps)).get toyEnv [0x57] = .ok (.bytes [4]) ∧
    (mergedEmpt (EMPT.after toyEnv false historyOps)).get toyEnv [0x12] = .error .invalidReference ∧
    (mergedEmpt (EMPT.after toyEnv true mergeEmpt2)).get toyEnv [0x12] = .ok (.bytes [7]) ∧
    -- The length is that of the data storage: neither object has five keys.
    (mergedEmpt (EMPT.after toyEnv true mergeEmpt2)).len = 5 ∧
    -- A value that only the other one has raises an exception of the trie.
    (mergedEmpt (EMPT.after toyEnv false historyOps)).get toyEnv [0x88] = .error .branchPath :=
  ⟨evalid_of (by decide +kernel), evalid_of (by decide +kernel), logOk_of (by decide +kernel), by decide +kernel,
    by decide +kernel, by decide +kernel, by decide +kernel, by decide +kernel, by decide +kernel⟩

end Pymt.Props
