import Verif.Lemmas.OnDemand
import Verif.Lemmas.ReadCost
import Verif.Props.Merge

/-!
# Nodes loaded on demand, and how much calls read (C124, C125)
-/

namespace Pymt.Props

/-- The nodes a call may read: one for each half-byte of its path and one more; a deletion two more than that. -/
def readCost (E : Env) (secure : Bool) : Call → Nat
  | .delete k => 2 * (effective E secure k).length + 3
  | c => 2 * (effective E secure c.key).length + 1

theorem loads_of_bears {E : Env} {t : MPT} {a : T} (h : Bears E t a) (hl : LogOk E t.store.written) (c : Call) :
    ((c.prog E t.secure).loads t).length ≤ readCost E t.secure c := by
  have key : ∀ k, (if t.secure then E.keccak k else k) = t.keyOf E k := fun k => rfl
  have hk : ∀ k, (t.keyOf E k).length = (effective E t.secure k).length := fun k => congrArg _ (keyOf_eq ..)
  have fin : ∀ {α : Type} {p : Prog α} {f : α → Prog Ans} {n : Nat}, Prog.Pulls p t (fun _ => n) → (∀ a, Prog.Idle (f a)) →
      ((p >>= f).loads t).length ≤ n := fun hp hf => Prog.Pulls.both (b := 0) hp fun a t' => (hf a).pulls _ _
  cases c with
  | update k v =>
    simp only [Call.prog, key, readCost, Call.key, ← hk]
    exact fin (Prog.pulls_updateCall h.holds k v) fun _ => Prog.Idle.pure _
  | delete k =>
    simp only [Call.prog, key, readCost, ← hk]
    exact fin (Prog.pulls_deleteCall h.holds k) fun _ => Prog.Idle.pure _
  | get k =>
    simp only [Call.prog, key, readCost, Call.key, ← hk]
    exact fin (Prog.pulls_getCall h.holds hl k) fun _ => Prog.Idle.pure _
  | contains k =>
    simp only [Call.prog, key, readCost, Call.key, ← hk]
    exact fin (Prog.pulls_containsCall h.holds k) fun _ => Prog.Idle.pure _

/-! ### C125 -/

/-- **C125** However many keys a trie holds, and however the call ends: `get`, `contains` and `update` read at most
one node from the storage for each half-byte of the path of the key, and one more; `delete` reads at most two more
than that.  The values may be anything, also empty ones. -/
theorem C125 {E : Env} {secure : Bool} {ops : List Op} (ho : ∀ op ∈ ops, Fits E secure op.key)
    (hl : LogOk E (MPT.after E secure ops).store.written) (c : Call) :
    ((c.prog E secure).loads (MPT.after E secure ops)).length ≤ readCost E secure c := by
  have := loads_of_bears (Bears.after ho hl) hl c
  rwa [after_secure] at this

/-- C125 for the methods that make proofs (that of exclusion looks the key up first), and for those that check proofs,
which do not touch the storage of the trie. -/
theorem C125_proofs {E : Env} {secure : Bool} {ops : List Op} (ho : ∀ op ∈ ops, Fits E secure op.key)
    (hl : LogOk E (MPT.after E secure ops).store.written) (now k : Bytes) :
    ((MPT.getPoiCallP E now (effective E secure k)).loads (MPT.after E secure ops)).length ≤
      2 * (effective E secure k).length + 1 ∧
    ((MPT.getPoeCallP E now (effective E secure k)).loads (MPT.after E secure ops)).length ≤
      4 * (effective E secure k).length + 2 ∧
    ∀ p t, (MPT.verifyPoiCallP E p).loads t = [] ∧ (MPT.verifyPoeCallP E p).loads t = [] := by
  have hk : (MPT.after E secure ops).keyOf E k = effective E secure k := by
    unfold MPT.keyOf effective; rw [after_secure]
  have h1 := Prog.pulls_poiCall (Bears.after ho hl).holds now k
  have h2 := Prog.pulls_poeCall (Bears.after ho hl).holds now k
  rw [hk] at h1 h2
  exact ⟨h1, h2, fun p t => ⟨(Prog.Roots.verifyPoiCall E p).idle t, (Prog.Roots.verifyPoeCall E p).idle t⟩⟩

/-- In secure mode a call reads at most 67 nodes, whatever the key. -/
theorem C125_secure {E : Env} {ops : List Op} (ho : ∀ op ∈ ops, Fits E true op.key)
    (hl : LogOk E (MPT.after E true ops).store.written) (c : Call) :
    ((c.prog E true).loads (MPT.after E true ops)).length ≤ 67 := by
  refine Nat.le_trans (C125 ho hl c) ?_
  cases c <;> simp [readCost, effective, E.keccak_len]

/-- A trie with a branch that holds no value at the end of the path of `12`. -/
def readOps : List Op :=
  [.update [0x12, 0x34] (bigValue 1), .update [0x12, 0x56] (bigValue 2), .update [0x13] (bigValue 3),
    .update [0x22] (bigValue 4)]

/-- The bounds are reached: three reads for a key of one byte, five when it is deleted, six for a proof of exclusion. -/
example : (∀ op ∈ readOps, Fits toyEnv false op.key) ∧ LogOk toyEnv (MPT.after toyEnv false readOps).store.written ∧
    ((Call.prog toyEnv false (.get [0x13])).loads (MPT.after toyEnv false readOps)).length = 3 ∧
    ((Call.prog toyEnv false (.contains [0x13])).loads (MPT.after toyEnv false readOps)).length = 3 ∧
    ((Call.prog toyEnv false (.update [0x13] [1])).loads (MPT.after toyEnv false readOps)).length = 3 ∧
    ((Call.prog toyEnv false (.delete [0x12])).loads (MPT.after toyEnv false (mergeOps1.take 2))).length = 5 ∧
    ((MPT.getPoiCallP toyEnv [] [0x13]).loads (MPT.after toyEnv false readOps)).length = 3 ∧
    ((MPT.getPoeCallP toyEnv [] [0x12]).loads (MPT.after toyEnv false readOps)).length = 6 :=
  ⟨by decide +kernel, logOk_of (by decide +kernel), by decide +kernel, by decide +kernel, by decide +kernel,
    by decide +kernel, by decide +kernel, by decide +kernel⟩

/-! ### C124 -/

theorem mostLoads_le {E : Env} {n : Nat} (l : List Call) (t : MPT) (a : T) (ha : Bears E t a)
    (hf : ∀ c ∈ l, Fits E t.secure c.key) (hl : LogOk E (Call.seqAll E l t).2.store.written)
    (hn : ∀ c ∈ l, readCost E t.secure c ≤ n) : Call.mostLoads E l t ≤ n := by
  induction l generalizing t a with
  | nil => exact Nat.zero_le _
  | cons c l ih =>
    simp only [Call.seqAll, Call.mostLoads] at hl ⊢
    have hlog : LogOk E (c.seq E t).2.store.written := log_of_replay (Call.seqAll_writes l _) hl
    have hlog0 : LogOk E t.store.written := by
      rw [← Call.prog_alone, Prog.alone_written] at hlog
      exact hlog.mono fun w h => List.mem_append_left _ h
    have hsec : (c.seq E t).2.secure = t.secure := by
      rw [← Call.prog_alone]; exact Prog.alone_secure _ _
    obtain ⟨b, hb⟩ : ∃ b, Bears E (c.seq E t).2 b := by
      rw [Call.seq_exec]
      exact ⟨_, ha.run (fun op ho => by
        rw [Attempt.key_of_op (c := c) (by simpa using ho)]; exact hf c List.mem_cons_self)
        (by rw [← Call.seq_exec]; exact hlog)⟩
    refine Nat.max_le.2 ⟨Nat.le_trans (loads_of_bears ha hlog0 c) (hn c List.mem_cons_self), ?_⟩
    exact ih _ b hb (by rw [hsec]; exact fun c h => hf c (List.mem_cons_of_mem _ h)) hl
      (by rw [hsec]; exact fun c h => hn c (List.mem_cons_of_mem _ h))

/-- What the nodes in a storage and the answers of a peer must be like: entries of 32 bytes or more under their hashes
(what the loop puts there), and no answer with the hash of another node of the trie. -/
structure Peer (E : Env) (log : List Bytes) (S : Store) (ask : Bytes → Option Bytes) : Prop where
  entries : ∀ e ∈ S.kv, e.1 = E.keccak e.2 ∧ 32 ≤ e.2.length
  coll : LogOk E (log ++ S.kv.map (·.2))
  answers : ∀ h v, ask h = some v → ∀ w ∈ Item.encode (.str []) :: (log ++ S.kv.map (·.2)), E.keccak v = E.keccak w → v = w

theorem Peer.gs {E : Env} {log : List Bytes} {S : Store} {ask : Bytes → Option Bytes} (h : Peer E log S ask) :
    GS E (log ++ S.kv.map (·.2)) S := fun k v hd => by
  have hm := mem_of_dget hd
  exact ⟨(h.entries _ hm).1, List.mem_append_right _ (List.mem_map.2 ⟨_, hm, rfl⟩), (h.entries _ hm).2⟩

/-- **C124** A client with the root of a trie and any part of its nodes (none, say) makes calls; when a call ends
with KeyError, it asks for the node whose hash is in the exception, checks the hash and the length of the answer, stores
it, and makes the call again, at most so many times as the call reads nodes (C125).  If every node of the trie is there
or given when asked for, then all the calls end as on the complete trie, the root is the same afterwards, and proofs
made in this way are the same. -/
theorem C124 {E : Env} {secure : Bool} {ops : List Op} {calls : List Call} {S : Store} {ask : Bytes → Option Bytes}
    {n : Nat} {k : Bytes}
    (ho : ∀ op ∈ ops, Fits E secure op.key) (hc : ∀ c ∈ calls, Fits E secure c.key) (hk : Fits E secure k)
    (hp : Peer E (Call.seqAll E calls (MPT.after E secure ops)).2.store.written S ask)
    (hask : ∀ h v, dget (MPT.after E secure ops).store.kv h = some v → dget S.kv h = some v ∨ ask h = some v)
    (hn : ∀ c ∈ calls, readCost E secure c ≤ n) :
    let t := Call.seqAll E calls (MPT.after E secure ops)
    let m := Call.fetchAll E ask n calls { MPT.after E secure ops with store := S }
    m.1 = t.1 ∧ m.2.root = t.2.root ∧ m.2.rootHash E = t.2.rootHash E ∧
      ∀ now, (2 * (effective E secure k).length + 1 ≤ n →
          ((MPT.getPoiCallP E now (effective E secure k)).fetch E ask n m.2).1 = t.2.getPoi E now k) ∧
        (4 * (effective E secure k).length + 2 ≤ n →
          ((MPT.getPoeCallP E now (effective E secure k)).fetch E ask n m.2).1 = t.2.getPoe E now k) := by
  intro t m
  have hsec : (MPT.after E secure ops).secure = secure := after_secure ..
  have ht : ∀ w ∈ t.2.store.written, w ∈ t.2.store.written ++ S.kv.map (·.2) := fun w h => List.mem_append_left _ h
  have hlt : LogOk E t.2.store.written := hp.coll.mono ht
  have h0 : ∀ w ∈ (MPT.after E secure ops).store.written, w ∈ t.2.store.written ++ S.kv.map (·.2) := fun w h => ht w (by
    obtain ⟨ws, e⟩ := Call.seqAll_writes (E := E) calls (MPT.after E secure ops)
    change w ∈ (Call.seqAll E calls (MPT.after E secure ops)).2.store.written
    rw [e, replay_written]
    exact List.mem_append_left _ h)
  have hg := after_gs (E := E) ops h0
  have hb := Bears.after ho (hp.coll.mono h0)
  obtain ⟨r1, r2, r3, r4, r5, ⟨b, r6⟩, r7, r8⟩ := (Call.fetchAll_same hp.coll hp.answers n calls (MPT.after E secure ops)
    { MPT.after E secure ops with store := S } _ hb (by rw [hsec]; exact hc) rfl rfl hp.gs hg ht).2 hask
    (mostLoads_le _ _ _ hb (by rw [hsec]; exact hc) hlt (by rw [hsec]; exact hn))
  have hs : t.2.secure = secure := r7.trans hsec
  have hkey : t.2.keyOf E k = effective E secure k := by
    rw [← hs]; exact keyOf_eq ..
  refine ⟨r1, r2, by unfold MPT.rootHash; rw [r2], fun now => ⟨fun hn => ?_, fun hn => ?_⟩⟩
  · have h1 := Prog.pulls_poiCall r6.holds now k
    have h2 := Prog.Reads.poiCall (t := t.2) E now k
    have h3 := r6.holds.never_key hlt (fits_nibs (k := k) (by rw [r7, hsec]; exact hk))
    rw [hkey] at h1 h2
    exact (Prog.fetch_proof hp.coll hp.answers n (Prog.Quiet.poiCall E now _) h2 (h3.2.2.1 now) r2 r3 r4 r5).2 r8
      (Nat.le_trans h1 hn)
  · have h1 := Prog.pulls_poeCall r6.holds now k
    have h2 := Prog.Reads.poeCall (E := E) (t := t.2) r6.root_ne_nil now k
    have h3 := r6.holds.never_key hlt (fits_nibs (k := k) (by rw [r7, hsec]; exact hk))
    rw [hkey] at h1 h2
    exact (Prog.fetch_proof hp.coll hp.answers n (Prog.Quiet.poeCall E now _) h2 (h3.2.2.2 now) r2 r3 r4 r5).2 r8
      (Nat.le_trans h1 hn)

/-- C124, whoever answers: the calls end as on the complete trie, up to one that ends with KeyError; if none does, the
root is that of the complete trie as well.  No wrong value is ever read. -/
theorem C124_anybody {E : Env} {secure : Bool} {ops : List Op} {calls : List Call} {S : Store}
    {ask : Bytes → Option Bytes} {n : Nat}
    (ho : ∀ op ∈ ops, Fits E secure op.key) (hc : ∀ c ∈ calls, Fits E secure c.key)
    (hp : Peer E (Call.seqAll E calls (MPT.after E secure ops)).2.store.written S ask) :
    let t := Call.seqAll E calls (MPT.after E secure ops)
    let m := Call.fetchAll E ask n calls { MPT.after E secure ops with store := S }
    (m.1 = t.1 ∧ m.2.root = t.2.root) ∨ ∃ i, m.1.take i = t.1.take i ∧ m.1[i]? = some (.error .keyError) := by
  intro t m
  have hsec : (MPT.after E secure ops).secure = secure := after_secure ..
  have ht : ∀ w ∈ t.2.store.written, w ∈ t.2.store.written ++ S.kv.map (·.2) := fun w h => List.mem_append_left _ h
  have h0 : ∀ w ∈ (MPT.after E secure ops).store.written, w ∈ t.2.store.written ++ S.kv.map (·.2) := fun w h => ht w (by
    obtain ⟨ws, e⟩ := Call.seqAll_writes (E := E) calls (MPT.after E secure ops)
    change w ∈ (Call.seqAll E calls (MPT.after E secure ops)).2.store.written
    rw [e, replay_written]
    exact List.mem_append_left _ h)
  rcases (Call.fetchAll_same hp.coll hp.answers n calls (MPT.after E secure ops)
    { MPT.after E secure ops with store := S } _ (Bears.after ho (hp.coll.mono h0)) (by rw [hsec]; exact hc) rfl rfl hp.gs
    (after_gs (E := E) ops h0) ht).1 with h | h
  · exact .inl ⟨h.1, h.2.1⟩
  · exact .inr h

/-- C124, after a KeyError: a call that ends with KeyError is as good as not made.  The calls that end otherwise end as
on the complete trie on which only these are made, and the root is the one of that trie.  (No two nodes of the tries that
may arise so have the same hash.) -/
theorem C124_made {E : Env} {secure : Bool} {ops : List Op} {calls : List Call} {S : Store}
    {ask : Bytes → Option Bytes} {n : Nat} {log : List Bytes}
    (ho : ∀ op ∈ ops, Fits E secure op.key) (hc : ∀ c ∈ calls, Fits E secure c.key) (hp : Peer E log S ask)
    (ht : ∀ some, some.Sublist calls →
      ∀ w ∈ (Call.seqAll E some (MPT.after E secure ops)).2.store.written, w ∈ log) :
    let m := Call.fetchAll E ask n calls { MPT.after E secure ops with store := S }
    let t := Call.seqAll E (madeCalls calls m.1) (MPT.after E secure ops)
    m.1.filter (fun x => x ≠ .error .keyError) = t.1 ∧ m.2.root = t.2.root := by
  intro m t
  have hsec : (MPT.after E secure ops).secure = secure := after_secure ..
  have hin : ∀ w ∈ log, w ∈ log ++ S.kv.map (·.2) := fun w h => List.mem_append_left _ h
  have h0 : ∀ w ∈ (MPT.after E secure ops).store.written, w ∈ log ++ S.kv.map (·.2) := fun w h =>
    hin w (ht [] (List.nil_sublist _) w h)
  have := Call.fetchAll_made hp.coll hp.answers n calls (MPT.after E secure ops)
    { MPT.after E secure ops with store := S } _ (Bears.after ho (hp.coll.mono h0)) (by rw [hsec]; exact hc) rfl rfl hp.gs
    (after_gs (E := E) ops h0) fun s h w hw => hin w (ht s h w hw)
  exact ⟨this.1, this.2.1⟩

/-- Answers from a list. -/
theorem peer_of {E : Env} {log : List Bytes} {S : Store} {ask : Bytes → Option Bytes} (A : List Bytes)
    (ha : ∀ h v, ask h = some v → v ∈ A) (he : ∀ e ∈ S.kv, e.1 = E.keccak e.2 ∧ 32 ≤ e.2.length)
    (hl : LogOk E (log ++ S.kv.map (·.2)))
    (hc : CollFree E (A ++ Item.encode (.str []) :: (log ++ S.kv.map (·.2)))) : Peer E log S ask :=
  ⟨he, hl, fun h v hv w hw => hc v (List.mem_append_left _ (ha h v hv)) w (List.mem_append_right _ hw)⟩

/-- Calls of a client that has no node at all, ... -/
def onDemandCalls : List Call :=
  [.get [0x12, 0x34], .contains [0x99], .update [0x99] (bigValue 6), .delete [0x13], .get [0x99], .get [0x13]]

/-- ... and asks an object that has them all, ... -/
def honest (h : Bytes) : Option Bytes := dget (MPT.after toyEnv false readOps).store.kv h

/-- ... or somebody who gives other bytes for the leaf of `13`. -/
def liar (h : Bytes) : Option Bytes :=
  if h = ((MPT.after toyEnv false readOps).store.kv.map (·.1)).getD 5 [] then some (bigValue 9) else honest h

theorem mem_values {d : Dict Bytes} (h v : Bytes) (hv : dget d h = some v) : v ∈ d.map (·.2) :=
  List.mem_map.2 ⟨_, mem_of_dget hv, rfl⟩

theorem honest_mem (h v : Bytes) (hv : honest h = some v) : v ∈ (MPT.after toyEnv false readOps).store.kv.map (·.2) :=
  mem_values h v hv

theorem liar_mem (h v : Bytes) (hv : liar h = some v) :
    v ∈ bigValue 9 :: (MPT.after toyEnv false readOps).store.kv.map (·.2) := by
  unfold liar at hv
  split at hv
  · injection hv with hv; rw [← hv]; exact List.mem_cons_self
  · exact List.mem_cons_of_mem _ (honest_mem h v hv)

/-- The hypotheses of C124 hold for the first of them; nine nodes were loaded or made. -/
example : (∀ op ∈ readOps, Fits toyEnv false op.key) ∧ (∀ c ∈ onDemandCalls, Fits toyEnv false c.key) ∧
    Peer toyEnv (Call.seqAll toyEnv onDemandCalls (MPT.after toyEnv false readOps)).2.store.written ⟨[], []⟩ honest ∧
    (∀ h v, dget (MPT.after toyEnv false readOps).store.kv h = some v → dget [] h = some v ∨ honest h = some v) ∧
    (∀ c ∈ onDemandCalls, readCost toyEnv false c ≤ 6) ∧
    (Call.fetchAll toyEnv honest 6 onDemandCalls { MPT.after toyEnv false readOps with store := ⟨[], []⟩ }).1 =
      [.ok (.value (bigValue 1)), .ok (.bool false), .ok .none, .ok .none, .ok (.value (bigValue 6)),
        .error .extensionPath] ∧
    (Call.fetchAll toyEnv honest 6 onDemandCalls
      { MPT.after toyEnv false readOps with store := ⟨[], []⟩ }).2.store.kv.length = 9 :=
  ⟨by decide +kernel, by decide +kernel,
    peer_of _ honest_mem (by decide +kernel) (logOk_of (by decide +kernel)) (collFree_of (by decide +kernel)),
    fun _ _ h => .inr h, by decide +kernel, by decide +kernel, by decide +kernel⟩

/-- With the second one two calls end with KeyError, and none with a wrong value. -/
example : Peer toyEnv (Call.seqAll toyEnv onDemandCalls (MPT.after toyEnv false readOps)).2.store.written ⟨[], []⟩ liar ∧
    (Call.fetchAll toyEnv liar 6 onDemandCalls { MPT.after toyEnv false readOps with store := ⟨[], []⟩ }).1 =
      [.ok (.value (bigValue 1)), .ok (.bool false), .ok .none, .error .keyError, .ok (.value (bigValue 6)),
        .error .keyError] :=
  ⟨peer_of _ liar_mem (by decide +kernel) (logOk_of (by decide +kernel)) (collFree_of (by decide +kernel)),
    by decide +kernel⟩

/-- All choices of some of the calls. -/
def choices : List Call → List (List Call)
  | [] => [[]]
  | c :: l => choices l ++ (choices l).map (c :: ·)

theorem mem_choices {s l : List Call} (h : s.Sublist l) : s ∈ choices l := by
  induction h with
  | slnil => exact List.mem_cons_self
  | cons a _ ih => exact List.mem_append_left _ ih
  | cons_cons a _ ih => exact List.mem_append_right _ (List.mem_map.2 ⟨_, ih, rfl⟩)

/-- Three of the calls, ... -/
def threeCalls : List Call := [.update [0x99] (bigValue 6), .delete [0x13], .get [0x99]]

/-- ... and the nodes that may arise. -/
def threeLog : List Bytes :=
  (choices threeCalls).flatMap fun s => (Call.seqAll toyEnv s (MPT.after toyEnv false readOps)).2.store.written

/-- The second one again: the deletion of `13` ends with KeyError, and the other calls end as without it. -/
example : madeCalls threeCalls
      (Call.fetchAll toyEnv liar 6 threeCalls { MPT.after toyEnv false readOps with store := ⟨[], []⟩ }).1 =
      [.update [0x99] (bigValue 6), .get [0x99]] ∧
    Peer toyEnv threeLog ⟨[], []⟩ liar ∧
    (∀ s, s.Sublist threeCalls → ∀ w ∈ (Call.seqAll toyEnv s (MPT.after toyEnv false readOps)).2.store.written,
      w ∈ threeLog) :=
  ⟨by decide +kernel,
    peer_of _ liar_mem (by decide +kernel) (logOk_of (by decide +kernel)) (collFree_of (by decide +kernel)),
    fun s h w hw => List.mem_flatMap.2 ⟨s, mem_choices h, hw⟩⟩

/-- Asked once too few, the client gives up. -/
example : (Call.fetchAll toyEnv honest 3 onDemandCalls
    { MPT.after toyEnv false readOps with store := ⟨[], []⟩ }).1.head? = some (.error .keyError) := by decide +kernel

end Pymt.Props
