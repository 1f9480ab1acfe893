import Verif.Lemmas.Reopen
import Verif.Spec.Toy

/-!
# Properties C10-C14: the storage
-/

namespace Pymt
namespace Props

/-- Something is in the trie object. -/
theorem ne_empty_of_contents {E : Env} {secure : Bool} {ops : List Op} {ks : List Bytes} {a : T}
    (h : Valid E secure ops ks) (ha : ∀ k, T.lookup a (toNibs k) = eff E secure ops k) {k : Bytes}
    (hk : contents ops k ≠ none) : a ≠ .empty := by
  rintro rfl
  cases hm : contents ops k with
  | none => exact hk hm
  | some v =>
    have : eff E secure ops (effective E secure k) = some v := by
      rw [eff_eq h.keys (List.mem_append_right _ (contents_some_mem hm)), hm]
    rw [← ha] at this
    simp [T.lookup] at this

/-! ### C10: old roots stay readable -/

/-- C10: a trie opened at an old root over the storage as it is later answers as the old trie did
(for an empty old trie both `get`s raise, possibly different exceptions). -/
theorem C10_old_roots {E : Env} {secure : Bool} {ops more : List Op} {k : Bytes}
    (h : Valid E secure (ops ++ more) [k]) :
    let old := MPT.after E secure ops
    let again := MPT.init E (MPT.after E secure (ops ++ more)).store old.root secure
    again.rootHash E = old.rootHash E ∧ again.contains E k = old.contains E k ∧
    (∀ v, again.get E k = .ok v ↔ old.get E k = .ok v) ∧
    (∀ k', contents ops k' ≠ none → again.get E k = old.get E k) := by
  have hc := h.cut
  obtain ⟨a, h1, h2, h3, h4⟩ := hc.inv
  have hst : ∃ ws, (MPT.after E secure (ops ++ more)).store = replay E ws (MPT.after E secure ops).store := by
    rw [after_append]; exact run_writes E more _
  have h1' := h1.reopen hst h.log secure
  have hf : Fits E secure k := h.fitsq k (by simp)
  obtain ⟨o1, o2⟩ := h1'.observe h1 (after_secure E secure ops).symm h.log hc.log hf
  refine ⟨by rw [h1'.rootHash, h1.rootHash], o1, o2, fun k' hk' => ?_⟩
  have hne := ne_empty_of_contents hc h3 hk'
  have e : (MPT.init E (MPT.after E secure (ops ++ more)).store (MPT.after E secure ops).root secure).keyOf E k =
      (MPT.after E secure ops).keyOf E k := by
    simp [keyOf_eq, MPT.init, after_secure]
  rw [h1'.get hne (fits_nibs hf), h1.get hne (fits_nibs (by rw [after_secure]; exact hf)), e]

/-- C10, further: the trie opened at the old root can also be changed; it goes on as the old trie would
have. -/
theorem C10_fork {E : Env} {secure : Bool} {ops more other : List Op} {k : Bytes}
    (h : Valid E secure (ops ++ more) []) (h' : Valid E secure (ops ++ other) [k])
    (hl : LogOk E (MPT.run E other (MPT.init E (MPT.after E secure (ops ++ more)).store
      (MPT.after E secure ops).root secure)).store.written) :
    let fork := MPT.run E other (MPT.init E (MPT.after E secure (ops ++ more)).store
      (MPT.after E secure ops).root secure)
    fork.rootHash E = (MPT.after E secure (ops ++ other)).rootHash E ∧
    fork.contains E k = (MPT.after E secure (ops ++ other)).contains E k ∧
    (∀ v, fork.get E k = .ok v ↔ (MPT.after E secure (ops ++ other)).get E k = .ok v) := by
  have hst : ∃ ws, (MPT.after E secure (ops ++ more)).store = replay E ws (MPT.after E secure ops).store := by
    rw [after_append]; exact run_writes E more _
  have hi := h.cut.inv.reopen hst h.log secure
  have hr := hi.run (ops := other) (fun pre hp => by
      have := h'.clean (pre := ops ++ pre) ((List.prefix_append_right_inj _).2 hp)
      rw [eff, List.map_append, contents_append] at this
      exact this)
    (fun op ho => h'.fits op (List.mem_append_right _ ho)) hl
  have he : contentsFrom (eff E secure ops) (other.map (Op.mapKey (effective E secure))) =
      eff E secure (ops ++ other) := by
    simp [eff, contents, contentsFrom]
  have hr : Inv E (MPT.run E other (MPT.init E (MPT.after E secure (ops ++ more)).store
      (MPT.after E secure ops).root secure)) (eff E secure (ops ++ other)) := he ▸ hr
  obtain ⟨a, h1, h2, _⟩ := Inv.same hr h'.inv
  have hsec : (MPT.run E other (MPT.init E (MPT.after E secure (ops ++ more)).store
      (MPT.after E secure ops).root secure)).secure = secure := run_secure _ _ _
  obtain ⟨o1, o2⟩ := h1.observe h2 (hsec.trans (after_secure _ _ _).symm) hl h'.log
    (by rw [hsec]; exact h'.fitsq k (by simp))
  exact ⟨by rw [h1.rootHash, h2.rootHash], o1, o2⟩

example : Valid toyEnv false (sampleOps ++ [.delete [0x12], .update [0x55] (bigValue 7)]) [[0x12]] ∧
    contents sampleOps [0x12] ≠ none :=
  ⟨valid_of (by decide +kernel), by decide +kernel⟩
example : Valid toyEnv false (sampleOps ++ [.update [0x12, 0x99] (bigValue 8)]) [[0x12, 0x99]] ∧
    LogOk toyEnv (MPT.run toyEnv [.update [0x12, 0x99] (bigValue 8)] (MPT.init toyEnv
      (MPT.after toyEnv false (sampleOps ++ [.delete [0x12]])).store
      (MPT.after toyEnv false sampleOps).root false)).store.written :=
  ⟨valid_of (by decide +kernel), logOk_of (by decide +kernel)⟩

/-! ### C11: tries sharing a storage -/

/-- C11: after any interleaving of calls on any number of objects over one dict, each object has the
root hash it would have with a storage of its own, gives the same answers, and the next call on it ends
the same way.  (The first hypothesis on `log` is about the shared storage, `Valid` about the separate
one.) -/
theorem C11_shared {E : Env} {secure : Nat → Bool} {calls : List (Nat × Op)} {i : Nat} {k : Bytes}
    (hv : ∀ j, secure j = false → ∀ pre, pre <+: calls → Clean (contents (callsOf j pre)))
    (hf : ∀ c ∈ calls, Fits E (secure c.1) c.2.key)
    (hl : LogOk E (Shared.run E calls (Shared.new E secure)).store.written)
    (h : Valid E (secure i) (callsOf i calls) [k]) :
    let obj := (Shared.run E calls (Shared.new E secure)).obj i
    let own := MPT.after E (secure i) (callsOf i calls)
    obj.rootHash E = own.rootHash E ∧ obj.contains E k = own.contains E k ∧
    (∀ v, obj.get E k = .ok v ↔ own.get E k = .ok v) ∧
    ∀ op, Fits E (secure i) op.key → LogOk E (MPT.exec E op obj).2.store.written →
      LogOk E (MPT.exec E op own).2.store.written → (MPT.exec E op obj).1 = (MPT.exec E op own).1 := by
  have hi := Shared.inv (w := Shared.new E secure) (m := fun _ _ => none)
    (fun j => Inv.new E (secure j)) (fun j pre hp => clean_eff fun hs => hv j hs pre hp) hf hl i
  have hsec : ((Shared.run E calls (Shared.new E secure)).obj i).secure = secure i :=
    Shared.run_secure E calls _ i
  obtain ⟨a, h1, h2, _⟩ := Inv.same hi h.inv
  have hs := hsec.trans (after_secure E (secure i) (callsOf i calls)).symm
  obtain ⟨o1, o2⟩ := h1.observe h2 hs hl h.log (by rw [hsec]; exact h.fitsq k (by simp))
  refine ⟨by rw [h1.rootHash, h2.rootHash], o1, o2, fun op hop l1 l2 => ?_⟩
  exact h1.outcome h2 hs (by rw [hsec]; exact hop) l1 l2

/-- Two objects, one secure, calls interleaved. -/
example : ∃ calls : List (Nat × Op), ∃ secure : Nat → Bool,
    (∀ j, secure j = false → ∀ pre, pre <+: calls → Clean (contents (callsOf j pre))) ∧ (∀ c ∈ calls, Fits toyEnv (secure c.1) c.2.key) ∧
    LogOk toyEnv (Shared.run toyEnv calls (Shared.new toyEnv secure)).store.written ∧
    Valid toyEnv (secure 0) (callsOf 0 calls) [[0x12]] ∧ Valid toyEnv (secure 1) (callsOf 1 calls) [[0x12]] ∧
    callsOf 0 calls ≠ [] ∧ callsOf 1 calls ≠ [] := by
  refine ⟨[(0, .update [0x12] (bigValue 1)), (1, .update [0x12] (bigValue 2)),
    (0, .update [0x12, 0x34] (bigValue 1)), (1, .delete [0x13]), (0, .delete [0x12])], fun i => i == 1,
    fun j _ pre hp => clean_of_nonempty fun op ho => ?_, by decide, logOk_of (by decide +kernel),
    valid_of (by decide +kernel),
    valid_of (by decide +kernel), by decide, by decide⟩
  simp only [callsOf, List.mem_map, List.mem_filter] at ho
  obtain ⟨c, ⟨hc, _⟩, rfl⟩ := ho
  have hall : ∀ c ∈ [(0, .update [0x12] (bigValue 1)), (1, .update [0x12] (bigValue 2)),
    (0, .update [0x12, 0x34] (bigValue 1)), (1, .delete [0x13]), (0, Op.delete [0x12])], c.2.NonEmpty := by
    decide
  exact hall c (hp.subset hc)

/-! ### C12: crash safety -/

/-- C12: stop the process after any number of the writes of a call: the previous root is readable from
the storage, with the previous answers. -/
theorem C12_crash {E : Env} {secure : Bool} {ops : List Op} {op : Op} {n : Nat} {k : Bytes}
    (h : Valid E secure (ops ++ [op]) [k]) :
    let old := MPT.after E secure ops
    let again := MPT.init E (crashed E op old n) old.root secure
    again.rootHash E = old.rootHash E ∧ again.contains E k = old.contains E k ∧
    (∀ v, again.get E k = .ok v ↔ old.get E k = .ok v) ∧
    (∀ v, contents ops k = some v → again.get E k = .ok v) := by
  have hc := h.cut
  obtain ⟨a, h1, h2, h3, h4⟩ := hc.inv
  have hlog : LogOk E (MPT.exec E op (MPT.after E secure ops)).2.store.written := by
    have := h.log
    rw [after_append] at this
    exact this
  have hl := crashed_log (n := n) hlog
  have h1' := h1.reopen (crashed_replay E op _ n) hl secure
  have hf : Fits E secure k := h.fitsq k (by simp)
  obtain ⟨o1, o2⟩ := h1'.observe h1 (after_secure E secure ops).symm hl hc.log hf
  refine ⟨by rw [h1'.rootHash, h1.rootHash], o1, o2, fun v hv => (o2 v).2 ?_⟩
  exact hc.inv.get_some (hc.fit (by simp)) ((hc.eff_key (by simp)).trans hv)

/-- The crash points include the end of the call, and calls do write several nodes. -/
example (E : Env) (op : Op) (t : MPT) :
    crashed E op t ((MPT.exec E op t).2.store.written.length) = (MPT.exec E op t).2.store :=
  crashed_all E op t
example : Valid toyEnv false (sampleOps ++ [.update [0x12, 0x99] (bigValue 8)]) [[0x12, 0x34]] ∧
    (MPT.after toyEnv false sampleOps).store.written.length + 2 ≤
      (MPT.after toyEnv false (sampleOps ++ [.update [0x12, 0x99] (bigValue 8)])).store.written.length ∧
    contents sampleOps [0x12, 0x34] ≠ none :=
  ⟨valid_of (by decide +kernel), by decide +kernel, by decide +kernel⟩

/-! ### C13: content addressed, append only -/

/-- C13: entries are keyed by the hash of their value, no key ever disappears, and no value ever changes
unless two different byte strings written collide.  For every history, empty values and failing calls
included. -/
theorem C13_append_only {E : Env} {secure : Bool} {ops more : List Op} {k v : Bytes}
    (h : dget (MPT.after E secure ops).store.kv k = some v) :
    k = E.keccak v ∧
    (∃ v', dget (MPT.after E secure (ops ++ more)).store.kv k = some v') ∧
    (CollFree E (MPT.after E secure (ops ++ more)).store.written →
      dget (MPT.after E secure (ops ++ more)).store.kv k = some v) := by
  have hg : Good E (MPT.after E secure ops).store := by
    rw [after_replay]; exact (Good.empty E).replay _
  obtain ⟨ws, hw⟩ := run_writes E more (MPT.after E secure ops)
  rw [after_append, hw]
  refine ⟨(hg k v h).1, replay_present (.inr ⟨v, h⟩), fun hc => dget_replay hg ?_ h⟩
  rwa [replay_written] at hc

example : ∃ k v, dget (MPT.after toyEnv false sampleOps).store.kv k = some v ∧
    CollFree toyEnv (MPT.after toyEnv false (sampleOps ++ [.delete [0x12]])).store.written := by
  refine ⟨((MPT.after toyEnv false sampleOps).store.kv.head!).1,
    ((MPT.after toyEnv false sampleOps).store.kv.head!).2, by decide +kernel, collFree_of (by decide +kernel)⟩

/-! ### C14: no dangling references -/

/-- C14: after any number of the writes ever made (so also in the middle of a call), every entry of the
storage is a node, and everything of 32 bytes it refers to is in the storage; and so is the root, unless
it is the hash of the empty node.  For every history, empty values and failing calls included; no
assumption on the hash. -/
theorem C14_no_dangling {E : Env} {secure : Bool} {ops : List Op}
    (hs : ∀ w ∈ (MPT.after E secure ops).store.written, w.length < 2 ^ 64) :
    (∀ n k w, dget (storeAfter E (MPT.after E secure ops).store.written n).kv k = some w →
      (∃ node, Node.decode w = .ok node) ∧
      ∀ r, Mentions w r → r.length = 32 →
        ∃ w', dget (storeAfter E (MPT.after E secure ops).store.written n).kv r = some w') ∧
    (∀ r, (MPT.after E secure ops).root = some r → r.length = 32 → r ≠ emptyHash E →
      ∃ w, dget (MPT.after E secure ops).store.kv r = some w) := by
  have hsound : Sound E (MPT.after E secure ops) := (Sound.new E secure).run ops hs
  constructor
  · intro n k w hk
    have hrep : storeAfter E (MPT.after E secure ops).store.written n =
      replay E ((MPT.after E secure ops).store.written.take n) Store.empty := rfl
    rw [hrep] at hk ⊢
    have hg := (Good.empty E).replay ((MPT.after E secure ops).store.written.take n)
    obtain ⟨_, hw⟩ := hg k w hk
    rw [replay_written] at hw
    simp only [Store.empty, List.nil_append] at hw
    have hchain := hsound.chain.prefix (List.take_prefix n _)
    obtain ⟨_, node, hd, hn⟩ := hchain.mem hw
    refine ⟨⟨node, hd⟩, fun r hm h32 => ?_⟩
    have short : ∀ r1 r2 : Bytes, Mentions r1 r2 → r2.length < r1.length := by
      intro r1 r2 hm
      induction hm with
      | ext h => exact (decode_refs h).2 _ (by simp [Node.refs])
      | branch h hr => exact (decode_refs h).2 _ hr
      | inline _ _ _ ih1 ih2 => omega
    have key : ∀ r2, Mentions w r2 → OkRef E ((MPT.after E secure ops).store.written.take n) r2 := by
      intro r2 hm
      cases hm with
      | ext h => rw [hd] at h; cases h; exact hn.next
      | branch h hr => rw [hd] at h; cases h; exact hn.2 _ hr
      | inline h1 h2 h3 =>
        have := short _ _ h3
        exact ⟨by omega, fun h => by omega⟩
    obtain ⟨w', hw', he⟩ := (key r hm).2 h32
    exact replay_present (.inl ⟨w', hw', he⟩)
  · intro r hr h32 hne
    rcases hsound.root r hr with h0 | h0
    · exact absurd h0 hne
    · obtain ⟨w', hw', he⟩ := h0.2 h32
      rw [after_replay]
      exact replay_present (.inl ⟨w', hw', he⟩)

/-- The sizes are met, and there are entries with references. -/
example : (∀ w ∈ (MPT.after toyEnv false sampleOps).store.written, w.length < 2 ^ 64) ∧
    ∃ w ∈ (MPT.after toyEnv false sampleOps).store.written, ∃ r, Mentions w r ∧ r.length = 32 := by
  refine ⟨by decide +kernel, ((MPT.after toyEnv false sampleOps).store.written.getLast!), by decide +kernel, ?_⟩
  have h : ∃ bs d, Node.decode ((MPT.after toyEnv false sampleOps).store.written.getLast!) = .ok (.branch bs d) ∧
      ∃ r ∈ bs, r.length = 32 := by
    have hd : (match Node.decode ((MPT.after toyEnv false sampleOps).store.written.getLast!) with
      | .ok (.branch bs _) => bs.any (fun r => r.length == 32)
      | _ => false) = true := by decide +kernel
    split at hd
    · rename_i bs d h; exact ⟨bs, d, h, by simpa using hd⟩
    · simp at hd
  obtain ⟨bs, d, h1, r, h2, h3⟩ := h
  exact ⟨r, .branch h1 h2, h3⟩

end Props
end Pymt
