import Verif.Lemmas.Copies
import Verif.Props.EmptWatching
import Verif.Props.Threads
import Verif.Props.Watching

/-!
# Properties C97, C98: copies of a trie taken while another thread writes to it

`EMPT.passes`, `Sees`: `Verif/Spec/EmptWatching.lean`; `viewAt`, `Moments`: `Verif/Spec/Watching.lean`; `SameAnswers`,
`SameOrKeyError`: `Verif/Spec/Copies.lean`.
-/

namespace Pymt
namespace Props

/-! ### C97: `get_sparse_trie` -/

/-- The full statement of C97: the copy answers as a copy taken before or after one of the calls made meanwhile. -/
def C97 : Prop := ∀ (E : Env) (secure : Bool) (pre mid : List EOp) (ks : List Bytes) (V : Nat → EMPT),
  EValid E secure (pre ++ mid) ks → Sees (EMPT.passes E (EMPT.after E secure pre) mid) V →
  ∃ q c, q ≤ mid.length ∧ (EMPT.getSparseP E secure).watch (fun n => (V n).trie) = .ok c ∧
    ∀ k ∈ ks, SameAnswers E c ((EMPT.after E secure (pre ++ mid.take q)).getSparse E) k

theorem midState_min (E : Env) (secure : Bool) (pre mid : List EOp) (q : Nat) :
    midState E secure pre mid q = midState E secure pre mid (min q mid.length) := by
  unfold midState
  rw [List.take_eq_take_min]

theorem getSparse_eq {E : Env} {secure : Bool} {s : EMPT} (h : s.trie.secure = secure) :
    s.getSparse E = MPT.init E s.trie.store s.trie.root secure := by
  subst h; rfl

/-- C97, outcomes: RuntimeError exactly if the dict has grown when the loop asks for the end; else the copy has the
entries of the dict. -/
theorem C97_runtime {E : Env} {secure : Bool} {pre mid : List EOp} {ks : List Bytes} {V : Nat → EMPT}
    (h : EValid E secure (pre ++ mid) ks) (hV : Sees (EMPT.passes E (EMPT.after E secure pre) mid) V) :
    let n := (V 0).trie.store.kv.length
    ((EMPT.getSparseP E secure).watch (fun n => (V n).trie) = .error .runtime ∧
      n < (V (2 * n + 1)).trie.store.kv.length) ∨
    ∃ c, (EMPT.getSparseP E secure).watch (fun n => (V n).trie) = .ok c ∧
      (V (2 * n + 1)).trie.store.kv = (V 0).trie.store.kv ∧ c.store.kv = (V 0).trie.store.kv := by
  intro n
  have hsh := h.shelves hV
  have hx := hsh.getSparse E secure
  by_cases hl : (V (2 * n + 1)).trie.store.kv.length = n
  · rw [if_pos hl] at hx
    have := hsh.fixed (m := 0) (b := 2 * n + 1) (Nat.zero_le _) hl
    exact .inr ⟨_, hx, this.symm, this.symm⟩
  · rw [if_neg hl] at hx
    have := (hsh.grow_le (Nat.zero_le (2 * n + 1))).length
    exact .inl ⟨hx, Nat.lt_of_le_of_ne this (Ne.symm hl)⟩

/-- C97 in part: a copy has the root of some moment, gives the answers of that moment or raises KeyError, and checks
proofs as at that moment.  (Missing: RuntimeError, and the KeyErrors.) -/
theorem C97_never_wrong_partial {E : Env} {secure : Bool} {pre mid : List EOp} {ks : List Bytes} {V : Nat → EMPT}
    (h : EValid E secure (pre ++ mid) ks) (hV : Sees (EMPT.passes E (EMPT.after E secure pre) mid) V) {c : MPT}
    (hc : (EMPT.getSparseP E secure).watch (fun n => (V n).trie) = .ok c) :
    ∃ q, q ≤ mid.length ∧ c.root = ((EMPT.after E secure (pre ++ mid.take q)).getSparse E).root ∧
      (∀ k ∈ ks, SameOrKeyError E c ((EMPT.after E secure (pre ++ mid.take q)).getSparse E) k) ∧
      (∀ p, c.verifyPoi E p = ((EMPT.after E secure (pre ++ mid.take q)).getSparse E).verifyPoi E p) ∧
      ∀ p, c.verifyPoe E p = ((EMPT.after E secure (pre ++ mid.take q)).getSparse E).verifyPoe E p := by
  have hsh := h.shelves hV
  have hx := hsh.getSparse E secure
  obtain ⟨⟨e, hv⟩, _⟩ := h.views hV
  rw [hc] at hx
  split at hx
  · injection hx with hx
    generalize (V 0).trie.store.kv.length = n at hx
    have hsec : ∀ q, (midState E secure pre mid q).trie.secure = secure := fun q => (hv.ok q).sec
    have hq : EMPT.after E secure (pre ++ mid.take (min (e (2 * n + 2)) mid.length)) =
        midState E secure pre mid (e (2 * n + 2)) := by rw [midState_min]; rfl
    have hroot : c.root = ((midState E secure pre mid (e (2 * n + 2))).getSparse E).root := by
      rw [hx, getSparse_eq (hsec _)]
      simp only [MPT.init]
      rw [show (V (2 * n + 2)).trie.root = _ from hv.root _]
    refine ⟨min (e (2 * n + 2)) mid.length, Nat.min_le_right _ _, ?_, fun k hk => ?_, fun p => ?_, fun p => ?_⟩
    · rw [hq, hroot]
    · rw [hq, getSparse_eq (hsec _)]
      exact hv.torn (2 * n + 1) (2 * n + 2) (by rw [hx]; rfl) (by rw [hx]; rfl) (by rw [hx]; rfl) (h.fitsq k hk)
    · rw [hq]
      unfold MPT.verifyPoi MPT.noRoot MPT.rootHash
      rw [hroot]
    · rw [hq]
      unfold MPT.verifyPoe MPT.noRoot MPT.rootHash
      rw [hroot]
  · exact (nomatch hx)

/-- C97 in part: if the root does not change between the last look at the dict and the look at the root, the copy is
that of a moment.  (Missing: other copies.) -/
theorem C97_whole_partial {E : Env} {secure : Bool} {pre mid : List EOp} {ks : List Bytes} {V : Nat → EMPT}
    (h : EValid E secure (pre ++ mid) ks) (hV : Sees (EMPT.passes E (EMPT.after E secure pre) mid) V) {c : MPT}
    (hc : (EMPT.getSparseP E secure).watch (fun n => (V n).trie) = .ok c)
    (hr : (V (2 * c.store.kv.length + 2)).trie.root = (V (2 * c.store.kv.length + 1)).trie.root) :
    ∃ q, q ≤ mid.length ∧ ∀ k ∈ ks, SameAnswers E c ((EMPT.after E secure (pre ++ mid.take q)).getSparse E) k := by
  have hsh := h.shelves hV
  have hx := hsh.getSparse E secure
  obtain ⟨⟨e, hv⟩, _⟩ := h.views hV
  rw [hc] at hx
  split at hx
  · rename_i hl
    injection hx with hx
    have hn : c.store.kv.length = (V 0).trie.store.kv.length := by rw [hx]; exact hl
    rw [hn] at hr
    generalize (V 0).trie.store.kv.length = n at hx hr
    have hsec : ∀ q, (midState E secure pre mid q).trie.secure = secure := fun q => (hv.ok q).sec
    have hq : EMPT.after E secure (pre ++ mid.take (min (e (2 * n + 1)) mid.length)) =
        midState E secure pre mid (e (2 * n + 1)) := by rw [midState_min]; rfl
    refine ⟨min (e (2 * n + 1)) mid.length, Nat.min_le_right _ _, fun k hk => ?_⟩
    rw [hq, getSparse_eq (hsec _)]
    exact hv.whole (2 * n + 1) (by rw [hx]; rfl) (by rw [hx]; rfl) (hsh.nodup _) (by rw [hx, ← hr]; rfl)
      (by rw [hx]; rfl) (h.fitsq k hk)
  · exact (nomatch hx)

/-- One key. -/
def copyPre : List EOp := [.update [0x12, 0x34] (.bytes [1])]

/-- Another key comes meanwhile. -/
def copyMid : List EOp := [.update [0x56] (.bytes [7])]

/-- The first accesses find the object as it was, the later ones as it is after the call. -/
def copySeen (first : Nat) : Nat → EMPT :=
  seenAt (EMPT.passes toyEnv (EMPT.after toyEnv false copyPre) copyMid) (EMPT.new toyEnv false) (List.replicate first 0)

theorem copySeen_sees (first : Nat) :
    Sees (EMPT.passes toyEnv (EMPT.after toyEnv false copyPre) copyMid) (copySeen first) :=
  sees_of (by simp [copyMid, EMPT.passes]) (by simp [List.pairwise_replicate]) (by
    intro m hm
    rw [(List.mem_replicate.1 hm).2]
    exact Nat.zero_le _)

theorem copy_valid : EValid toyEnv false (copyPre ++ copyMid) [[0x12, 0x34]] := evalid_of (by decide +kernel)

/-- The entry of the first key is copied, then the second key is put in, then the root is read: the copy cannot even
find the first key. -/
theorem C97_torn : ((EMPT.getSparseP toyEnv false).watch fun n => (copySeen 4 n).trie).bind
      (fun c => c.get toyEnv [0x12, 0x34]) = .error .keyError ∧
    ∀ q, q ≤ 1 → okAnd ((EMPT.after toyEnv false (copyPre ++ copyMid.take q)).trie.get toyEnv [0x12, 0x34])
      (fun _ => true) = true := by decide +kernel

/-- The second key is put in while the loop runs: RuntimeError. -/
theorem C97_grown : ((EMPT.getSparseP toyEnv false).watch fun n => (copySeen 2 n).trie) = .error .runtime := by
  decide +kernel

theorem C97_false : ¬ C97 := by
  intro h
  obtain ⟨q, c, hq, hc, _⟩ := h toyEnv false copyPre copyMid [[0x12, 0x34]] (copySeen 2) copy_valid (copySeen_sees 2)
  rw [C97_grown] at hc
  exact (nomatch hc)

/-- Even without RuntimeError. -/
theorem C97_torn_false : ¬ ∃ q c, q ≤ copyMid.length ∧
    (EMPT.getSparseP toyEnv false).watch (fun n => (copySeen 4 n).trie) = .ok c ∧
    ∀ k ∈ [[0x12, 0x34]], SameAnswers toyEnv c ((EMPT.after toyEnv false (copyPre ++ copyMid.take q)).getSparse toyEnv) k := by
  rintro ⟨q, c, hq, hc, hk⟩
  have h1 := (hk [0x12, 0x34] (by simp)).1
  have h2 := C97_torn.1
  rw [hc] at h2
  have h3 : c.get toyEnv [0x12, 0x34] = .error .keyError := h2
  rw [h3] at h1
  have hall : ∀ q, q ≤ 1 → ((EMPT.after toyEnv false (copyPre ++ copyMid.take q)).getSparse toyEnv).get toyEnv
      [0x12, 0x34] ≠ .error .keyError := by decide +kernel
  exact hall q hq h1.symm

/-- A torn copy: the theorem above applies to it. -/
example : ∃ c, (EMPT.getSparseP toyEnv false).watch (fun n => (copySeen 4 n).trie) = .ok c ∧
    ∃ q, q ≤ 1 ∧ SameOrKeyError toyEnv c
      ((EMPT.after toyEnv false (copyPre ++ copyMid.take q)).getSparse toyEnv) [0x12, 0x34] := by
  obtain ⟨c, hc⟩ := ok_of (m := (EMPT.getSparseP toyEnv false).watch fun n => (copySeen 4 n).trie) (f := fun _ => true)
    (by decide +kernel)
  obtain ⟨q, hq, _, h1, _⟩ := C97_never_wrong_partial copy_valid (copySeen_sees 4) hc.1
  exact ⟨c, hc.1, q, hq, h1 _ (by simp)⟩

/-- A copy taken while the call is under way, before it changes the dict: it is whole. -/
example : ∃ c, (EMPT.getSparseP toyEnv false).watch (fun n => (copySeen 5 n).trie) = .ok c ∧
    ∃ q, q ≤ 1 ∧ SameAnswers toyEnv c
      ((EMPT.after toyEnv false (copyPre ++ copyMid.take q)).getSparse toyEnv) [0x12, 0x34] := by
  obtain ⟨c, hc⟩ := ok_of (m := (EMPT.getSparseP toyEnv false).watch fun n => (copySeen 5 n).trie)
    (f := fun c => c.store.kv.length == 1) (by decide +kernel)
  have hl : c.store.kv.length = 1 := by simpa using hc.2
  obtain ⟨q, hq, h1⟩ := C97_whole_partial copy_valid (copySeen_sees 5) hc.1 (by rw [hl]; decide +kernel)
  exact ⟨c, hc.1, q, hq, h1 _ (by simp)⟩

/-! ### C98: `encode` -/

/-- The full statement of C98: the bytes decode to the trie as it was before or after one of the calls made meanwhile
(or the trie was empty at that moment and `encode` raises TypeError, see C15). -/
def C98 : Prop := ∀ (E : Env) (secure : Nat → Bool) (calls : Nat → List (Nat × Call)) (log : List Bytes),
  Peaceful E secure calls log → ∀ (sched : List Nat) (i : Nat) (mom : Nat → Nat) (a b : Nat), Moments mom a b →
  ∃ q, (worldAt E secure calls sched a).ended i ≤ q ∧ q ≤ (worldAt E secure calls sched b).ended i ∧
    (((MPT.encodeCallP (secure i)).watch (viewAt E secure calls sched i mom) = .error .typeError ∧
      (MPT.after E (secure i) (writesOf ((calls i).take q))).root = none) ∨
    ∃ bs, (MPT.encodeCallP (secure i)).watch (viewAt E secure calls sched i mom) = .ok bs ∧
      (bs.length < 2 ^ 64 → ∃ t, MPT.decode E bs = .ok t ∧ ∀ k, Fits E (secure i) k →
        SameAnswers E t (MPT.after E (secure i) (writesOf ((calls i).take q))) k))

theorem Peaceful.encode {E : Env} {secure : Nat → Bool} {calls : Nat → List (Nat × Call)} {log : List Bytes}
    (h : Peaceful E secure calls log) (sched : List Nat) (i : Nat) {mom : Nat → Nat} {a b : Nat} (hm : Moments mom a b) :
    let V := viewAt E secure calls sched i mom
    let n := (V 0).store.kv.length
    (MPT.encodeCallP (secure i)).watch V =
      if (V (n + 1)).store.kv.length = n then MPT.encode ⟨(V (n + 1)).store, (V (n + 2)).root, secure i⟩
      else .error .runtime := by
  intro V n
  have hsh := h.shelves sched i hm
  refine hsh.encode (secure i) fun m e he => ?_
  exact ((h.views sched i hm).gs m e.1 e.2 (dget_mem (hsh.nodup m) he)).2.2

theorem encode_ok {st : Store} {r : Option Bytes} {sec : Bool} (hg : ∀ e ∈ st.kv, 32 ≤ e.2.length) :
    (MPT.encode ⟨st, r, sec⟩ = .error .typeError ∧ r = none) ∨
    ∃ b r', MPT.encode ⟨st, r, sec⟩ = .ok b ∧ r = some r' := by
  have henc := prepareAll_long (l := st.kv.map (·.2)) (by
    intro w hw
    obtain ⟨e, hm, rfl⟩ := List.mem_map.1 hw
    exact hg e hm)
  simp only [MPT.encode, henc, Except.bind_ok']
  cases r with
  | none => exact .inl ⟨rfl, rfl⟩
  | some r => exact .inr ⟨_, r, rfl, rfl⟩

/-- C98 in part: `encode` raises RuntimeError, or TypeError if the trie was empty at some moment, or gives bytes that
decode to a trie with the root of some moment which gives the answers of that moment or raises KeyError.  (Missing:
that there is no RuntimeError and no KeyError.) -/
theorem C98_never_wrong_partial {E : Env} {secure : Nat → Bool} {calls : Nat → List (Nat × Call)} {log : List Bytes}
    (h : Peaceful E secure calls log) (sched : List Nat) (i : Nat) {mom : Nat → Nat} {a b : Nat} (hm : Moments mom a b) :
    let x := (MPT.encodeCallP (secure i)).watch (viewAt E secure calls sched i mom)
    let st := fun q => MPT.after E (secure i) (writesOf ((calls i).take q))
    x = .error .runtime ∨
    ∃ q, (worldAt E secure calls sched a).ended i ≤ q ∧ q ≤ (worldAt E secure calls sched b).ended i ∧
      ((x = .error .typeError ∧ (st q).root = none) ∨
      ∃ bs, x = .ok bs ∧ (bs.length < 2 ^ 64 → ∃ t, MPT.decode E bs = .ok t ∧ t.root = (st q).root ∧
        ∀ k, Fits E (secure i) k → SameOrKeyError E t (st q) k)) := by
  intro x st
  have hsh := h.shelves sched i hm
  have hv := h.views sched i hm
  have hx : x = _ := Peaceful.encode h sched i hm
  generalize hn : (viewAt E secure calls sched i mom 0).store.kv.length = n at hx
  split at hx
  · right
    have hb := hm.ended_bounds (E := E) (secure := secure) (calls := calls) (sched := sched) i (n + 2)
    refine ⟨_, hb.1, hb.2, ?_⟩
    have hroot := hv.root (n + 2)
    have hstq : stateAt E secure calls i ((worldAt E secure calls sched (mom (n + 2))).ended i) =
      st ((worldAt E secure calls sched (mom (n + 2))).ended i) := rfl
    rcases encode_ok (st := (viewAt E secure calls sched i mom (n + 1)).store)
        (r := (viewAt E secure calls sched i mom (n + 2)).root) (sec := secure i)
        (fun e he => (hv.gs (n + 1) e.1 e.2 (dget_mem (hsh.nodup (n + 1)) he)).2.2) with ⟨h1, h2⟩ | ⟨bs, r, h1, h2⟩
    · exact .inl ⟨hx.trans h1, by rw [← hstq, ← hroot, h2]⟩
    · refine .inr ⟨bs, hx.trans h1, fun hlen => ?_⟩
      rw [h2] at h1
      have hd := decode_encode (E := E) (hsh.nodup (n + 1)) (fun k v hk => ⟨(hv.gs (n + 1) k v hk).1,
        (hv.gs (n + 1) k v hk).2.2⟩) h1 hlen
      refine ⟨_, hd, ?_, fun k hf => ?_⟩
      · rw [← hstq, ← hroot, h2]; rfl
      · have := hv.torn (n + 1) (n + 2) (c := MPT.init E ⟨(viewAt E secure calls sched i mom (n + 1)).store.kv,
          (viewAt E secure calls sched i mom (n + 1)).store.kv.map (·.2)⟩ (some r) (secure i)) rfl (by rw [h2]; rfl) rfl hf
        rw [← hroot, h2] at this
        have hok := (hv.ok ((worldAt E secure calls sched (mom (n + 2))).ended i))
        have he : MPT.init E (stateAt E secure calls i ((worldAt E secure calls sched (mom (n + 2))).ended i)).store
            (some r) (secure i) = st ((worldAt E secure calls sched (mom (n + 2))).ended i) := by
          rw [← hstq]
          have h3 : _ = some r := hroot.symm.trans h2
          have h4 := hok.sec
          generalize stateAt E secure calls i ((worldAt E secure calls sched (mom (n + 2))).ended i) = z at h3 h4
          obtain ⟨z1, z2, z3⟩ := z
          simp only at h3 h4
          rw [h3, h4]
          rfl
        rwa [he] at this
  · exact .inl hx

/-- C98 in part: if the root does not change between the last look at the dict and the look at the root, the bytes
decode to the trie of a moment.  (Missing: other encodings.) -/
theorem C98_whole_partial {E : Env} {secure : Nat → Bool} {calls : Nat → List (Nat × Call)} {log : List Bytes}
    (h : Peaceful E secure calls log) (sched : List Nat) (i : Nat) {mom : Nat → Nat} {a b : Nat} (hm : Moments mom a b)
    {bs : Bytes} (hx : (MPT.encodeCallP (secure i)).watch (viewAt E secure calls sched i mom) = .ok bs)
    (hlen : bs.length < 2 ^ 64)
    (hr : let n := (viewAt E secure calls sched i mom 0).store.kv.length
      (viewAt E secure calls sched i mom (n + 2)).root = (viewAt E secure calls sched i mom (n + 1)).root) :
    ∃ q t, (worldAt E secure calls sched a).ended i ≤ q ∧ q ≤ (worldAt E secure calls sched b).ended i ∧
      MPT.decode E bs = .ok t ∧ ∀ k, Fits E (secure i) k →
        SameAnswers E t (MPT.after E (secure i) (writesOf ((calls i).take q))) k := by
  have hsh := h.shelves sched i hm
  have hv := h.views sched i hm
  have hy := Peaceful.encode h sched i hm
  simp only at hy hr
  rw [hx] at hy
  generalize hn : (viewAt E secure calls sched i mom 0).store.kv.length = n at hy hr
  split at hy
  · have hb := hm.ended_bounds (E := E) (secure := secure) (calls := calls) (sched := sched) i (n + 1)
    have hroot := hv.root (n + 1)
    rw [hr] at hy
    rcases encode_ok (st := (viewAt E secure calls sched i mom (n + 1)).store)
        (r := (viewAt E secure calls sched i mom (n + 1)).root) (sec := secure i)
        (fun e he => (hv.gs (n + 1) e.1 e.2 (dget_mem (hsh.nodup (n + 1)) he)).2.2) with ⟨h1, h2⟩ | ⟨bs', r, h1, h2⟩
    · rw [h1] at hy; exact (nomatch hy)
    · rw [h2] at hy
      have hd := decode_encode (E := E) (hsh.nodup (n + 1)) (fun k v hk => ⟨(hv.gs (n + 1) k v hk).1,
        (hv.gs (n + 1) k v hk).2.2⟩) hy.symm hlen
      refine ⟨_, _, hb.1, hb.2, hd, fun k hf => ?_⟩
      have := hv.whole (n + 1) (c := MPT.init E ⟨(viewAt E secure calls sched i mom (n + 1)).store.kv,
          (viewAt E secure calls sched i mom (n + 1)).store.kv.map (·.2)⟩ (some r) (secure i)) rfl rfl
          (hsh.nodup (n + 1)) (by rw [h2]; rfl) rfl hf
      rw [← hroot, h2] at this
      have hok := (hv.ok ((worldAt E secure calls sched (mom (n + 1))).ended i))
      have he : MPT.init E (stateAt E secure calls i ((worldAt E secure calls sched (mom (n + 1))).ended i)).store
          (some r) (secure i) = stateAt E secure calls i ((worldAt E secure calls sched (mom (n + 1))).ended i) := by
        have h3 : _ = some r := hroot.symm.trans h2
        have h4 := hok.sec
        generalize stateAt E secure calls i ((worldAt E secure calls sched (mom (n + 1))).ended i) = z at h3 h4
        obtain ⟨z1, z2, z3⟩ := z
        simp only at h3 h4
        rw [h3, h4]
        rfl
      rw [he] at this
      exact this
  · exact (nomatch hy)

/-- What `encode` gives whose first `n` accesses come after step 6 of the writer and the others after step 20. -/
def encodedAt (n : Nat) : Py Bytes :=
  (MPT.encodeCallP false).watch (viewAt toyEnv (fun _ => false) growing (alone0 60) 0 (twice n 6 20))

/-- The second key is put in while the loop runs: RuntimeError. -/
theorem C98_grown : encodedAt 1 = .error .runtime := by decide +kernel

/-- The second key is put in before the root is read: the decoded trie cannot find the first key, which was there all
the time. -/
theorem C98_torn : okAnd (encodedAt 3) (fun bs => okAnd (MPT.decode toyEnv bs) fun t =>
      t.get toyEnv [1, 2] == .error .keyError) = true ∧
    ∀ q, q = 1 ∨ q = 2 → (MPT.after toyEnv false (writesOf ((growing 0).take q))).get toyEnv [1, 2] =
      .ok (bigValue 5) := by
  refine ⟨by decide +kernel, ?_⟩
  rintro q (rfl | rfl) <;> decide +kernel

theorem C98_false : ¬ C98 := by
  intro h
  obtain ⟨q, h1, h2, h3⟩ := h toyEnv (fun _ => false) growing growingLog growing_peaceful (alone0 60) 0 (twice 3 6 20) 6 20
    (twice_moments (by decide))
  have e1 : (worldAt toyEnv (fun _ => false) growing (alone0 60) 6).ended 0 = 1 := by decide +kernel
  have e2 : (worldAt toyEnv (fun _ => false) growing (alone0 60) 20).ended 0 = 2 := by decide +kernel
  rw [e1] at h1
  rw [e2] at h2
  have hq : q = 1 ∨ q = 2 := by omega
  obtain ⟨h4, h5⟩ := C98_torn
  obtain ⟨bs, hbs, h6⟩ := ok_of h4
  obtain ⟨t, ht, h7⟩ := ok_of h6
  have hlen : okAnd (encodedAt 3) (fun bs => decide (bs.length < 2 ^ 64)) = true := by decide +kernel
  obtain ⟨bs', hbs', h8⟩ := ok_of hlen
  rcases h3 with ⟨h3, _⟩ | ⟨bs2, h3, h9⟩
  · have h3 : encodedAt 3 = .error .typeError := h3
    rw [hbs] at h3
    exact (nomatch h3)
  · have h3 : encodedAt 3 = .ok bs2 := h3
    rw [hbs] at h3 hbs'
    injection h3 with h3
    injection hbs' with hbs'
    subst h3 hbs'
    obtain ⟨t', ht', h10⟩ := h9 (by simpa using h8)
    rw [ht] at ht'
    injection ht' with ht'
    subst ht'
    have := (h10 [1, 2] (by decide)).1
    have h7 : t.get toyEnv [1, 2] = .error .keyError := by simpa using h7
    rw [h7, h5 q hq] at this
    exact (nomatch this)

/-- The hypotheses of the parts hold for this writer.  Here the copy is torn: -/
example := C98_never_wrong_partial growing_peaceful (alone0 60) 0 (twice_moments (n := 3) (a := 6) (b := 20) (by decide))

/-- Here the root is read in time: -/
example : ∃ bs q t, encodedAt 4 = .ok bs ∧ q ≤ 2 ∧ MPT.decode toyEnv bs = .ok t ∧
    SameAnswers toyEnv t (MPT.after toyEnv false (writesOf ((growing 0).take q))) [1, 2] := by
  obtain ⟨bs, hbs, hl⟩ := ok_of (m := encodedAt 4) (f := fun bs => decide (bs.length < 2 ^ 64)) (by decide +kernel)
  obtain ⟨q, t, _, h2, h3, h4⟩ := C98_whole_partial growing_peaceful (alone0 60) 0
    (twice_moments (n := 4) (a := 6) (b := 20) (by decide)) hbs (by simpa using hl) (by decide +kernel)
  have e2 : (worldAt toyEnv (fun _ => false) growing (alone0 60) 20).ended 0 = 2 := by decide +kernel
  rw [e2] at h2
  exact ⟨bs, q, t, hbs, h2, h3, h4 _ (by decide)⟩

end Props
end Pymt
