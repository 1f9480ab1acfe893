import Verif.Lemmas.CrowdViews
import Verif.Props.Crowd
import Verif.Props.Copies

/-!
# A trie encoded while several threads write to it (C117)

As C98, but any number of threads write to each trie (`Crowd`).  The states of the trie are those after the steps of the
schedule; C88 says what they are.
-/

namespace Pymt.Props

/-- **C117** (full statement; false) The bytes decode to the trie as it was at some moment while `encode` ran (or the trie
was empty at that moment and `encode` raises TypeError, see C15). -/
def C117 : Prop :=
  ∀ (E : Env) (secure : Nat → Bool) (calls : Nat → List (Nat × Call)) (log : List Bytes), Crowd E secure calls log →
    ∀ (sched : List Nat) (i : Nat) (mom : Nat → Nat) (a b : Nat), Moments mom a b →
    let x := (MPT.encodeCallP (secure i)).watch (viewAt E secure calls sched i mom)
    let st := fun q => (worldAt E secure calls sched q).obj i
    ∃ q, a ≤ q ∧ q ≤ b ∧ ((x = .error .typeError ∧ (st q).root = none) ∨
      ∃ bs, x = .ok bs ∧ (bs.length < 2 ^ 64 → ∃ t, MPT.decode E bs = .ok t ∧
        ∀ k, Fits E (secure i) k → SameAnswers E t (st q) k))

theorem CrowdOn.encode {E : Env} {secure : Nat → Bool} {calls : Nat → List (Nat × Call)} {log : List Bytes} {sched : List Nat}
    (h : CrowdOn E secure calls log sched) (i : Nat) {mom : Nat → Nat} {a b : Nat} (hm : Moments mom a b) :
    let V := viewAt E secure calls sched i mom
    let n := (V 0).store.kv.length
    (MPT.encodeCallP (secure i)).watch V =
      if (V (n + 1)).store.kv.length = n then MPT.encode ⟨(V (n + 1)).store, (V (n + 2)).root, secure i⟩
      else .error .runtime := by
  intro V n
  have hsh := h.shelves i hm
  refine hsh.encode (secure i) fun m e he => ?_
  exact ((h.views i hm).gs m e.1 e.2 (dget_mem (hsh.nodup m) he)).2.2

/-- **C117** (part) `encode` raises RuntimeError, or TypeError if the trie was empty at some moment, or gives bytes that
decode to a trie with the root of some moment which gives the answers of that moment or raises KeyError; and the trie of
that moment has the contents of some sequence of the threads' calls.  (Missing: that there is no RuntimeError and no
KeyError.) -/
theorem C117_never_wrong_partial {E : Env} {secure : Nat → Bool} {calls : Nat → List (Nat × Call)} {log : List Bytes}
    (h : Crowd E secure calls log) (sched : List Nat) (i : Nat) {mom : Nat → Nat} {a b : Nat} (hm : Moments mom a b) :
    let x := (MPT.encodeCallP (secure i)).watch (viewAt E secure calls sched i mom)
    let st := fun q => (worldAt E secure calls sched q).obj i
    x = .error .runtime ∨
    ∃ q, a ≤ q ∧ q ≤ b ∧ ((x = .error .typeError ∧ (st q).root = none) ∨
      ∃ bs, x = .ok bs ∧ (∃ ops, FromCalls calls i ops ∧ ReadsAs E (st q) ops) ∧
        (bs.length < 2 ^ 64 → ∃ t, MPT.decode E bs = .ok t ∧ t.root = (st q).root ∧
          ∀ k, Fits E (secure i) k → SameOrKeyError E t (st q) k)) := by
  intro x st
  have hsh := (h.on sched).shelves i hm
  have hv := (h.on sched).views i hm
  have hx : x = _ := CrowdOn.encode (h.on sched) i hm
  generalize hn : (viewAt E secure calls sched i mom 0).store.kv.length = n at hx
  split at hx
  · right
    refine ⟨_, hm.low (n + 2), hm.high (n + 2), ?_⟩
    have hroot : (viewAt E secure calls sched i mom (n + 2)).root = (st (mom (n + 2))).root := hv.root (n + 2)
    have hok : StOk E log (secure i) (st (mom (n + 2))) := hv.ok (mom (n + 2))
    rcases encode_ok (st := (viewAt E secure calls sched i mom (n + 1)).store)
        (r := (viewAt E secure calls sched i mom (n + 2)).root) (sec := secure i)
        (fun e he => (hv.gs (n + 1) e.1 e.2 (dget_mem (hsh.nodup (n + 1)) he)).2.2) with ⟨h1, h2⟩ | ⟨bs, r, h1, h2⟩
    · exact .inl ⟨hx.trans h1, by rw [← hroot, h2]⟩
    · obtain ⟨ops, g1, g2⟩ := (h.on sched).made i (mom (n + 2))
      refine .inr ⟨bs, hx.trans h1, ⟨ops, g1, g2.reads (h.log.mono hok.written)⟩, fun hlen => ?_⟩
      rw [h2] at h1
      have hd := decode_encode (E := E) (hsh.nodup (n + 1)) (fun k v hk => ⟨(hv.gs (n + 1) k v hk).1,
        (hv.gs (n + 1) k v hk).2.2⟩) h1 hlen
      refine ⟨_, hd, ?_, fun k hf => ?_⟩
      · rw [← hroot, h2]; rfl
      · have := hv.torn (n + 1) (n + 2) (c := MPT.init E ⟨(viewAt E secure calls sched i mom (n + 1)).store.kv,
          (viewAt E secure calls sched i mom (n + 1)).store.kv.map (·.2)⟩ (some r) (secure i)) rfl (by rw [h2]; rfl) rfl hf
        have h3 : (st (mom (n + 2))).root = some r := hroot.symm.trans h2
        have he : MPT.init E (st (mom (n + 2))).store (some r) (secure i) = st (mom (n + 2)) := by
          have h4 := hok.sec
          generalize st (mom (n + 2)) = z at h3 h4
          obtain ⟨z1, z2, z3⟩ := z
          simp only at h3 h4
          rw [h3, h4]
          rfl
        change SameOrKeyError E _ (MPT.init E (st (mom (n + 2))).store (st (mom (n + 2))).root (secure i)) k at this
        rw [h3, he] at this
        exact this
  · exact .inl hx

/-- **C117** (part) If the root does not change between the last look at the dict and the look at the root, the bytes decode
to the trie of a moment.  (Missing: other encodings.) -/
theorem C117_whole_partial {E : Env} {secure : Nat → Bool} {calls : Nat → List (Nat × Call)} {log : List Bytes}
    (h : Crowd E secure calls log) (sched : List Nat) (i : Nat) {mom : Nat → Nat} {a b : Nat} (hm : Moments mom a b)
    {bs : Bytes} (hx : (MPT.encodeCallP (secure i)).watch (viewAt E secure calls sched i mom) = .ok bs)
    (hlen : bs.length < 2 ^ 64)
    (hr : let n := (viewAt E secure calls sched i mom 0).store.kv.length
      (viewAt E secure calls sched i mom (n + 2)).root = (viewAt E secure calls sched i mom (n + 1)).root) :
    ∃ q t, a ≤ q ∧ q ≤ b ∧ MPT.decode E bs = .ok t ∧
      ∀ k, Fits E (secure i) k → SameAnswers E t ((worldAt E secure calls sched q).obj i) k := by
  have hsh := (h.on sched).shelves i hm
  have hv := (h.on sched).views i hm
  have hy := CrowdOn.encode (h.on sched) i hm
  simp only at hy hr
  rw [hx] at hy
  generalize hn : (viewAt E secure calls sched i mom 0).store.kv.length = n at hy hr
  split at hy
  · have hroot := hv.root (n + 1)
    rw [hr] at hy
    rcases encode_ok (st := (viewAt E secure calls sched i mom (n + 1)).store)
        (r := (viewAt E secure calls sched i mom (n + 1)).root) (sec := secure i)
        (fun e he => (hv.gs (n + 1) e.1 e.2 (dget_mem (hsh.nodup (n + 1)) he)).2.2) with ⟨h1, h2⟩ | ⟨bs', r, h1, h2⟩
    · rw [h1] at hy; exact (nomatch hy)
    · rw [h2] at hy
      have hd := decode_encode (E := E) (hsh.nodup (n + 1)) (fun k v hk => ⟨(hv.gs (n + 1) k v hk).1,
        (hv.gs (n + 1) k v hk).2.2⟩) hy.symm hlen
      refine ⟨_, _, hm.low (n + 1), hm.high (n + 1), hd, fun k hf => ?_⟩
      have := hv.whole (n + 1) (c := MPT.init E ⟨(viewAt E secure calls sched i mom (n + 1)).store.kv,
          (viewAt E secure calls sched i mom (n + 1)).store.kv.map (·.2)⟩ (some r) (secure i)) rfl rfl
          (hsh.nodup (n + 1)) (by rw [h2]; rfl) rfl hf
      have h3 : ((worldAt E secure calls sched (mom (n + 1))).obj i).root = some r := hroot.symm.trans h2
      have hok : StOk E log (secure i) ((worldAt E secure calls sched (mom (n + 1))).obj i) := hv.ok (mom (n + 1))
      have he : MPT.init E ((worldAt E secure calls sched (mom (n + 1))).obj i).store (some r) (secure i) =
          (worldAt E secure calls sched (mom (n + 1))).obj i := by
        have h4 := hok.sec
        generalize (worldAt E secure calls sched (mom (n + 1))).obj i = z at h3 h4
        obtain ⟨z1, z2, z3⟩ := z
        simp only at h3 h4
        rw [h3, h4]
        rfl
      rw [h3, he] at this
      exact this
  · exact (nomatch hy)

/-- What `encode` gives whose first `n` accesses come after step 7 of `race` and the others after step 10. -/
def encodedIn (n : Nat) : Py Bytes :=
  (MPT.encodeCallP false).watch (viewAt toyEnv (fun _ => false) rivals race 0 (twice n 7 10))

/-- The second thread puts its own trie in place before the root is read: the decoded trie can find neither key, although
one of them was there before and the other is there afterwards. -/
theorem C117_torn : okAnd (encodedIn 3) (fun bs => okAnd (MPT.decode toyEnv bs) fun t =>
      t.get toyEnv [1, 2] == .error .keyError && t.get toyEnv [1, 3] == .error .keyError) = true ∧
    (∀ q ∈ [7, 8], ((worldAt toyEnv (fun _ => false) rivals race q).obj 0).get toyEnv [1, 2] = .ok (bigValue 5)) ∧
    (∀ q ∈ [9, 10], ((worldAt toyEnv (fun _ => false) rivals race q).obj 0).get toyEnv [1, 3] = .ok (bigValue 6)) := by
  decide +kernel

theorem C117_false : ¬ C117 := by
  intro h
  obtain ⟨q, h1, h2, h3⟩ := h toyEnv (fun _ => false) rivals rivalsLog rivals_crowd race 0 (twice 3 7 10) 7 10
    (twice_moments (by decide))
  obtain ⟨h4, h5, h5'⟩ := C117_torn
  obtain ⟨bs, hbs, h6⟩ := ok_of h4
  obtain ⟨t, ht, h7⟩ := ok_of h6
  simp only [Bool.and_eq_true, beq_iff_eq] at h7
  have hlen : okAnd (encodedIn 3) (fun bs => decide (bs.length < 2 ^ 64)) = true := by decide +kernel
  obtain ⟨bs', hbs', h8⟩ := ok_of hlen
  rcases h3 with ⟨h3, _⟩ | ⟨bs2, h3, h9⟩
  · have h3 : encodedIn 3 = .error .typeError := h3
    rw [hbs] at h3
    exact (nomatch h3)
  · have h3 : encodedIn 3 = .ok bs2 := h3
    rw [hbs] at h3 hbs'
    injection h3 with h3
    injection hbs' with hbs'
    subst h3 hbs'
    obtain ⟨t', ht', h10⟩ := h9 (by simpa using h8)
    rw [ht] at ht'
    injection ht' with ht'
    subst ht'
    have g1 := (h10 [1, 2] (by decide)).1
    have g2 := (h10 [1, 3] (by decide)).1
    have hq : q ∈ [7, 8] ∨ q ∈ [9, 10] := by simp; omega
    rcases hq with hq | hq
    · rw [h7.1, h5 q hq] at g1; exact (nomatch g1)
    · rw [h7.2, h5' q hq] at g2; exact (nomatch g2)

-- The hypotheses of the parts hold for these threads.  Here the copy is torn:
example := C117_never_wrong_partial rivals_crowd race 0 (twice_moments (n := 3) (a := 7) (b := 10) (by decide))

-- The second thread adds a node while the loop runs:
example : encodedIn 1 = .error .runtime := by decide +kernel

-- Here the root is read in time:
example : ∃ bs q t, encodedIn 4 = .ok bs ∧ q ≤ 10 ∧ MPT.decode toyEnv bs = .ok t ∧
    SameAnswers toyEnv t ((worldAt toyEnv (fun _ => false) rivals race q).obj 0) [1, 2] := by
  obtain ⟨bs, hbs, hl⟩ := ok_of (m := encodedIn 4) (f := fun bs => decide (bs.length < 2 ^ 64)) (by decide +kernel)
  obtain ⟨q, t, _, h2, h3, h4⟩ := C117_whole_partial rivals_crowd race 0
    (twice_moments (n := 4) (a := 7) (b := 10) (by decide)) hbs (by simpa using hl) (by decide +kernel)
  exact ⟨bs, q, t, hbs, h2, h3, h4 _ (by decide)⟩

end Pymt.Props
