import Verif.Lemmas.Interrupt
import Verif.Spec.Toy

/-!
# Property C110: calls that are ended by an exception from elsewhere
-/

namespace Pymt.Props

open Attempt

/-- **C110** Calls may be ended by an exception at any of their accesses of the storage (disk full, connection lost,
KeyboardInterrupt), any number of times, and the object used on.  A call that is ended before it has made all of its
accesses is as good as not made: root hash, `contains`, `get` and the outcomes of later calls are those of a trie on
which only the other calls were made. -/
theorem C110 {E : Env} {secure : Bool} {l : List Attempt} {k : Bytes}
    (hf : ∀ a ∈ l, Fits E secure a.call.key) (hk : Fits E secure k)
    (hl : LogOk E (all E l (MPT.new E secure)).store.written)
    (hl' : LogOk E (MPT.after E secure (counted E l (MPT.new E secure))).store.written) :
    let obj := all E l (MPT.new E secure)
    let clean := MPT.after E secure (counted E l (MPT.new E secure))
    obj.rootHash E = clean.rootHash E ∧ obj.contains E k = clean.contains E k ∧
    (∀ v, obj.get E k = .ok v ↔ clean.get E k = .ok v) ∧
    ∀ op, Fits E secure op.key → LogOk E (MPT.exec E op obj).2.store.written →
      LogOk E (MPT.exec E op clean).2.store.written → (MPT.exec E op obj).1 = (MPT.exec E op clean).1 := by
  have h1 := (bears (Bears.new E secure) hf hl).holds
  have h2 := (Bears.after (secure := secure) (ops := counted E l (MPT.new E secure)) (fun op ho => by
    obtain ⟨a, ha, e⟩ := counted_sub ho
    rw [key_of_op e]; exact hf a ha) hl').holds
  have hsec : (all E l (MPT.new E secure)).secure = secure := all_secure l _
  have hs := hsec.trans (after_secure E secure (counted E l (MPT.new E secure))).symm
  obtain ⟨o1, o2⟩ := h1.observe h2 hs hl hl' (by rw [hsec]; exact hk)
  exact ⟨h1.rootHash.trans h2.rootHash.symm, o1, o2, fun op hop l1 l2 =>
    h1.outcome h2 hs (by rw [hsec]; exact hop) l1 l2⟩

/-- C110 for one call: nothing has changed that can be seen; the root is not even assigned. -/
theorem C110_early {E : Env} {secure : Bool} {l : List Attempt} {a : Attempt} {k : Bytes}
    (hf : ∀ a ∈ l, Fits E secure a.call.key) (hk : Fits E secure k)
    (hl : LogOk E (all E (l ++ [a]) (MPT.new E secure)).store.written)
    (ha : a.whole E (all E l (MPT.new E secure)) = false) :
    let old := all E l (MPT.new E secure)
    let new := all E (l ++ [a]) (MPT.new E secure)
    new.root = old.root ∧ new.contains E k = old.contains E k ∧ (∀ v, new.get E k = .ok v ↔ old.get E k = .ok v) := by
  have hall : all E (l ++ [a]) (MPT.new E secure) = (a.run E (all E l (MPT.new E secure))).2 := by
    simp [all]
  simp only [hall] at hl ⊢
  have hl0 : LogOk E (all E l (MPT.new E secure)).store.written := log_of_replay (a.run_writes _) hl
  have h1 := (bears (Bears.new E secure) hf hl0).holds
  have hsec : (all E l (MPT.new E secure)).secure = secure := all_secure l _
  rcases a.run_cases (E := E) (all E l (MPT.new E secure)) with ⟨hw, _⟩ | ⟨_, ws, e⟩
  · rw [hw] at ha; exact (nomatch ha)
  · rw [e] at hl ⊢
    have h2 := h1.withStore ⟨ws, rfl⟩ hl
    obtain ⟨o1, o2⟩ := h2.observe h1 rfl hl hl0 (k := k) (by rw [hsec]; exact hk)
    exact ⟨rfl, o1, o2⟩

/-- A history in which an update is ended after it has written one node, a delete before it writes its last, and both
are made again. -/
def interrupted : List Attempt :=
  [⟨.update [0x12] (bigValue 1), none⟩,
   ⟨.update [0x12, 0x34] (bigValue 2), some (3, .runtime)⟩,
   ⟨.get [0x12, 0x34], none⟩,
   ⟨.update [0x12, 0x34] (bigValue 2), none⟩,
   ⟨.update [0x56] (bigValue 3), none⟩,
   ⟨.delete [0x12, 0x34], some (10, .runtime)⟩,
   ⟨.contains [0x12, 0x34], some (1, .runtime)⟩,
   ⟨.update [0x57] (bigValue 4), some (100, .runtime)⟩,
   ⟨.delete [0x12, 0x34], none⟩]

example : (∀ a ∈ interrupted, Fits toyEnv false a.call.key) ∧
    LogOk toyEnv (all toyEnv interrupted (MPT.new toyEnv false)).store.written ∧
    LogOk toyEnv (MPT.after toyEnv false (counted toyEnv interrupted (MPT.new toyEnv false))).store.written ∧
    counted toyEnv interrupted (MPT.new toyEnv false) =
      [.update [0x12] (bigValue 1), .update [0x12, 0x34] (bigValue 2), .update [0x56] (bigValue 3),
       .update [0x57] (bigValue 4), .delete [0x12, 0x34]] ∧
    -- nodes have been written that no call that counts has written at that moment
    (all toyEnv (interrupted.take 2) (MPT.new toyEnv false)).store.kv.length = 2 ∧
    (all toyEnv (interrupted.take 5) (MPT.new toyEnv false)).store.written.length <
      (all toyEnv (interrupted.take 6) (MPT.new toyEnv false)).store.written.length ∧
    ((⟨.delete [0x12, 0x34], some (10, .runtime)⟩ : Attempt).whole toyEnv
      (all toyEnv (interrupted.take 5) (MPT.new toyEnv false))) = false ∧
    (all toyEnv interrupted (MPT.new toyEnv false)).get toyEnv [0x57] = .ok (bigValue 4) := by
  refine ⟨by unfold Fits; decide +kernel, logOk_of (by decide +kernel), logOk_of (by decide +kernel), by decide +kernel,
    by decide +kernel, by decide +kernel, by decide +kernel, by decide +kernel⟩

end Pymt.Props
