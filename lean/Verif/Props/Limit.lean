import Verif.Props.Empties
import Verif.Props.Map
import Verif.Lemmas.Limit

/-!
# Properties C76, C77: keys of any length, and calls that raise

`MPT.done` (`Verif/Spec/Limit.lean`) lists the calls of a history that did not end in a RecursionError.
-/

namespace Pymt
namespace Props

/-! ### C76: the recursion limit -/

/-- C76, single calls: on any trie object over any storage, with a key or proof of any size, a call raises
RecursionError and changes nothing, or does what it does under any higher limit `n`. -/
theorem C76_calls {E : Env} {n : Nat} (h : E.limit ≤ n) (t : MPT) (k v now : Bytes) (p : Proof Bytes) :
    (MPT.update E k v t = (.error .recursion, t) ∨ MPT.update E k v t = MPT.update (E.withLimit n) k v t) ∧
    (MPT.delete E k t = (.error .recursion, t) ∨ MPT.delete E k t = MPT.delete (E.withLimit n) k t) ∧
    (t.get E k = .error .recursion ∨ t.get E k = t.get (E.withLimit n) k) ∧
    (t.contains E k = .error .recursion ∨ t.contains E k = t.contains (E.withLimit n) k) ∧
    (t.getPoi E now k = .error .recursion ∨ t.getPoi E now k = t.getPoi (E.withLimit n) now k) ∧
    (t.verifyPoi E p = .error .recursion ∨ t.verifyPoi E p = t.verifyPoi (E.withLimit n) p) ∧
    (t.getPoe E now k = .error .recursion ∨ t.getPoe E now k = t.getPoe (E.withLimit n) now k) ∧
    (t.verifyPoe E p = .error .recursion ∨ t.verifyPoe E p = t.verifyPoe (E.withLimit n) p) :=
  ⟨MPT.update_cut h k v t, MPT.delete_cut h k t, MPT.get_cut h t k, MPT.contains_cut h t k,
    MPT.getPoi_cut h now t k, MPT.verifyPoi_cut h t p, MPT.getPoe_cut h now t k, MPT.verifyPoe_cut h t p⟩

/-- The toy environment with room for four calls only. -/
def tinyEnv : Env := toyEnv.withLimit 4

/-- Keys of which the last is too deep for four calls. -/
def deepOps : List Op :=
  [.update [] [1], .update [0x11] (bigValue 1), .update [0x11, 0x11] (bigValue 2), .update [0x11, 0x12] (bigValue 5),
    .update [0x11, 0x11, 0x11] (bigValue 3), .update [0x11, 0x11, 0x11, 0x11] (bigValue 4), .delete [0x11, 0x11, 0x11],
    .update [0x77, 0x77, 0x77, 0x77] (bigValue 6)]

/-- Some calls fail, some succeed, with keys of the same length. -/
example : (MPT.update tinyEnv [0x11, 0x11, 0x11, 0x11] [5] (MPT.after tinyEnv false (deepOps.take 4))).1 =
      .error .recursion ∧
    (MPT.update tinyEnv [0x77, 0x77, 0x77, 0x77] [5] (MPT.after tinyEnv false (deepOps.take 4))).1 = .ok () := by
  decide +kernel

/-- C76, histories: the trie is the one that the calls without RecursionError would have made under any higher
limit. -/
theorem C76_history {E : Env} {n : Nat} (h : E.limit ≤ n) (secure : Bool) (ops : List Op) :
    MPT.after E secure ops =
      MPT.after (E.withLimit n) secure (MPT.done E ops (MPT.new E secure)) :=
  MPT.run_done h ops (MPT.new E secure)

example : MPT.done tinyEnv deepOps (MPT.new tinyEnv false) =
    [.update [] [1], .update [0x11] (bigValue 1), .update [0x11, 0x11] (bigValue 2), .update [0x11, 0x12] (bigValue 5),
      .update [0x77, 0x77, 0x77, 0x77] (bigValue 6)] := by
  decide +kernel

theorem done_mem {E : Env} {op : Op} : ∀ {ops : List Op} {t : MPT}, op ∈ MPT.done E ops t → op ∈ ops
  | [], _, h => by simp [MPT.done] at h
  | o :: ops, t, h => by
    rw [MPT.done] at h
    split at h
    · exact List.mem_cons_of_mem _ (done_mem h)
    · rcases List.mem_cons.1 h with h | h
      · rw [h]; exact List.mem_cons_self
      · exact List.mem_cons_of_mem _ (done_mem h)

/-- A limit that suffices for the keys of a history and is not below a given number. -/
theorem room (m : Nat) : ∀ ops : List Op, ∃ n, m ≤ n ∧ 64 < n ∧ ∀ op ∈ ops, 2 * op.key.length < n
  | [] => ⟨m + 65, by omega, by omega, by simp⟩
  | op :: ops => by
    obtain ⟨n, h1, h2, h3⟩ := room m ops
    refine ⟨n + 2 * op.key.length, by omega, by omega, fun o ho => ?_⟩
    rcases List.mem_cons.1 ho with rfl | ho
    · omega
    · have := h3 o ho
      omega

theorem fits_room {E : Env} {n : Nat} {secure : Bool} {k : Bytes} (h : 64 < n) (h' : 2 * k.length < n) :
    Fits (E.withLimit n) secure k := by
  unfold Fits
  cases secure
  · exact h'
  · exact h

/-- C76, lookups: after a history with keys of any length, `get` of a key whose last successful update was with
the value `v` returns `v` or raises RecursionError.  (Empty values in tries with unhashed keys are C25.) -/
theorem C76_get {E : Env} {secure : Bool} {ops : List Op} {k v : Bytes}
    (hl : LogOk E (MPT.after E secure ops).store.written)
    (hk : secure = true → CollFree E (ops.map Op.key))
    (hc : contents (MPT.done E ops (MPT.new E secure)) k = some v) (hv : secure = true ∨ v ≠ []) :
    (MPT.after E secure ops).get E k = .ok v ∨ (MPT.after E secure ops).get E k = .error .recursion := by
  obtain ⟨n, n1, n2, n3⟩ := room E.limit ops
  rw [C76_history n1] at hl ⊢
  have hfit : ∀ op ∈ MPT.done E ops (MPT.new E secure), Fits (E.withLimit n) secure op.key :=
    fun op ho => fits_room n2 (n3 op (done_mem ho))
  have hl' : LogOk (E.withLimit n) (MPT.after (E.withLimit n) secure
      (MPT.done E ops (MPT.new E secure))).store.written := ⟨hl.coll, hl.size⟩
  have key : (MPT.after (E.withLimit n) secure (MPT.done E ops (MPT.new E secure))).get (E.withLimit n) k = .ok v := by
    cases secure with
    | false => exact (C02_all hfit hl' hc (by simpa using hv)).1
    | true =>
      obtain ⟨op, ho, rfl⟩ := List.mem_map.1 (contents_some_mem hc)
      refine C02_get ⟨fun h => by simp at h, hfit, ?_, hl', fun _ => ?_⟩ hc
      · intro q hq
        simp only [List.mem_singleton] at hq
        subst hq
        exact hfit op ho
      · have hm := hk rfl
        have hsub : ∀ a ∈ [op.key] ++ (MPT.done E ops (MPT.new E true)).map Op.key, a ∈ ops.map Op.key := by
          intro a ha
          rcases List.mem_append.1 ha with ha | ha
          · simp only [List.mem_singleton] at ha
            subst ha
            exact List.mem_map.2 ⟨op, done_mem ho, rfl⟩
          · obtain ⟨o, o1, rfl⟩ := List.mem_map.1 ha
            exact List.mem_map.2 ⟨o, done_mem o1, rfl⟩
        exact fun a ha b hb => hm a (hsub a ha) b (hsub b hb)
  rcases MPT.get_cut n1 (MPT.after (E.withLimit n) secure (MPT.done E ops (MPT.new E secure))) k with h | h
  · exact .inr h
  · exact .inl (h.trans key)

example : LogOk tinyEnv (MPT.after tinyEnv false deepOps).store.written ∧
    contents (MPT.done tinyEnv deepOps (MPT.new tinyEnv false)) [0x11, 0x12] = some (bigValue 5) :=
  ⟨logOk_of (by decide +kernel), by decide +kernel⟩

/-! ### C77: a call that raises -/

/-- C77: after any history, with keys of any length and empty values anywhere, a call of update or delete that
raises, whatever the exception, leaves the object and its storage exactly as they were. -/
theorem C77_unchanged {E : Env} {secure : Bool} {ops : List Op} {op : Op} {e : Err}
    (hl : LogOk E (MPT.after E secure (ops ++ [op])).store.written)
    (hk : secure = true → CollFree E ((ops ++ [op]).map Op.key))
    (hr : (MPT.exec E op (MPT.after E secure ops)).1 = .error e) :
    (MPT.exec E op (MPT.after E secure ops)).2 = MPT.after E secure ops := by
  obtain ⟨n, n1, n2, n3⟩ := room E.limit (ops ++ [op])
  rcases MPT.exec_cut n1 op (MPT.after E secure ops) with hx | hx
  · rw [hx]
  have hl2 : LogOk (E.withLimit n) (MPT.after (E.withLimit n) secure
      (MPT.done E ops (MPT.new E secure) ++ [op])).store.written := by
    have : MPT.after E secure (ops ++ [op]) =
        MPT.after (E.withLimit n) secure (MPT.done E ops (MPT.new E secure) ++ [op]) := by
      rw [after_append, after_append, ← C76_history n1]
      show (MPT.exec E op _).2 = (MPT.exec (E.withLimit n) op _).2
      rw [hx]
    rw [this] at hl
    exact ⟨hl.coll, hl.size⟩
  have hfit : ∀ o ∈ MPT.done E ops (MPT.new E secure), Fits (E.withLimit n) secure o.key :=
    fun o ho => fits_room n2 (n3 o (List.mem_append_left _ (done_mem ho)))
  have hfop : Fits (E.withLimit n) secure op.key := fits_room n2 (n3 op (by simp))
  have hval : secure = true →
      Valid (E.withLimit n) secure (MPT.done E ops (MPT.new E secure) ++ [op]) [] := by
    intro hs
    refine ⟨fun h => by simp [hs] at h, ?_, by simp, hl2, fun _ => ?_⟩
    · intro o ho
      rcases List.mem_append.1 ho with ho | ho
      · exact hfit o ho
      · simp only [List.mem_singleton] at ho; rw [ho]; exact hfop
    · have hm := hk hs
      have hsub : ∀ a ∈ [] ++ (MPT.done E ops (MPT.new E secure) ++ [op]).map Op.key,
          a ∈ (ops ++ [op]).map Op.key := by
        intro a ha
        simp only [List.nil_append, List.map_append, List.mem_append] at ha ⊢
        rcases ha with ha | ha
        · obtain ⟨o, o1, rfl⟩ := List.mem_map.1 ha
          exact .inl (List.mem_map.2 ⟨o, done_mem o1, rfl⟩)
        · exact .inr ha
      exact fun a ha b hb => hm a (hsub a ha) b (hsub b hb)
  rw [hx] at hr ⊢
  rw [C76_history n1] at hr ⊢
  cases op with
  | update k v =>
    exfalso
    have : (MPT.update (E.withLimit n) k v (MPT.after (E.withLimit n) secure
        (MPT.done E ops (MPT.new E secure)))).1 = .ok () := by
      cases secure with
      | false => exact C05_all hfit hfop hl2
      | true => exact C05_update_total (hval rfl)
    change (MPT.update _ _ _ _).1 = _ at hr
    rw [this] at hr
    simp at hr
  | delete k =>
    change (MPT.delete _ _ _).1 = _ at hr
    show (MPT.delete _ _ _).2 = _
    cases secure with
    | false =>
      obtain ⟨_, h2, h3⟩ := C04_all (k := k) hfit hfop hl2
      by_cases hm : ∃ v, (k, v) ∈ kept (MPT.done E ops (MPT.new E false))
      · obtain ⟨v, hm⟩ := hm
        rw [h3 v hm] at hr
        simp at hr
      · obtain ⟨e', he, _⟩ := h2 fun v hv => hm ⟨v, hv⟩
        rw [he]
    | true =>
      cases hc : contents (MPT.done E ops (MPT.new E true)) k with
      | some v =>
        rw [C05_delete_total (hval rfl) hc] at hr
        simp at hr
      | none =>
        obtain ⟨e', he⟩ := C04_delete_absent (k := k) (hval rfl).cut hc
        rw [he]

example : LogOk tinyEnv (MPT.after tinyEnv false (deepOps ++ [.delete [0x11, 0x11, 0x13]])).store.written ∧
    LogOk tinyEnv (MPT.after tinyEnv false (deepOps ++ [.update [0x11, 0x11, 0x13] [1]])).store.written ∧
    (MPT.exec tinyEnv (.delete [0x11, 0x11, 0x13]) (MPT.after tinyEnv false deepOps)).1 ≠ .ok () ∧
    (MPT.exec tinyEnv (.update [0x11, 0x11, 0x13] [1]) (MPT.after tinyEnv false deepOps)).1 = .error .recursion :=
  ⟨logOk_of (by decide +kernel), logOk_of (by decide +kernel), by decide +kernel, by decide +kernel⟩

end Props
end Pymt
