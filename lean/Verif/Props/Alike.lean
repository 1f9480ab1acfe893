import Verif.Lemmas.Alike
import Verif.Props.Past
import Verif.Props.Roots

/-!
# The past of a trie cannot be seen in the answers of its calls (C134)
-/

namespace Pymt.Props

/-- What theorems about calls made after two histories assume: the calls' keys are short enough for the recursion limit,
and no hash collision occurs among the nodes written in the end. -/
structure Comparable (E : Env) (secure : Bool) (ops ops' : List Op) (cs : List Request) : Prop where
  valid : Valid E secure ops (ops'.map Op.key)
  valid' : Valid E secure ops' (ops.map Op.key)
  fits : ∀ c ∈ cs, ∀ k ∈ c.keys, Fits E secure k
  log : LogOk E (Request.final E cs (MPT.after E secure ops)).store.written
  log' : LogOk E (Request.final E cs (MPT.after E secure ops')).store.written

/-- **C134** (false, see below) Two tries with the same contents give the same outcomes for all later calls, whatever
was done to them before. -/
def C134 : Prop :=
  ∀ (E : Env) (secure : Bool) (ops ops' : List Op) (cs : List Request), Comparable E secure ops ops' cs →
    contents ops = contents ops' →
    Request.outcomes E cs (MPT.after E secure ops) = Request.outcomes E cs (MPT.after E secure ops')

theorem twins_after {E : Env} {secure : Bool} {ops ops' : List Op} {cs : List Request} (h : Comparable E secure ops ops' cs)
    (hc : contents ops = contents ops') :
    ∃ a, Twins E (Request.final E cs (MPT.after E secure ops)).store.written
      (Request.final E cs (MPT.after E secure ops')).store.written (MPT.after E secure ops) (MPT.after E secure ops') a := by
  have he := eff_congr h.valid.keys hc
  obtain ⟨a, h1, h2, h3, _⟩ := Inv.same h.valid.inv (he ▸ h.valid'.inv)
  have hw := Request.final_written (E := E) cs (t := MPT.after E secure ops)
  have hw' := Request.final_written (E := E) cs (t := MPT.after E secure ops')
  exact ⟨a, ⟨h1, h3.full⟩, ⟨h2, h3.full⟩, by simp [after_secure], h.log, h.log', after_gs ops hw, after_gs ops' hw', hw, hw'⟩

/-- C134 in part: if the tries have any key, or `root()` is the same, all the outcomes are the same: values,
exceptions, proofs, verdicts and roots, also after further writes and after the trie has become empty.  Missing:
empty tries of which one is new and the other had a key (`C134_near_partial`, `C134_false`). -/
theorem C134_partial {E : Env} {secure : Bool} {ops ops' : List Op} {cs : List Request} (h : Comparable E secure ops ops' cs)
    (hc : contents ops = contents ops')
    (hr : (∃ k, contents ops k ≠ none) ∨ (MPT.after E secure ops).root = (MPT.after E secure ops').root) :
    Request.outcomes E cs (MPT.after E secure ops) = Request.outcomes E cs (MPT.after E secure ops') := by
  obtain ⟨a, ht⟩ := twins_after h hc
  refine (ht.all cs (by simpa [after_secure] using h.fits) (fun _ h => h) (fun _ h => h)).2 ?_
  rcases hr with ⟨k, hk⟩ | hr
  · exact (C06_root h.valid h.valid' hc).2 k hk
  · exact hr

/-- C134 in part, for all tries with the same contents: outcomes differ at most in `root()` of an empty trie (None or the
hash of the empty node) and in the exception `get` raises on an empty trie (ValueError or KeyError). -/
theorem C134_near_partial {E : Env} {secure : Bool} {ops ops' : List Op} {cs : List Request}
    (h : Comparable E secure ops ops' cs) (hc : contents ops = contents ops') {i : Nat} {c : Request} {x y : Py Told}
    (hi : cs[i]? = some c) (hx : (Request.outcomes E cs (MPT.after E secure ops))[i]? = some x)
    (hy : (Request.outcomes E cs (MPT.after E secure ops'))[i]? = some y) : c.Near E x y := by
  obtain ⟨a, ht⟩ := twins_after h hc
  exact (ht.all cs (by simpa [after_secure] using h.fits) (fun _ h => h) (fun _ h => h)).1 i c x y hi hx hy

/-- There is an outcome for every call, so that the previous theorem speaks of all of them. -/
theorem outcomes_length (E : Env) (cs : List Request) (t : MPT) : (Request.outcomes E cs t).length = cs.length := by
  induction cs generalizing t with
  | nil => rfl
  | cons c cs ih => simp [Request.outcomes, ih]

/-- C134 is false: `get` on an emptied trie raises ValueError, on a new one KeyError. -/
theorem C134_false : ¬ C134 := by
  intro h
  have hc : contents [.update [0x12] [1], .delete [0x12]] = contents [] := by
    funext k
    simp only [contents, contentsFrom, List.foldl_cons, List.foldl_nil, Op.apply]
    by_cases h : k = [0x12] <;> simp [h]
  have := h toyEnv false [.update [0x12] [1], .delete [0x12]] [] [.get [0x12]]
    ⟨valid_of (by decide +kernel), valid_of (by decide +kernel), by decide +kernel, logOk_of (by decide +kernel),
      logOk_of (by decide +kernel)⟩ hc
  simp only [Request.outcomes, Request.run, List.cons.injEq, and_true] at this
  revert this
  have e1 : (MPT.after toyEnv false [.update [0x12] [1], .delete [0x12]]).get toyEnv [0x12] = .error .valueError := by
    decide +kernel
  have e2 : (MPT.after toyEnv false []).get toyEnv [0x12] = .error .keyError := by decide +kernel
  rw [e1, e2]
  intro h
  cases h

/-- Two histories with the same contents. -/
def oneWay : List Op := [.update [0x12] (bigValue 1), .update [0x13, 0x45] [7]]
def otherWay : List Op :=
  [.update [0x13, 0x45] [8], .update [0x55] (bigValue 2), .delete [0x12], .update [0x12] (bigValue 1), .delete [0x55],
    .update [0x13, 0x45] [7]]

/-- Calls made after them. -/
def laterCalls : List Request :=
  [.get [0x12], .get [0x55], .poi [] [0x12], .poe [] [0x55], .update [0x12, 0x34] [9], .root, .delete [0x12],
    .delete [0x13, 0x45], .delete [0x12, 0x34], .get [0x12], .root]

example : Comparable toyEnv false oneWay otherWay laterCalls ∧ contents oneWay = contents otherWay ∧
    (∃ k, contents oneWay k ≠ none) ∧
    (MPT.after toyEnv false oneWay).store.kv.length ≠ (MPT.after toyEnv false otherWay).store.kv.length := by
  refine ⟨⟨valid_of (by decide +kernel), valid_of (by decide +kernel), ?_, logOk_of (by decide +kernel),
    logOk_of (by decide +kernel)⟩, ?_, ⟨[0x12], by decide +kernel⟩, by decide +kernel⟩
  · decide +kernel
  · funext k
    simp only [contents, oneWay, otherWay, contentsFrom, List.foldl_cons, List.foldl_nil, Op.apply]
    by_cases h1 : k = [0x12] <;> by_cases h2 : k = [0x13, 0x45] <;> by_cases h3 : k = [0x55] <;> simp_all

example : Comparable toyEnv true oneWay otherWay laterCalls :=
  ⟨valid_of (by decide +kernel), valid_of (by decide +kernel), by decide +kernel, logOk_of (by decide +kernel),
    logOk_of (by decide +kernel)⟩

end Pymt.Props
