import Verif.Lemmas.EmptShared
import Verif.Spec.ToyEmpt

/-!
# Property C106: `EMPT` objects over the same storages
-/

namespace Pymt
namespace Props

/-- The full statement of C106: objects that share their storages read what they would read with storages of their
own. -/
def C106 : Prop := ∀ (E : Env) (secure : Nat → Bool) (calls : List EStep) (keys : List Bytes) (i : Nat) (k : Bytes),
  ESharedOk E secure calls keys → k ∈ keys →
  ((EShared.after E secure calls).obj i).get E k =
    (EMPT.after E ((EView.after secure calls).secure i) (lineages calls i)).get E k

/-- C106 exactly.  `EView` tells the values of every object and those in the data storage apart.  An object reads a key if
the reference in its trie fits the value in the data storage.  It raises KeyError if there is no such value, and
InvalidReferenceError if another object has written a different one.  The iterators of all objects list the keys of the
data storage, and `contains` those of the object. -/
theorem C106_exact_partial {E : Env} {secure : Nat → Bool} {calls : List EStep} {keys : List Bytes} {i : Nat} {k : Bytes}
    (h : ESharedOk E secure calls keys) (hk : k ∈ keys) :
    let s := (EShared.after E secure calls).obj i
    let v := EView.after secure calls
    (v.data k = none → s.get E k = .error .keyError) ∧
    (∀ d, v.data k = some d → v.maps i k = none → ∃ e, s.get E k = .error e) ∧
    (∀ d x, v.data k = some d → v.maps i k = some x → s.get E k =
      if E.keccak (k ++ x.payload) = E.keccak (k ++ d.payload) then .ok d else .error .invalidReference) ∧
    s.contains E k = .ok (v.maps i k).isSome ∧ s.iter.Nodup ∧ ∀ k', k' ∈ s.iter ↔ v.data k' ≠ none := by
  intro s v
  have hv := h.views
  obtain ⟨h1, h2, h3⟩ := hv.get (h.apart' i) (h.fits' i) h.log hk
  refine ⟨h1, h2, h3, hv.contains (h.apart' i) (h.fits' i) h.log hk, hv.nodup, fun k' => ?_⟩
  rw [EMPT.iter, mem_keys_iff]
  show dget (EShared.after E secure calls).data k' ≠ none ↔ _
  rw [hv.data]

/-- C106, the calls: updates end as they should, and a delete raises KeyNotFoundError if the key is not in the object, and
KeyError, leaving the reference where it is, if another object has removed the value. -/
theorem C106_calls_partial {E : Env} {secure : Nat → Bool} {calls : List EStep} {keys : List Bytes} {i : Nat} {k : Bytes} :
    (∀ x, ESharedOk E secure (calls ++ [.call i (.update k x)]) keys → x.storable = true →
      (EMPT.update E k x ((EShared.after E secure calls).obj i)).1 = .ok ()) ∧
    (ESharedOk E secure (calls ++ [.call i (.delete k)]) keys →
      (EMPT.delete E k ((EShared.after E secure calls).obj i)).1 =
        if (EView.after secure calls).maps i k = none then .error .keyNotFound
        else if (EView.after secure calls).data k = none then .error .keyError else .ok ()) := by
  refine ⟨fun x h hs => ?_, fun h => ?_⟩
  · have hl := h.log
    rw [EShared.after_snoc] at hl
    exact (h.cut.views.update (h.cut.apart' i) (h.cut.fits' i) (h.named (.call i (.update k x)) (by simp) k (by simp [EStep.keys, EOp.key]))
      hs (h.sizes i k x (by simp)) hl).1
  · have hl := h.log
    rw [EShared.after_snoc] at hl
    exact (h.cut.views.delete (h.cut.apart' i) (h.cut.fits' i) (h.named (.call i (.delete k)) (by simp) k (by simp [EStep.keys, EOp.key]))
      hl).1

/-- C106 in part: a key is read as with storages of their own if all calls that name it are among those that made the
object.  Missing: keys that other objects name. -/
theorem C106_own_partial {E : Env} {secure : Nat → Bool} {calls : List EStep} {keys : List Bytes} {i : Nat} {k : Bytes}
    (h : ESharedOk E secure calls keys) (hk : k ∈ keys)
    (ho : naming k (lineages calls i) = naming k (allCalls calls)) :
    let s := (EShared.after E secure calls).obj i
    (∀ x, econtents (lineages calls i) k = some x → s.get E k = .ok x) ∧
    (econtents (lineages calls i) k = none → s.get E k = .error .keyError) ∧
    s.contains E k = .ok (econtents (lineages calls i) k).isSome := by
  intro s
  obtain ⟨h1, h2, h3, h4, _⟩ := C106_exact_partial (i := i) h hk
  obtain ⟨g1, g2⟩ := EView.own secure ho
  refine ⟨fun x hx => ?_, fun hn => h1 (by rw [g2, hn]), by rw [← g1]; exact h4⟩
  rw [h3 x x (by rw [g2, hx]) (by rw [g1, hx]), if_pos rfl]

/-- C106 in part: whatever the other objects do, a value that is read was last given for this key in the calls that made
the object, unless hashes collide.  Missing: that it is read. -/
theorem C106_value_partial {E : Env} {secure : Nat → Bool} {calls : List EStep} {keys : List Bytes} {i : Nat} {k : Bytes}
    {d : Value} (h : ESharedOk E secure calls keys) (hk : k ∈ keys)
    (hg : ((EShared.after E secure calls).obj i).get E k = .ok d) :
    ∃ x, lastGiven k (lineages calls i) = some x ∧
      (d.payload = x.payload ∨
        (k ++ x.payload ≠ k ++ d.payload ∧ E.keccak (k ++ x.payload) = E.keccak (k ++ d.payload))) := by
  obtain ⟨h1, h2, h3, _⟩ := C106_exact_partial (i := i) h hk
  cases hd : (EView.after secure calls).data k with
  | none => rw [h1 hd] at hg; cases hg
  | some y =>
    cases hx : (EView.after secure calls).maps i k with
    | none =>
      obtain ⟨e, he⟩ := h2 y hd hx
      rw [he] at hg; cases hg
    | some x =>
      refine ⟨x, EView.given secure hx, ?_⟩
      rw [h3 y x hd hx] at hg
      split at hg
      · cases hg
        rename_i e
        by_cases hp : d.payload = x.payload
        · exact .inl hp
        · exact .inr ⟨fun hh => hp (List.append_cancel_left hh).symm, e⟩
      · cases hg

/-- An update makes the key readable again for the object that makes it. -/
theorem C106_repair_partial {E : Env} {secure : Nat → Bool} {calls : List EStep} {keys : List Bytes} {i : Nat} {k : Bytes}
    {x : Value} (h : ESharedOk E secure (calls ++ [.call i (.update k x)]) keys) (hs : x.storable = true) :
    ((EShared.after E secure (calls ++ [.call i (.update k x)])).obj i).get E k = .ok x := by
  have hk : k ∈ keys := h.named (.call i (.update k x)) (by simp) k (by simp [EStep.keys, EOp.key])
  have hv : EView.after secure (calls ++ [.call i (.update k x)]) =
      (EView.after secure calls).step (.call i (.update k x)) := EView.after_snoc ..
  rw [(C106_exact_partial (i := i) h hk).2.2.1 x x (by rw [hv]; simp [EView.step, hs])
    (by rw [hv]; simp [EView.step, hs]), if_pos rfl]

/-! ### Two processes -/

/-- Object 0 stores three keys; object 1 is opened at its root, changes one, deletes one and adds one. -/
def twoProcesses : List EStep :=
  [.call 0 (.update [0x12] (.bytes [1])), .call 0 (.update [0x34] (.bytes [2])), .call 0 (.update [0x56] (.bytes [3])),
   .open 1 0, .call 1 (.update [0x12] (.bytes [7])), .call 1 (.delete [0x34]), .call 1 (.update [0x78] (.bytes [4]))]

def twoKeys : List Bytes := [[0x12], [0x34], [0x56], [0x78]]

/-- Decides the last hypothesis. -/
theorem opens_of {secure : Nat → Bool} {calls : List EStep} (f : Nat → Nat → Bytes)
    (h : (List.range calls.length).all (fun n => match calls[n]? with
      | some (.open i j) => decide ((EView.after secure (calls.take n)).maps j (f i j) ≠ none)
      | _ => true) = true) :
    ∀ pre i j post, calls = pre ++ .open i j :: post → ∃ k, (EView.after secure pre).maps j k ≠ none := by
  intro pre i j post e
  have := List.all_eq_true.1 h pre.length (by rw [List.mem_range, e]; simp)
  rw [e] at this
  simp only [List.getElem?_append_right (Nat.le_refl _), Nat.sub_self, List.getElem?_cons_zero, List.take_left] at this
  exact ⟨_, of_decide_eq_true this⟩

theorem two_ok (secure : Bool) : ESharedOk toyEnv (fun _ => secure) twoProcesses twoKeys where
  named := by decide
  fits := fun _ => by cases secure <;> decide
  apart := fun _ => by cases secure <;> (unfold KeysApart; decide +kernel)
  sizes := by
    intro i k x h
    simp only [twoProcesses, List.mem_cons, List.not_mem_nil, or_false, EStep.call.injEq, EOp.update.injEq, reduceCtorEq,
      and_false, false_or, or_false] at h
    rcases h with ⟨_, rfl, rfl⟩ | ⟨_, rfl, rfl⟩ | ⟨_, rfl, rfl⟩ | ⟨_, rfl, rfl⟩ | ⟨_, rfl, rfl⟩ <;> decide
  log := by cases secure <;> exact logOk_of (by decide +kernel)
  opens := opens_of (fun _ _ => [0x12]) (by cases secure <;> decide +kernel)

/-- Object 0 does not read the key object 1 has changed, and raises KeyError for the one it has deleted. -/
theorem two_answers :
    (((EShared.after toyEnv (fun _ => false) twoProcesses).obj 0).get toyEnv [0x12] = .error .invalidReference ∧
     ((EShared.after toyEnv (fun _ => false) twoProcesses).obj 0).get toyEnv [0x34] = .error .keyError ∧
     ((EShared.after toyEnv (fun _ => false) twoProcesses).obj 0).get toyEnv [0x56] = .ok (.bytes [3]) ∧
     ((EShared.after toyEnv (fun _ => false) twoProcesses).obj 1).get toyEnv [0x12] = .ok (.bytes [7])) ∧
    (EMPT.after toyEnv false (lineages twoProcesses 0)).get toyEnv [0x12] = .ok (.bytes [1]) :=
  ⟨⟨by decide +kernel, by decide +kernel, by decide +kernel, by decide +kernel⟩, by decide +kernel⟩

theorem C106_false : ¬ C106 := by
  intro h
  have := h toyEnv (fun _ => false) twoProcesses twoKeys 0 [0x12] (two_ok false) (by decide)
  rw [two_answers.1.1] at this
  rw [show (EView.after (fun _ => false) twoProcesses).secure 0 = false by decide, two_answers.2] at this
  cases this

/-- The hypothesis of `C106_own_partial`: `56` was never named by object 1 but is known to it. -/
example : naming [0x56] (lineages twoProcesses 1) = naming [0x56] (allCalls twoProcesses) ∧
    econtents (lineages twoProcesses 1) [0x56] = some (.bytes [3]) ∧
    naming [0x12] (lineages twoProcesses 1) = naming [0x12] (allCalls twoProcesses) ∧
    naming [0x12] (lineages twoProcesses 0) ≠ naming [0x12] (allCalls twoProcesses) := by decide

/-- Where keys begin with one another, a delete can fail and still do damage: object 0 has the keys `12` and `12 34`, object 1
has `12 56`; `contains` of object 0 takes `12 56` for present (C01), so its delete removes the value of object 1 and
then raises. -/
theorem C106_damage :
    let calls : List EStep := [.call 0 (.update [0x12] (.bytes [1])), .call 0 (.update [0x12, 0x34] (.bytes [2])),
      .call 1 (.update [0x12, 0x56] (.bytes [3]))]
    let w := EShared.after toyEnv (fun _ => false) calls
    let w' := w.step toyEnv (.call 0 (.delete [0x12, 0x56]))
    (w.obj 1).get toyEnv [0x12, 0x56] = .ok (.bytes [3]) ∧
    (EMPT.delete toyEnv [0x12, 0x56] (w.obj 0)).1 = .error .branchPath ∧
    (w'.obj 1).get toyEnv [0x12, 0x56] = .error .keyError :=
  ⟨by decide +kernel, by decide +kernel, by decide +kernel⟩

end Props
end Pymt
