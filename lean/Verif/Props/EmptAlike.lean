import Verif.Lemmas.EmptAlike
import Verif.Props.Alike
import Verif.Props.Order

/-!
# The past of an `EMPT` in the answers of its calls (C136)
-/

namespace Pymt.Props

/-- What theorems about calls made after two histories of an `EMPT` assume; compare `Comparable`. -/
structure EComparable (E : Env) (secure : Bool) (ops ops' : List EOp) (cs : List ERequest) : Prop where
  valid : EValid E secure ops (ops'.map EOp.key)
  valid' : EValid E secure ops' (ops.map EOp.key)
  fits : ∀ c ∈ cs, ∀ k ∈ c.keys, Fits E secure k
  log : LogOk E (ERequest.final E cs (EMPT.after E secure ops)).trie.store.written
  log' : LogOk E (ERequest.final E cs (EMPT.after E secure ops')).trie.store.written

/-- **C136** (false, see below) Two `EMPT`s with the same contents give the same outcomes for all later calls, whatever
was done to them before. -/
def C136 : Prop :=
  ∀ (E : Env) (secure : Bool) (ops ops' : List EOp) (cs : List ERequest), EComparable E secure ops ops' cs →
    econtents ops = econtents ops' →
    ERequest.outcomes E cs (EMPT.after E secure ops) = ERequest.outcomes E cs (EMPT.after E secure ops')

/-- Dicts with the same keys in the same order and the same values are the same. -/
theorem dict_ext {β : Type} {d d' : Dict β} (hn : (d.map (·.1)).Nodup) (hk : d.map (·.1) = d'.map (·.1))
    (hv : ∀ k, dget d k = dget d' k) : d = d' := by
  induction d generalizing d' with
  | nil => cases d' with
    | nil => rfl
    | cons e d' => simp at hk
  | cons e d ih =>
    cases d' with
    | nil => simp at hk
    | cons e' d' =>
      obtain ⟨k, v⟩ := e
      obtain ⟨k', v'⟩ := e'
      simp only [List.map_cons, List.cons.injEq] at hk
      obtain ⟨rfl, hk⟩ := hk
      have h0 := hv k
      simp only [dget, if_true, Option.some.injEq] at h0
      subst h0
      simp only [List.map_cons, List.nodup_cons] at hn
      rw [ih hn.2 hk fun j => ?_]
      by_cases hj : k = j
      · subst hj
        have h1 : dget d k = none := Classical.byContradiction fun h => hn.1 (mem_keys_iff.2 h)
        have h2 : dget d' k = none := Classical.byContradiction fun h => hn.1 (hk ▸ mem_keys_iff.2 h)
        rw [h1, h2]
      · have := hv j
        simpa [dget, hj] using this

theorem etwins_after {E : Env} {ord secure : Bool} {ops ops' : List EOp} {cs : List ERequest}
    (h : EComparable E secure ops ops' cs) (hc : econtents ops = econtents ops')
    (ho : ord = true → (EMPT.after E secure ops).iter = (EMPT.after E secure ops').iter)
    (hr : (∃ k, econtents ops k ≠ none) ∨ (EMPT.after E secure ops).trie.root = (EMPT.after E secure ops').trie.root) :
    ETwins E ord secure (ERequest.final E cs (EMPT.after E secure ops)).trie.store.written
      (ERequest.final E cs (EMPT.after E secure ops')).trie.store.written (EMPT.after E secure ops)
      (EMPT.after E secure ops') := by
  have hm := h.valid.mirror
  have hm' := h.valid'.mirror
  have sub : ∀ a b : List EOp, ∀ k ∈ (refOps E b).map Op.key,
      k ∈ b.map EOp.key ++ (refOps E a).map Op.key := by
    intro a b k hk
    obtain ⟨op, hop, rfl⟩ := List.mem_map.1 hk
    exact List.mem_append_left _ (refOps_key hop)
  have hv : Valid E secure (refOps E ops) ((refOps E ops').map Op.key) := (h.valid.valid hm).subset (sub ops ops')
  have hv' : Valid E secure (refOps E ops') ((refOps E ops).map Op.key) := (h.valid'.valid hm').subset (sub ops' ops)
  have hcon : contents (refOps E ops) = contents (refOps E ops') := by
    funext k
    rw [contents_refOps, contents_refOps, hc]
  have he := eff_congr hv.keys hcon
  obtain ⟨a, h1, h2, h3, _⟩ := Inv.same hv.inv (he ▸ hv'.inv)
  rw [← hm.trie] at h1
  rw [← hm'.trie] at h2
  have hw := ERequest.final_grows (E := E) cs (EMPT.after E secure ops)
  have hw' := ERequest.final_grows (E := E) cs (EMPT.after E secure ops')
  have hd : ∀ k, dget (EMPT.after E secure ops).data k = dget (EMPT.after E secure ops').data k := by
    intro k
    rw [hm.data, hm'.data, hc]
  refine ⟨hd, fun ht => dict_ext hm.nodup (ho ht) hd, hm.nodup, hm'.nodup, ?_, ?_, ⟨a, ⟨h1, h3.full⟩, ⟨h2, h3.full⟩, ?_,
    h.log, h.log', ?_, ?_, hw, hw'⟩, fun k hk => ?_⟩
  · rcases hr with ⟨k, hk⟩ | hr
    · rw [hm.trie, hm'.trie]
      refine (C06_root hv hv' hcon).2 k ?_
      rw [contents_refOps]
      cases hx : econtents ops k with
      | none => exact absurd hx hk
      | some v => simp
    · exact hr
  · rw [hm.trie, after_secure]
  · rw [hm.trie, hm'.trie, after_secure, after_secure]
  · rw [hm.trie] at hw ⊢
    exact after_gs _ hw
  · rw [hm'.trie] at hw' ⊢
    exact after_gs _ hw'
  · have : econtents ops k ≠ none := by
      rw [← hm.data]
      exact mem_keys_iff.1 (show k ∈ (EMPT.after E secure ops).data.map (·.1) from hk)
    cases hx : econtents ops k with
    | none => exact absurd hx this
    | some v => exact h.valid.fits _ (econtents_some_mem hx)

/-- C136 in part: if moreover the keys are in the same order, and there are any or `root()` is the same, all the
outcomes are the same.  Missing: different orders (`C136_unordered_partial`, `C136_false`), and empty `EMPT`s of which
one is new and the other had a key, which `root()` and `get_reference` tell apart as in C134. -/
theorem C136_ordered_partial {E : Env} {secure : Bool} {ops ops' : List EOp} {cs : List ERequest}
    (h : EComparable E secure ops ops' cs) (hc : econtents ops = econtents ops')
    (ho : (EMPT.after E secure ops).iter = (EMPT.after E secure ops').iter)
    (hr : (∃ k, econtents ops k ≠ none) ∨ (EMPT.after E secure ops).trie.root = (EMPT.after E secure ops').trie.root) :
    ERequest.outcomes E cs (EMPT.after E secure ops) = ERequest.outcomes E cs (EMPT.after E secure ops') :=
  (etwins_after (ord := true) h hc (fun _ => ho) hr).all cs h.fits (fun _ _ => .inl rfl) (fun _ h => h) (fun _ h => h)

/-- C136 in part: whatever the order of the keys, calls that do not go through the keys have the same outcomes, as long
as only such calls are made.  Missing: iteration, `items`, `popitem`, `clear` (`C136_false`). -/
theorem C136_unordered_partial {E : Env} {secure : Bool} {ops ops' : List EOp} {cs : List ERequest}
    (h : EComparable E secure ops ops' cs) (hc : econtents ops = econtents ops') (ho : ∀ c ∈ cs, c.ordered = false)
    (hr : (∃ k, econtents ops k ≠ none) ∨ (EMPT.after E secure ops).trie.root = (EMPT.after E secure ops').trie.root) :
    ERequest.outcomes E cs (EMPT.after E secure ops) = ERequest.outcomes E cs (EMPT.after E secure ops') :=
  (etwins_after (ord := false) h hc (fun h => by simp at h) hr).all cs h.fits (fun c hcs => .inr (ho c hcs)) (fun _ h => h)
    (fun _ h => h)

/-- Two histories of an `EMPT` with the same contents, in different orders. -/
def plainPairOps : List EOp := [.update [0x12] (.bytes [1]), .update [0x34] (.bytes [2])]
def swapOps : List EOp := [.update [0x34] (.bytes [2]), .update [0x12] (.bytes [3]), .update [0x12] (.bytes [1])]
/-- Another history with the order of `plainPairOps`. -/
def againOps : List EOp :=
  [.update [0x34] (.bytes [7]), .update [0x12] (.bytes [1]), .delete [0x34], .update [0x34] (.bytes [2])]

theorem pair_swap : econtents plainPairOps = econtents swapOps := by
  funext k
  simp only [econtents, plainPairOps, swapOps, List.foldl_cons, List.foldl_nil, EOp.apply, Value.storable]
  by_cases h1 : k = [0x12] <;> by_cases h2 : k = [0x34] <;> simp_all

theorem pair_again : econtents plainPairOps = econtents againOps := by
  funext k
  simp only [econtents, plainPairOps, againOps, List.foldl_cons, List.foldl_nil, EOp.apply, Value.storable]
  by_cases h1 : k = [0x12] <;> by_cases h2 : k = [0x34] <;> simp_all

/-- C136 is false: the order of iteration shows which key was added first. -/
theorem C136_false : ¬ C136 := by
  intro h
  have := h toyEnv false plainPairOps swapOps [.iter]
    ⟨evalid_of (by decide +kernel), evalid_of (by decide +kernel), by decide +kernel, logOk_of (by decide +kernel),
      logOk_of (by decide +kernel)⟩ pair_swap
  simp only [ERequest.outcomes, ERequest.run, List.cons.injEq, and_true, Except.ok.injEq, ETold.keys.injEq] at this
  revert this
  decide +kernel

/-- Calls made after them. -/
def laterECalls : List ERequest :=
  [.get [0x12], .getReference [0x34], .poi [] [0x12], .poe [] [0x55], .update [0x12, 0x34] (.bytes [9]), .root,
    .pop [0x12], .setdefault [0x12] (.bytes [5]), .len, .delete [0x34]]

example : EComparable toyEnv false plainPairOps againOps (laterECalls ++ [.iter, .items, .popitem, .clear, .root]) ∧
    econtents plainPairOps = econtents againOps ∧
    (EMPT.after toyEnv false plainPairOps).iter = (EMPT.after toyEnv false againOps).iter ∧
    ∃ k, econtents plainPairOps k ≠ none :=
  ⟨⟨evalid_of (by decide +kernel), evalid_of (by decide +kernel), by decide +kernel, logOk_of (by decide +kernel),
      logOk_of (by decide +kernel)⟩, pair_again, by decide +kernel, [0x12], by decide +kernel⟩

example : EComparable toyEnv true plainPairOps swapOps laterECalls ∧ econtents plainPairOps = econtents swapOps ∧
    (∀ c ∈ laterECalls, c.ordered = false) ∧ ∃ k, econtents plainPairOps k ≠ none :=
  ⟨⟨evalid_of (by decide +kernel), evalid_of (by decide +kernel), by decide +kernel, logOk_of (by decide +kernel),
      logOk_of (by decide +kernel)⟩, pair_swap, by decide +kernel, [0x12], by decide +kernel⟩

end Pymt.Props
