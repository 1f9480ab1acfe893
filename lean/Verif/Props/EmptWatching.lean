import Verif.Lemmas.EmptWatching
import Verif.Spec.ToyEmpt

/-!
# Property C95: reading an `EMPT` while another thread writes to it

`EMPT.passes` (`Verif/Spec/EmptWatching.lean`) are the states an object goes through while a thread makes calls on it,
one for every access to the dicts and to the root; `Sees` says that a reader comes upon these states in order.
-/

namespace Pymt
namespace Props

/-- The full statement of C95: a reader gets what the mapping answered before or after one of the calls that were made
meanwhile. -/
def C95 : Prop := ∀ (E : Env) (secure : Bool) (pre mid : List EOp) (k : Bytes) (V : Nat → EMPT),
  EValid E secure (pre ++ mid) [k] → Sees (EMPT.passes E (EMPT.after E secure pre) mid) V →
  ∃ q, q ≤ mid.length ∧
    (EMPT.getCallP E secure k).watch V = (EMPT.after E secure (pre ++ mid.take q)).get E k

theorem econtents_untouched {pre ops : List EOp} {k : Bytes} (h : ∀ op ∈ ops, op.key ≠ k) :
    econtents (pre ++ ops) k = econtents pre k := by
  rw [← List.reverse_reverse ops] at h ⊢
  generalize ops.reverse = ops at h ⊢
  induction ops with
  | nil => simp
  | cons op ops ih =>
    rw [List.reverse_cons] at h ⊢
    have ih := ih fun x hx => h x (List.mem_append_left _ hx)
    have hk := h op (by simp)
    rw [← List.append_assoc, econtents_append]
    cases op with
    | update k' v =>
      have : ¬ (v.storable = true ∧ k = k') := fun h => hk h.2.symm
      simp only [EOp.apply]
      rw [if_neg this]
      exact ih
    | delete k' =>
      have : ¬ (k = k') := fun h => hk h.symm
      simp only [EOp.apply]
      rw [if_neg this]
      exact ih

/-- What the program of `get` does, from what its accesses find. -/
theorem watch_get (E : Env) (secure : Bool) (k : Bytes) (V : Nat → EMPT) :
    (EMPT.getCallP E secure k).watch V =
      match dget (V 0).data k with
      | none => .error .keyError
      | some v =>
        ((MPT.getCallP E (if secure then E.keccak k else k)).along (fun n => (V n).trie) 1).1 >>= fun enc =>
          EMPT.compareRef E k enc v := by
  unfold EProg.watch EMPT.getCallP EProg.dataItem
  rw [EProg.along_bind]
  simp only [EProg.along]
  cases dget (V 0).data k with
  | none => rfl
  | some v =>
    simp only
    rw [EProg.along_bind, EProg.trie_along]
    generalize (MPT.getCallP E (if secure then E.keccak k else k)).along (fun n => (V n).trie) 1 = r
    obtain ⟨x, m⟩ := r
    cases x <;> rfl

/-- A key that is not named by any of the calls made meanwhile: the reader gets what the mapping answered before.
(Calls that name the key are missing here.) -/
theorem C95_untouched_partial {E : Env} {secure : Bool} {pre mid : List EOp} {k : Bytes} {V : Nat → EMPT}
    (h : EValid E secure (pre ++ mid) [k]) (hV : Sees (EMPT.passes E (EMPT.after E secure pre) mid) V)
    (hk : ∀ op ∈ mid, op.key ≠ k) :
    (EMPT.getCallP E secure k).watch V = (EMPT.after E secure pre).get E k := by
  have hq : ∀ q, econtents (pre ++ mid.take q) k = econtents pre k :=
    fun q => econtents_untouched fun op ho => hk op (List.mem_of_mem_take ho)
  obtain ⟨⟨e, hv⟩, hd⟩ := h.views hV
  obtain ⟨d, hd0⟩ := hd 0
  have hdata : dget (V 0).data k = econtents pre k := by
    rw [hd0, ← hq d]
    exact (h.midTake d).mirror.data k
  rw [watch_get, hdata]
  cases hc : econtents pre k with
  | none => exact (h.prefix.get_none hc).symm
  | some v =>
    rw [h.prefix.get_some hc]
    simp only
    have hf : Fits E secure k := h.fitsq k (by simp)
    have hget : ∀ q, (midState E secure pre mid q).trie.get E k = .ok (refOf E k v) := by
      intro q
      have hm := (h.midTake q).mirror
      have hr := contents_refOps E (pre ++ mid.take q) k
      rw [hq q, hc] at hr
      show (EMPT.after E secure (pre ++ mid.take q)).trie.get E k = _
      rw [hm.trie]
      exact C02_get ((h.midTake q).valid hm) hr
    have key : ((MPT.getCallP E (if secure then E.keccak k else k)).along (fun n => (V n).trie) 1).1 =
        .ok (refOf E k v) := by
      rcases hv.get hf 1 with ⟨q, h1⟩ | ⟨_, q, h1⟩
      · rw [h1]; exact hget q
      · have := hget q
        have hrf : (midState E secure pre mid q).trie.rootFalsy = true := by
          unfold MPT.rootFalsy
          rw [h1]
          rfl
        unfold MPT.get at this
        rw [if_pos hrf] at this
        exact (nomatch this)
    rw [key]
    have hst := h.prefix.mirror.storable k v hc
    simp only [Except.bind_ok', EMPT.compareRef, decode_refOf h.prefix hc, ofValue_storable hst]
    simp [DataRef.eq]

/-- A value that is returned was the value of the key before or after one of the calls made meanwhile.  (What is
missing: a call that names the key can make the reader raise InvalidReferenceError or another exception.) -/
theorem C95_value_partial {E : Env} {secure : Bool} {pre mid : List EOp} {k : Bytes} {V : Nat → EMPT} {v : Value}
    (h : EValid E secure (pre ++ mid) [k]) (hV : Sees (EMPT.passes E (EMPT.after E secure pre) mid) V)
    (hr : (EMPT.getCallP E secure k).watch V = .ok v) :
    ∃ q, q ≤ mid.length ∧ econtents (pre ++ mid.take q) k = some v ∧
      (EMPT.after E secure (pre ++ mid.take q)).get E k = .ok v := by
  obtain ⟨_, hd⟩ := h.views hV
  obtain ⟨d, hd0⟩ := hd 0
  have hdata : dget (V 0).data k = econtents (pre ++ mid.take d) k := by
    rw [hd0]
    exact (h.midTake d).mirror.data k
  rw [watch_get, hdata] at hr
  have hsome : econtents (pre ++ mid.take d) k = some v := by
    cases hc : econtents (pre ++ mid.take d) k with
    | none => rw [hc] at hr; exact (nomatch hr)
    | some w =>
      rw [hc] at hr
      simp only at hr
      generalize ((MPT.getCallP E (if secure then E.keccak k else k)).along (fun n => (V n).trie) 1).1 = x at hr
      cases x with
      | error e => exact (nomatch hr)
      | ok enc =>
        simp only [Except.bind_ok', EMPT.compareRef] at hr
        cases h1 : DataRef.decode E enc with
        | error e => rw [h1] at hr; exact (nomatch hr)
        | ok ref =>
          rw [h1] at hr
          simp only [Except.bind_ok'] at hr
          cases h2 : DataRef.ofValue k w with
          | error e => rw [h2] at hr; exact (nomatch hr)
          | ok ex =>
            rw [h2] at hr
            simp only [Except.bind_ok'] at hr
            split at hr
            · exact (nomatch hr)
            · injection hr with hr
              rw [hr]
  rcases Nat.le_total d mid.length with hle | hle
  · exact ⟨d, hle, hsome, (h.midTake d).get_some hsome⟩
  · have : mid.take d = mid.take mid.length := by rw [List.take_of_length_le hle, List.take_length]
    rw [this] at hsome
    exact ⟨mid.length, Nat.le_refl _, hsome, (h.midTake _).get_some hsome⟩

/-! ### Cases -/

/-- What a reader sees whose accesses come upon the states with these numbers, the last one from then on. -/
def seenAt (l : List EMPT) (d : EMPT) (moms : List Nat) (n : Nat) : EMPT := l.getD (moms.getD n (l.length - 1)) d

theorem sees_of {l : List EMPT} {d : EMPT} {moms : List Nat} (hl : l ≠ [])
    (h : moms.Pairwise (· ≤ ·)) (hm : ∀ m ∈ moms, m ≤ l.length - 1) : Sees l (seenAt l d moms) := by
  have hpos : 0 < l.length := List.length_pos_iff.2 hl
  have hb : ∀ n, moms.getD n (l.length - 1) ≤ l.length - 1 := by
    intro n
    rw [List.getD_eq_getElem?_getD]
    cases hn : moms[n]? with
    | none => exact Nat.le_refl _
    | some m => exact hm m (List.mem_of_getElem? hn)
  refine ⟨fun n => moms.getD n (l.length - 1), fun n => ?_, fun n => ?_⟩
  · show moms.getD n _ ≤ moms.getD (n + 1) _
    rw [List.getD_eq_getElem?_getD (i := n + 1)]
    cases hn : moms[n + 1]? with
    | none => exact hb n
    | some m =>
      obtain ⟨h2, rfl⟩ := List.getElem?_eq_some_iff.1 hn
      have h1 : n < moms.length := by omega
      rw [List.getD_eq_getElem?_getD, List.getElem?_eq_getElem h1]
      exact List.pairwise_iff_getElem.1 h _ _ h1 h2 (Nat.lt_succ_self n)
  · have := hb n
    show l[moms.getD n (l.length - 1)]? = _
    unfold seenAt
    rw [List.getD_eq_getElem?_getD (l := l), List.getElem?_eq_getElem (by omega)]
    rfl

/-- A key with a first value. -/
def watchPre : List EOp := [.update [0x12, 0x34] (.bytes [1]), .update [0x56] (.bytes [7])]

/-- The same key gets another value, another key goes away and a new one comes. -/
def watchMid : List EOp := [.update [0x12, 0x34] (.bytes [2]), .delete [0x56], .update [0x12, 0x99] (.bytes [3])]

/-- The value is read before the first of these calls, the reference after the last one. -/
theorem C95_false : ¬ C95 := by
  intro h
  have hv : EValid toyEnv false (watchPre ++ watchMid) [[0x12, 0x34]] := evalid_of (by decide +kernel)
  have hs : Sees (EMPT.passes toyEnv (EMPT.after toyEnv false watchPre) watchMid)
      (seenAt (EMPT.passes toyEnv (EMPT.after toyEnv false watchPre) watchMid) (EMPT.new toyEnv false) [0]) :=
    sees_of (by simp [watchMid, EMPT.passes]) (by simp) (by simp)
  obtain ⟨q, hq, e⟩ := h toyEnv false watchPre watchMid [0x12, 0x34] _ hv hs
  have hx : (EMPT.getCallP toyEnv false [0x12, 0x34]).watch
      (seenAt (EMPT.passes toyEnv (EMPT.after toyEnv false watchPre) watchMid) (EMPT.new toyEnv false) [0]) =
      .error .invalidReference := by decide +kernel
  rw [hx] at e
  have hall : ∀ q, q ≤ 3 → (EMPT.after toyEnv false (watchPre ++ watchMid.take q)).get toyEnv [0x12, 0x34] ≠
      .error .invalidReference := by decide +kernel
  exact hall q hq e.symm

/-- A key that the calls do not name, read at three moments of the same three calls. -/
example : (EMPT.getCallP toyEnv false [0x88]).watch
      (seenAt (EMPT.passes toyEnv (EMPT.after toyEnv false (watchPre ++ [.update [0x88] (.bytes [8])])) watchMid)
        (EMPT.new toyEnv false) [1, 4, 9]) = .ok (.bytes [8]) := by
  have hv : EValid toyEnv false ((watchPre ++ [.update [0x88] (.bytes [8])]) ++ watchMid) [[0x88]] :=
    evalid_of (by decide +kernel)
  rw [C95_untouched_partial hv (sees_of (by simp [watchMid, EMPT.passes]) (by decide) (by decide +kernel))
    (by decide)]
  decide +kernel

/-- The value, read while the call that replaces it is under way. -/
example : (EMPT.getCallP toyEnv false [0x12, 0x34]).watch
      (seenAt (EMPT.passes toyEnv (EMPT.after toyEnv false watchPre) watchMid) (EMPT.new toyEnv false)
        [0, 1, 1, 1, 1, 1, 1, 1, 1, 1, 1, 1]) = .ok (.bytes [1]) := by decide +kernel

/-- The value, read after that call. -/
example : (EMPT.getCallP toyEnv false [0x12, 0x34]).watch
      (seenAt (EMPT.passes toyEnv (EMPT.after toyEnv false watchPre) watchMid) (EMPT.new toyEnv false) []) =
      .ok (.bytes [2]) := by decide +kernel

end Props
end Pymt
