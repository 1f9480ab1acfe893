import Verif.Spec.Count
import Verif.Props.Past
import Verif.Props.Codec

/-!
# `len` of a trie (C132)
-/

namespace Pymt.Props

/-- **C132** (false, see below) `len(trie)` is "the number of nodes in the trie". -/
def C132 : Prop :=
  ∀ (E : Env) (secure : Bool) (ops : List Op) (L : List Bytes), Valid E secure ops [] →
    Counted E (MPT.after E secure ops) L → (MPT.after E secure ops).len = L.length

/-- What can be reached from the root of an empty trie. -/
theorem reaches_empty {E : Env} {t : MPT} (hl : LogOk E t.store.written) (hg : GS E t.store.written t.store) {r : Bytes}
    (h : Reaches t.store.kv (emptyHash E) r) : r = emptyHash E := by
  induction h with
  | root => rfl
  | inline _ hl' _ ih => rw [ih, show (emptyHash E).length = 32 from E.keccak_len _] at hl'; omega
  | @hash r w r' _ hl' hw _ ih =>
    rw [ih, hg.noEmpty hl] at hw
    exact (nomatch hw)

/-- Every node with a hash is in the storage. -/
theorem counted_stored {E : Env} {secure : Bool} {ops : List Op} (ho : ∀ op ∈ ops, Fits E secure op.key)
    (hl : LogOk E (MPT.after E secure ops).store.written) {L : List Bytes} (hL : Counted E (MPT.after E secure ops) L)
    {r : Bytes} (hr : r ∈ L) (h32 : r.length = 32) : ∃ v, dget (MPT.after E secure ops).store.kv r = some v := by
  have hb := (Bears.after ho hl).holds
  have hg : GS E (MPT.after E secure ops).store.written (MPT.after E secure ops).store := after_gs ops fun w hw => hw
  obtain ⟨_, h2, root, h3, h4⟩ := (hL.all r).1 hr
  rcases hb.root with ⟨_, e⟩ | ⟨hne, e⟩
  · rw [h3] at e
    rcases e with e | e
    · exact (nomatch e)
    · injection e with e
      subst e
      exact absurd (reaches_empty hl hg h4) h2
  · rw [h3] at e
    injection e with e
    subst e
    rcases T.reaches_part hb.stored hne h4 with rfl | ⟨y, p, hy, hp, rfl⟩
    · simp at h32
    · rw [T.ref_of_ne hy] at h32 ⊢
      split at h32
      · omega
      · rename_i hn
        rw [if_neg hn]
        rcases (hp.stored hb.stored).here hy with h' | h'
        · exact absurd h' hn
        · exact ⟨_, h'.1⟩

/-- C132, what holds: `len` counts at least the nodes that have a hash. -/
theorem C132_atleast_partial {E : Env} {secure : Bool} {ops : List Op} (ho : ∀ op ∈ ops, Fits E secure op.key)
    (hl : LogOk E (MPT.after E secure ops).store.written) {L : List Bytes} (hL : Counted E (MPT.after E secure ops) L) :
    (L.filter fun r => r.length = 32).length ≤ (MPT.after E secure ops).len := by
  unfold MPT.len
  rw [← List.length_map (as := (MPT.after E secure ops).store.kv) (f := (·.1))]
  refine nodup_length_le (hL.nodup.sublist List.filter_sublist) fun r hr => ?_
  obtain ⟨h1, h2⟩ := List.mem_filter.1 hr
  obtain ⟨v, hv⟩ := counted_stored ho hl hL h1 (by simpa using h2)
  exact List.mem_map.2 ⟨_, mem_of_dget hv, rfl⟩

/-- C132, what holds: once nothing unused is left in the dict, `len` is the number of nodes that have a hash. -/
theorem C132_trimmed_partial {E : Env} {secure : Bool} {ops : List Op} (ho : ∀ op ∈ ops, Fits E secure op.key)
    (hl : LogOk E (MPT.after E secure ops).store.written) {L : List Bytes} (hL : Counted E (MPT.after E secure ops) L)
    {t : MPT} (hs : Trimmed (MPT.after E secure ops) t) : t.len = (L.filter fun r => r.length = 32).length := by
  have hg : GS E (MPT.after E secure ops).store.written (MPT.after E secure ops).store := after_gs ops fun w hw => hw
  have hb := (Bears.after ho hl).holds
  unfold MPT.len
  rw [← List.length_map (as := t.store.kv) (f := (·.1))]
  refine Nat.le_antisymm (nodup_length_le hs.dict fun k hk => ?_)
    (nodup_length_le (hL.nodup.sublist List.filter_sublist) fun r hr => ?_)
  · obtain ⟨e, he, rfl⟩ := List.mem_map.1 hk
    have hd := dget_mem hs.dict he
    have hd' := hs.less.less _ _ hd
    have h32 : e.1.length = 32 := by rw [(hb.good _ _ hd').1]; exact E.keccak_len _
    refine List.mem_filter.2 ⟨(hL.all _).2 ⟨?_, ?_, hs.used _ _ hd⟩, by simpa using h32⟩
    · intro h0; rw [h0] at h32; simp at h32
    · intro h0; rw [h0, hg.noEmpty hl] at hd'; exact (nomatch hd')
  · obtain ⟨h1, h2⟩ := List.mem_filter.1 hr
    have h32 : r.length = 32 := by simpa using h2
    obtain ⟨v, hv⟩ := counted_stored ho hl hL h1 h32
    obtain ⟨_, _, root, h3, h4⟩ := (hL.all r).1 h1
    rw [← hs.less.keep root h3 r h32 h4] at hv
    exact List.mem_map.2 ⟨_, mem_of_dget hv, rfl⟩

/-- `len` never decreases, whatever is deleted. -/
theorem C132_grows (E : Env) (secure : Bool) (ops more : List Op) :
    (MPT.after E secure ops).len ≤ (MPT.after E secure (ops ++ more)).len := by
  unfold MPT.len
  rw [← List.length_map (as := (MPT.after E secure ops).store.kv) (f := (·.1)),
    ← List.length_map (as := (MPT.after E secure (ops ++ more)).store.kv) (f := (·.1))]
  have hn : ((MPT.after E secure ops).store.kv.map (·.1)).Nodup := by
    rw [after_replay]; exact replay_nodup E _ (by simp [Store.empty])
  refine nodup_length_le hn fun k hk => ?_
  obtain ⟨e, he, rfl⟩ := List.mem_map.1 hk
  obtain ⟨v, hv⟩ := (C13_append_only (more := more) (dget_mem hn he)).2.1
  exact List.mem_map.2 ⟨_, mem_of_dget hv, rfl⟩

theorem encStr_short {b : Bytes} (h : b.length < 56) : (encStr b).length ≤ b.length + 1 := by
  unfold encStr
  split
  · split
    · simp
    · rw [lenPrefix_short (by simp)]; simp
  · rw [lenPrefix_short h]; simp

/-- A trie with one key is empty for `len`, and so false in `if trie:`, when key and value are short. -/
theorem C132_zero {E : Env} {k v : Bytes} (hf : Fits E false k) (hl : k.length + v.length ≤ 27) :
    (MPT.after E false [.update k v]).len = 0 ∧ (MPT.after E false [.update k v]).get E k = .ok v ∧
    (MPT.after E false [.update k v]).contains E k = .ok true := by
  have hst : (MPT.after E false [.update k v]).store = Store.empty := by
    have hlim : ∃ f, E.limit = f + 1 := by
      unfold Fits at hf
      exact ⟨E.limit - 1, by omega⟩
    obtain ⟨f, hlim⟩ := hlim
    have hlen : (Item.encode (.list [.str (hp true (toNibs k)), .str v])).length < 32 := by
      have h1 := T.hp_length true (toNibs k)
      rw [toNibs_length] at h1
      have h2 := encStr_short (b := hp true (toNibs k)) (by omega)
      have h3 := encStr_short (b := v) (by omega)
      simp only [Item.encode, Item.encodeList, List.append_nil]
      rw [lenPrefix_short (by simp only [List.length_append]; omega)]
      simp only [List.length_append, List.length_cons, List.length_nil]
      omega
    show (MPT.update E k v (MPT.new E false)).2.store = _
    have henc : Node.encode (.leaf ⟨k, 0⟩ v) = .ok (Item.encode (.list [.str (hp true (toNibs k)), .str v])) := by
      rw [Node.encode, NibblePath.encode_spec (NibblePath.WF_bytes _), NibblePath.nibs_bytes]
      rfl
    have hne : (Item.encode (.list [.str (hp true (toNibs k)), .str v])).length ≠ 32 := by omega
    simp [MPT.update, MPT.new, MPT.init, MPT.keyOf, MPT.onStore, hlim, MPT.updateAux, MPT.storeNode, Node.intoReference, henc, hlen, hne,
      Store.empty]
  have hv : Valid E false [.update k v] [k] := by
    refine ⟨fun _ pre hp => ?_, by simpa [Op.key] using hf, by simpa using hf, ?_, by simp⟩
    · intro a b ha hb _
      have hone : ∀ c x, contents pre c = some x → c = k := by
        intro c x hx
        rcases List.prefix_cons_iff.1 hp with rfl | ⟨p', rfl, hp'⟩
        · exact (nomatch hx)
        · rw [List.prefix_nil.1 hp'] at hx
          by_cases he : c = k
          · exact he
          · simp [contents, contentsFrom, Op.apply, he] at hx
      obtain ⟨x, hx⟩ := Option.ne_none_iff_exists'.1 hb
      rw [hone _ _ ha, hone _ _ hx]
    · rw [hst]
      exact ⟨fun a ha b hb _ => by
        simp only [Store.empty, List.mem_singleton] at ha hb
        rw [ha, hb], fun a ha => (nomatch ha)⟩
  have hc : contents [.update k v] k = some v := by simp [contents, contentsFrom, Op.apply]
  refine ⟨by rw [MPT.len, hst]; rfl, C02_get hv hc, ?_⟩
  rw [C01_contains_partial hv (.inr (.inl (by rw [hc]; rfl))), hc]
  rfl

/-- The nodes of a trie, found by following references. -/
theorem counted_of {E : Env} {t : MPT} {root : Bytes} (hr : t.root = some root)
    (h : (decide (∀ e ∈ t.store.kv, e.1.length = 32) && decide (marks t).Nodup && decide (root ∈ marks t) &&
      decide (∀ r ∈ marks t, ∀ r' ∈ oneStep t.store.kv r, r' ∈ marks t)) = true) :
    Counted E t ((marks t).filter fun r => r ≠ [] ∧ r ≠ emptyHash E) := by
  simp only [Bool.and_eq_true, decide_eq_true_eq] at h
  obtain ⟨⟨⟨h1, h2⟩, h3⟩, h4⟩ := h
  refine ⟨h2.sublist List.filter_sublist, fun r => ?_⟩
  rw [List.mem_filter, decide_eq_true_eq]
  constructor
  · exact fun ⟨ha, hb, hc⟩ => ⟨hb, hc, root, hr, marks_reach hr h1 ha⟩
  · rintro ⟨hb, hc, root', hr', hx⟩
    rw [hr] at hr'
    injection hr' with e
    subst e
    exact ⟨reaches_closed h3 h4 hx, hb, hc⟩

/-- C132 is false: after a value was replaced the node that held the old one still counts. -/
theorem C132_false : ¬ C132 := by
  intro h
  have := h toyEnv false [.update [0x12] (bigValue 1), .update [0x12] (bigValue 2)] _ (valid_of (by decide +kernel))
    (counted_of (root := (MPT.after toyEnv false [.update [0x12] (bigValue 1), .update [0x12] (bigValue 2)]).root.getD [])
      (by decide +kernel) (by decide +kernel))
  revert this
  decide +kernel

/-- It is false the other way round too: nodes shorter than 32 bytes are not counted. Here the trie has three nodes and
`len` gives 0. -/
example : ∃ L, Valid realEnv false [.update [0x12] [1], .update [0x34] [2]] [] ∧
    Counted realEnv (MPT.after realEnv false [.update [0x12] [1], .update [0x34] [2]]) L ∧ L.length = 3 ∧
    (MPT.after realEnv false [.update [0x12] [1], .update [0x34] [2]]).len = 0 :=
  ⟨_, valid_of (by decide +kernel),
    counted_of (root := (MPT.after realEnv false [.update [0x12] [1], .update [0x34] [2]]).root.getD [])
      (by decide +kernel) (by decide +kernel), by decide +kernel, by decide +kernel⟩

/-- The hypotheses of the partial theorems are met by a trie that uses only some of the nodes in its dict. -/
example : (∀ op ∈ untidyOps, Fits toyEnv false op.key) ∧ LogOk toyEnv (MPT.after toyEnv false untidyOps).store.written ∧
    (∃ L, Counted toyEnv (MPT.after toyEnv false untidyOps) L ∧
      (L.filter fun r => r.length = 32).length < (MPT.after toyEnv false untidyOps).len ∧
      2 ≤ (L.filter fun r => r.length = 32).length) ∧
    Trimmed (MPT.after toyEnv false untidyOps) (trimmed (MPT.after toyEnv false untidyOps)) :=
  ⟨by decide +kernel, logOk_of (by decide +kernel),
    ⟨_, counted_of (root := (MPT.after toyEnv false untidyOps).root.getD []) (by decide +kernel) (by decide +kernel),
      by decide +kernel, by decide +kernel⟩,
    trimmed_of (by decide +kernel) (by decide +kernel) (by decide +kernel) (by decide +kernel) (by decide +kernel)⟩

/-- The hypotheses of `C132_zero` are met. -/
example : Fits toyEnv false [0x12, 0x34] ∧ [0x12, 0x34].length + [1, 2, 3].length ≤ 27 := ⟨by decide +kernel, by decide⟩

end Pymt.Props
