import Verif.Spec.Size
import Verif.Lemmas.Size
import Verif.Props.Bytes
import Verif.Props.Collect

/-!
# How much room a trie takes (C130)
-/

namespace Pymt.Props

/-- **C130** Once the nodes that are no longer in use are removed, the dict of a trie with `N` keys has at most
`3 N - 2` entries, whatever the calls that led there; and if keys have at most `n` bytes and values at most `B`, these
entries have at most `n + B + 546` bytes each. -/
theorem C130 {E : Env} {secure : Bool} {ops : List Op} (h : Valid E secure ops []) {t' : MPT}
    (hs : Trimmed (MPT.after E secure ops) t') :
    t'.store.kv.length ≤ 3 * (pairs ops).length - 2 ∧
    ∀ n B, (∀ j v, contents ops j = some v → (effective E secure j).length ≤ n ∧ v.length ≤ B) →
      (∀ k v, dget t'.store.kv k = some v → v.length ≤ n + B + 546) ∧
      (t'.store.kv.map fun e => e.2.length).sum ≤ (3 * (pairs ops).length - 2) * (n + B + 546) := by
  obtain ⟨a, h1, h2, h3, h4⟩ := h.inv
  have hg : GS E (MPT.after E secure ops).store.written (MPT.after E secure ops).store := after_gs ops fun w hw => hw
  have part : ∀ k v, dget t'.store.kv k = some v → a ≠ .empty ∧ ∃ y p, y ≠ .empty ∧ T.Part a p y ∧
      k = E.keccak (T.enc E y) ∧ v = T.enc E y ∧ (T.enc E y).length < 2 ^ 64 := by
    intro k v hv
    obtain ⟨root, hr, hk⟩ := hs.used k v hv
    obtain ⟨h5, y, p, h6, h7, h8, h9, h10, _⟩ := h1.reached h.log hg hr hk (hs.less.less k v hv)
    exact ⟨h5, y, p, h6, h7, h8, h9, h10⟩
  have mem : ∀ e ∈ t'.store.kv, dget t'.store.kv e.1 = some e.2 := fun e he => dget_mem hs.dict he
  have hkeys : (T.keysOf a).length ≤ (pairs ops).length := by
    rw [← List.length_map (as := pairs ops) (f := fun e => toNibs (effective E secure e.1))]
    refine nodup_length_le (T.keysOf_nodup a) fun p hp => ?_
    obtain ⟨v, hv⟩ := T.keysOf_lookup hp
    obtain ⟨x, rfl⟩ := h4 p v hv
    rw [h3] at hv
    obtain ⟨j, hj, rfl⟩ := eff_some_mem hv
    rw [eff_eq h.keys (List.mem_append_right _ hj)] at hv
    exact List.mem_map.2 ⟨(j, v), mem_pairs.2 hv, rfl⟩
  have hcount : t'.store.kv.length ≤ 3 * (pairs ops).length - 2 := by
    cases hkv : t'.store.kv with
    | nil => exact Nat.zero_le _
    | cons e l =>
      rw [← hkv]
      have hne := (part e.1 e.2 (mem e (by rw [hkv]; exact List.mem_cons_self))).1
      have hb := h2.parts hne
      have hle : t'.store.kv.length ≤ (T.partsOf a).length := by
        rw [← List.length_map (as := t'.store.kv) (f := (·.1)),
          ← List.length_map (as := T.partsOf a) (f := fun y => E.keccak (T.enc E y))]
        refine nodup_length_le hs.dict fun k hk => ?_
        obtain ⟨e, he, rfl⟩ := List.mem_map.1 hk
        obtain ⟨_, y, p, hy, hp, e1, _⟩ := part e.1 e.2 (mem e he)
        exact List.mem_map.2 ⟨y, hp.mem hy, e1.symm⟩
      have : (if a.isBranch then 3 else 2) ≥ 2 := by split <;> omega
      omega
  refine ⟨hcount, fun n B hb => ?_⟩
  have hsize : ∀ k v, dget t'.store.kv k = some v → v.length ≤ n + B + 546 := by
    intro k v hv
    obtain ⟨_, y, p, hy, hp, _, e2, e3⟩ := part k v hv
    have := (hp.within (within h h2 h3 h4 hb)).enc (E := E) e3
    rw [e2]
    omega
  exact ⟨hsize, Nat.le_trans (T.sum_le_mul _ _ fun e he => hsize e.1 e.2 (mem e he)) (Nat.mul_le_mul_right _ hcount)⟩

/-- The trie without what it does not use, given the marks of a collector. -/
def trimmed (t : MPT) : MPT :=
  { t with store := { t.store with kv := t.store.kv.filter fun e => (marks t).contains e.1 } }

/-- Whatever is marked can be reached. -/
theorem marks_reach {t : MPT} {root : Bytes} (hr : t.root = some root) (h32 : ∀ e ∈ t.store.kv, e.1.length = 32)
    {k : Bytes} (hk : k ∈ marks t) : Reaches t.store.kv root k := by
  have step : ∀ r r', Reaches t.store.kv root r → r' ∈ oneStep t.store.kv r → Reaches t.store.kv root r' := by
    intro r r' h hm
    have says : ∀ w, (r' ∈ match Node.decode w with | .ok n => n.refs | .error _ => []) → Mentions w r' := by
      intro w hm
      cases hn : Node.decode w with
      | error e => rw [hn] at hm; simp at hm
      | ok n =>
        rw [hn] at hm
        cases n with
        | leaf => simp [Node.refs] at hm
        | ext p r => simp only [Node.refs, List.mem_singleton] at hm; subst hm; exact .ext hn
        | branch => exact .branch hn hm
    rw [oneStep] at hm
    split at hm
    · rename_i hl
      exact .inline h hl (says _ hm)
    · cases hw : dget t.store.kv r with
      | none => rw [hw] at hm; simp at hm
      | some w =>
        rw [hw] at hm
        exact .hash h (h32 _ (mem_of_dget hw)) hw (says _ hm)
  have grow : ∀ K : List Bytes, (∀ k ∈ K, Reaches t.store.kv root k) →
      ∀ k ∈ (K ++ K.flatMap (oneStep t.store.kv)).eraseDups, Reaches t.store.kv root k := by
    intro K hK k hk
    rw [List.mem_eraseDups, List.mem_append, List.mem_flatMap] at hk
    rcases hk with hk | ⟨r, h1, h2⟩
    · exact hK k hk
    · exact step r k (hK r h1) h2
  refine grow _ (grow _ (grow _ (grow _ (grow _ ?_)))) k hk
  intro k hk
  rw [hr] at hk
  simp only [Option.getD_some, List.mem_singleton] at hk
  subst hk
  exact .root

theorem trimmed_of {t : MPT} (h0 : ∀ root, t.root = some root → root ∈ marks t)
    (hK : ∀ r ∈ marks t, ∀ r' ∈ oneStep t.store.kv r, r' ∈ marks t) (hs : t.root.isSome = true)
    (h32 : ∀ e ∈ t.store.kv, e.1.length = 32) (hd : (t.store.kv.map (·.1)).Nodup) : Trimmed t (trimmed t) where
  less := collected_of h0 hK
  dict := (List.Sublist.map _ List.filter_sublist).nodup hd
  used := fun k v hk => by
    obtain ⟨root, hr⟩ := Option.isSome_iff_exists.1 hs
    refine ⟨root, hr, marks_reach hr h32 ?_⟩
    have := (collected_of h0 hK).less k v hk
    simp only [trimmed, dget_filter] at hk
    split at hk
    · assumption
    · simp at hk

/-- Two keys, one of them with a value that was replaced. -/
def roomOps : List Op := [.update [0x12] (bigValue 1), .update [0x13] (bigValue 2), .update [0x12] (bigValue 3)]

/-- The hypotheses of C130 are met by a trie with two keys, where half of the dict is not used, and where the bound is
exact. -/
example : Valid toyEnv false roomOps [] ∧ Trimmed (MPT.after toyEnv false roomOps) (trimmed (MPT.after toyEnv false roomOps)) ∧
    (∀ j v, contents roomOps j = some v → (effective toyEnv false j).length ≤ 1 ∧ v.length ≤ 40) ∧
    (MPT.after toyEnv false roomOps).store.kv.length = 8 ∧
    (trimmed (MPT.after toyEnv false roomOps)).store.kv.length = 4 ∧ 3 * (pairs roomOps).length - 2 = 4 :=
  ⟨valid_of (by decide +kernel),
   trimmed_of (by decide +kernel) (by decide +kernel) (by decide +kernel) (by decide +kernel) (by decide +kernel),
   fun j v hj => by
    have hm : (j, v) ∈ pairs roomOps := mem_pairs.2 hj
    have : ∀ e ∈ pairs roomOps, (effective toyEnv false e.1).length ≤ 1 ∧ e.2.length ≤ 40 := by decide +kernel
    exact this _ hm,
   by decide +kernel, by decide +kernel, by decide +kernel⟩

/-- Why C130 speaks of valid histories: after an empty value was written at a key that is the start of another one, the
key cannot be deleted any more (C25), and three nodes are in use for the one key that should be left. -/
theorem C130_empties :
    let ops : List Op := [.update [1] (bigValue 1), .update [1, 2] (bigValue 2), .update [1] [], .delete [1]]
    Trimmed (MPT.after toyEnv false ops) (trimmed (MPT.after toyEnv false ops)) ∧
    (trimmed (MPT.after toyEnv false ops)).store.kv.length = 3 ∧ (pairs ops).length = 1 :=
  ⟨trimmed_of (by decide +kernel) (by decide +kernel) (by decide +kernel) (by decide +kernel) (by decide +kernel),
   by decide +kernel, by decide +kernel⟩

/-- Without removals there is no such bound: the dict keeps a node for every value a single key ever had. -/
theorem C130_grows {E : Env} {secure : Bool} {k : Bytes} {vs : List Bytes} (hf : Fits E secure k) (hd : vs.Nodup)
    (hv : ∀ v ∈ vs, 32 ≤ v.length)
    (hl : LogOk E (MPT.after E secure (vs.map fun v => .update k v)).store.written) :
    vs.length ≤ (MPT.after E secure (vs.map fun v => .update k v)).store.kv.length ∧
    (pairs (vs.map fun v => .update k v)).length ≤ 1 := by
  let leaf := fun v => T.leaf (toNibs (effective E secure k)) v
  have grow : ∀ (l : List Bytes) (v : Bytes) (a : T), a = .empty ∨ (∃ w, a = leaf w) →
      T.grow a ((l ++ [v]).map fun v => .update (effective E secure k) v) = leaf v := by
    intro l
    induction l with
    | nil =>
      rintro v a (rfl | ⟨w, rfl⟩)
      · rfl
      · simp [T.grow, T.act, T.insert, leaf]
    | cons x l ih =>
      rintro v a (rfl | ⟨w, rfl⟩)
      · exact ih v (leaf x) (.inr ⟨x, rfl⟩)
      · have := ih v (leaf x) (.inr ⟨x, rfl⟩)
        rw [← this]
        simp [T.grow, T.act, T.insert, leaf]
  have here : ∀ v ∈ vs, dget (MPT.after E secure (vs.map fun v => .update k v)).store.kv
      (E.keccak (T.enc E (leaf v))) = some (T.enc E (leaf v)) ∧ (T.enc E (leaf v)).length < 2 ^ 64 := by
    intro v hm
    obtain ⟨s, t, rfl⟩ := List.append_of_mem hm
    have e : ((s ++ v :: t).map fun v => (Op.update k v)) =
        ((s ++ [v]).map fun v => .update k v) ++ t.map fun v => .update k v := by simp
    rw [e] at hl ⊢
    have hl' : LogOk E (MPT.after E secure ((s ++ [v]).map fun v => .update k v)).store.written := by
      rw [after_append] at hl
      exact log_of_replay (run_writes E _ _) hl
    have hb := Bears.after (E := E) (secure := secure) (ops := (s ++ [v]).map fun v => .update k v) (by
      intro op ho
      obtain ⟨w, _, rfl⟩ := List.mem_map.1 ho
      exact hf) hl'
    have hg := grow s v .empty (.inl rfl)
    rw [List.map_map] at hb
    rw [show (Op.mapKey (effective E secure) ∘ fun v => Op.update k v) = fun v => .update (effective E secure k) v from rfl,
      hg] at hb
    have hlen : 32 ≤ (T.enc E (leaf v)).length := by
      have h1 := T.list_ge (l := [.str (hp true (toNibs (effective E secure k))), .str v]) (x := .str v) (by simp)
      have h2 := encStr_length_ge v
      have := hv v hm
      simp only [Item.encode] at h1 h2
      simp only [T.enc, T.item, leaf, Item.encode]
      omega
    rcases hb.holds.stored.here (by simp [leaf]) with h | h
    · omega
    · exact ⟨(C13_append_only h.1).2.2 (hl.coll.mono fun _ hx => List.mem_cons_of_mem _ hx), h.2⟩
  constructor
  · rw [← List.length_map (as := vs) (f := fun v => E.keccak (T.enc E (leaf v))),
      ← List.length_map (as := (MPT.after E secure (vs.map fun v => .update k v)).store.kv) (f := (·.1))]
    refine nodup_length_le ?_ fun x hx => ?_
    · rw [List.nodup_iff_pairwise_ne, List.pairwise_map]
      refine List.Pairwise.imp_of_mem ?_ hd
      intro a b ha hb hab e
      apply hab
      have hg : Good E (MPT.after E secure (vs.map fun v => .update k v)).store := by
        rw [after_replay]; exact (Good.empty E).replay _
      have e' := hl.coll _ (List.mem_cons_of_mem _ (hg _ _ (here a ha).1).2) _
        (List.mem_cons_of_mem _ (hg _ _ (here b hb).1).2) e
      obtain ⟨n, d1, d2⟩ := T.decode_enc (E := E) (t := leaf a) (by simp [leaf]) (here a ha).2
      obtain ⟨m, f1, f2⟩ := T.decode_enc (E := E) (t := leaf b) (by simp [leaf]) (here b hb).2
      rw [e', f1] at d1
      injection d1 with d1
      subst d1
      cases m with
      | leaf p d => exact d2.2.2.symm.trans f2.2.2
      | ext => exact d2.elim
      | branch => exact d2.elim
    · obtain ⟨v, hv', rfl⟩ := List.mem_map.1 hx
      exact List.mem_map.2 ⟨_, mem_of_dget (here v hv').1, rfl⟩
  · rw [← List.length_map (as := pairs _) (f := (·.1))]
    refine nodup_length_le (l' := [k]) (nodup_pairs _) fun x hx => ?_
    obtain ⟨⟨x, v⟩, hm, rfl⟩ := List.mem_map.1 hx
    have := contents_some_mem (mem_pairs.1 hm)
    rw [List.map_map] at this
    obtain ⟨_, _, rfl⟩ := List.mem_map.1 this
    exact List.mem_singleton.2 rfl

/-- The hypotheses of `C130_grows` are met by four values for one key. -/
example : Fits toyEnv false [0x12] ∧ ((List.range 4).map fun i => bigValue i.toUInt8).Nodup ∧
    (∀ v ∈ (List.range 4).map fun i => bigValue i.toUInt8, 32 ≤ v.length) ∧
    LogOk toyEnv (MPT.after toyEnv false
      (((List.range 4).map fun i => bigValue i.toUInt8).map fun v => .update [0x12] v)).store.written :=
  ⟨by decide +kernel, by decide +kernel, by decide +kernel, logOk_of (by decide +kernel)⟩

end Pymt.Props
