import Verif.Lemmas.OneEntry
import Verif.Props.Proofs

/-!
# Properties C22, C50: exactly which exclusion proofs with one entry are accepted
-/

namespace Pymt
namespace Props

/-- After the history the trie has the entry `e ↦ v` (`e` a path) and no other. -/
def OnlyEntry (E : Env) (secure : Bool) (ops : List Op) (e v : Bytes) : Prop :=
  (∃ k, effective E secure k = e ∧ contents ops k = some v) ∧ ∀ e', Present E secure ops e' → e' = e

theorem onlyEntry_iff {E : Env} {secure : Bool} {ops : List Op} {ks : List Bytes} {e v : Bytes}
    (h : Valid E secure ops ks) :
    OnlyEntry E secure ops e v ↔ eff E secure ops e = some v ∧ ∀ e', Present E secure ops e' → e' = e := by
  refine and_congr_left fun _ => ⟨?_, fun he => ?_⟩
  · rintro ⟨k, rfl, hk⟩
    rw [eff_eq h.keys (List.mem_append_right _ (contents_some_mem hk)), hk]
  · obtain ⟨k, hk, rfl⟩ := eff_some_mem he
    rw [eff_eq h.keys (List.mem_append_right _ hk)] at he
    exact ⟨k, rfl, he⟩

/-! ### C50 -/

/-- C50 in part, exactly, for proofs with one entry: checked by another trie such a proof is rejected, unless
that trie has exactly one entry, namely the path of the absent key with the value `null`; then it is accepted
if the leaf has 32 bytes or more, and PoeError otherwise.  An empty trie raises ValueError. -/
theorem C50_one_partial {E : Env} {secure : Bool} {ops ops' : List Op} {k now : Bytes} {p : Proof Bytes}
    (h : Valid E secure ops [k]) (h' : Valid E secure ops' [])
    (hlen : (effective E secure k).length < 2 ^ 60)
    (hcoll : CollFree E (leafBytes (effective E secure k) MPT.nullBytes ::
      hashed (MPT.after E secure ops')))
    (hp : (MPT.after E secure ops).getPoe E now k = .ok p) (hone : p.proof.length = 1) :
    ((∀ k', contents ops' k' = none) → (MPT.after E secure ops').verifyPoe E p = .error .valueError) ∧
    ((∃ k', contents ops' k' ≠ none) → ¬ OnlyEntry E secure ops' (effective E secure k) MPT.nullBytes →
      (MPT.after E secure ops').verifyPoe E p = .ok false) ∧
    (OnlyEntry E secure ops' (effective E secure k) MPT.nullBytes →
      (MPT.after E secure ops').verifyPoe E p =
        if 32 ≤ (leafBytes (effective E secure k) MPT.nullBytes).length then .ok true else .error .poe) := by
  have hkey : (MPT.after E secure ops).keyOf E k = effective E secure k := by
    rw [keyOf_eq, after_secure]; rfl
  obtain ⟨a, h1, h2, h3, h4⟩ := h.inv
  obtain ⟨b, g1, g2, g3, g4⟩ := h'.inv
  have hex := nonempty_iff h' g2 g3 g4
  have hne : a ≠ .empty := by
    rintro rfl
    rw [h1.getPoe_empty h.log] at hp
    simp at hp
  have hf := fits_nibs (h.fit (k := k) (by simp))
  rw [h1.getPoe h.log hne hf] at hp
  split at hp
  · simp at hp
  simp only [Except.ok.injEq] at hp
  subst hp
  simp only [hkey] at hone ⊢ hf
  -- the only entry is the leaf with the whole path
  have hsh : T.shown a (toNibs (effective E secure k)) = [] := by
    simpa [List.length_append] using hone
  have hpa : T.passed a (toNibs (effective E secure k)) = [] := by
    unfold T.shown at hsh
    split at hsh
    · exact hsh
    · simp [T.trail] at hsh
  have hseek := T.seek_of_passed_nil hpa
  simp only [hsh, hseek, List.map_nil, List.nil_append]
  have hnl : (T.enc E (.leaf (toNibs (effective E secure k)) MPT.nullBytes)).length < 2 ^ 64 :=
    T.null_len E (by rw [toNibs_length]; omega)
  have hlb : leafBytes (effective E secure k) MPT.nullBytes =
    T.enc E (.leaf (toNibs (effective E secure k)) MPT.nullBytes) := rfl
  rw [hlb] at hcoll ⊢
  rw [onlyEntry_iff h', ← leaf_iff h' g2 g3 g4]
  refine ⟨?_, ?_, ?_⟩
  · intro he
    have : b = .empty := by
      apply Classical.byContradiction
      intro hb
      obtain ⟨k, hk⟩ := hex.2 hb
      exact hk (he k)
    subst this
    unfold MPT.verifyPoe
    rw [if_neg (by simp), g1.noRoot h'.log]
    rfl
  · intro he hno
    have hbne := hex.1 he
    rw [g1.verifyPoe_one h'.log hbne rfl hnl rfl (by omega), if_pos]
    intro hk
    apply hno
    have hmem : T.enc E b ∈ hashed (MPT.after E secure ops') := by
      rw [hashed, List.mem_append]
      rcases g1.enc_mem hbne with ⟨h1, h2⟩ | h1
      · right
        have : T.enc E b ≠ [] := Item.encode_ne_nil _
        simp [h2, h1, this]
      · exact .inl h1
    have heq := hcoll _ (List.mem_cons_of_mem _ hmem) _ List.mem_cons_self hk
    refine T.enc_inj (E := E) (log := T.enc E (.leaf (toNibs (effective E secure k)) MPT.nullBytes) ::
      (MPT.after E secure ops').store.written) (hcoll.mono ?_) ?_
      ((g1.stored.logged g1.good).mono fun x hx => List.mem_cons_of_mem _ hx)
      (.inr List.mem_cons_self) (T.enc_len g1.stored) heq
    · intro x hx
      rcases List.mem_cons.1 hx with rfl | hx
      · exact List.mem_cons_self
      · exact List.mem_cons_of_mem _ (List.mem_append_left _ hx)
    · intro x hx
      rcases List.mem_cons.1 hx with rfl | hx
      · exact hnl
      · exact h'.log.size x hx
  · rintro rfl
    rw [g1.verifyPoe_one h'.log (by simp) rfl hnl rfl (by omega), if_neg (fun h => h rfl)]

/-- The trie with the two keys `1234` and `1256` makes a proof with one entry for an absent key. -/
def extOps : List Op := [.update [0x12, 0x34] [1], .update [0x12, 0x56] [2]]

/-- A long key whose only value is `null`: such a proof is accepted. -/
example : ∃ p, (MPT.after toyEnv false extOps).getPoe toyEnv [] longKey = .ok p ∧ p.proof.length = 1 ∧
    Valid toyEnv false extOps [longKey] ∧ Valid toyEnv false [.update longKey MPT.nullBytes] [] ∧
    (effective toyEnv false longKey).length < 2 ^ 60 ∧
    CollFree toyEnv (leafBytes (effective toyEnv false longKey) MPT.nullBytes ::
      hashed (MPT.after toyEnv false [.update longKey MPT.nullBytes])) ∧
    OnlyEntry toyEnv false [.update longKey MPT.nullBytes] (effective toyEnv false longKey) MPT.nullBytes ∧
    32 ≤ (leafBytes (effective toyEnv false longKey) MPT.nullBytes).length := by
  obtain ⟨p, hp, hq⟩ := ok_of (m := (MPT.after toyEnv false extOps).getPoe toyEnv [] longKey)
    (f := fun p => decide (p.proof.length = 1)) (by decide +kernel)
  refine ⟨p, hp, by simpa using hq, valid_of (by decide +kernel), valid_of (by decide +kernel), by decide +kernel,
    collFree_of (by decide +kernel), ⟨⟨longKey, rfl, by decide +kernel⟩, ?_⟩, by decide +kernel⟩
  rintro e ⟨k, h1, h2⟩
  have h2 : e = k := h2
  rw [h2]
  simp only [contents, contentsFrom, List.foldl_cons, List.foldl_nil, Op.apply] at h1
  split at h1
  · assumption
  · simp at h1

/-- A trie with other keys: such a proof is rejected. -/
example : ∃ p, (MPT.after toyEnv false extOps).getPoe toyEnv [] [0x99] = .ok p ∧ p.proof.length = 1 ∧
    Valid toyEnv false extOps [[0x99]] ∧ Valid toyEnv false sampleOps [] ∧
    (effective toyEnv false [0x99]).length < 2 ^ 60 ∧
    CollFree toyEnv (leafBytes (effective toyEnv false [0x99]) MPT.nullBytes ::
      hashed (MPT.after toyEnv false sampleOps)) ∧
    (∃ k', contents sampleOps k' ≠ none) ∧
    ¬ OnlyEntry toyEnv false sampleOps (effective toyEnv false [0x99]) MPT.nullBytes := by
  obtain ⟨p, hp, hq⟩ := ok_of (m := (MPT.after toyEnv false extOps).getPoe toyEnv [] [0x99])
    (f := fun p => decide (p.proof.length = 1)) (by decide +kernel)
  refine ⟨p, hp, by simpa using hq, valid_of (by decide +kernel), valid_of (by decide +kernel), by decide +kernel,
    collFree_of (by decide +kernel), ⟨[0x12], by decide +kernel⟩, fun h => ?_⟩
  have := h.2 [0x12] ⟨[0x12], by decide +kernel, rfl⟩
  revert this
  decide

/-! ### C22 -/

/-- C22 fails for a single entry with the value `null`, too, when its leaf has 32 bytes or more: the inclusion
proof of the key, relabelled, is accepted as an exclusion proof. -/
theorem C22_null {E : Env} {secure : Bool} {ops : List Op} {k : Bytes} (now : Bytes)
    (h : Valid E secure ops [k]) (hlen : (effective E secure k).length < 2 ^ 60)
    (hone : OnlyEntry E secure ops (effective E secure k) MPT.nullBytes)
    (h32 : 32 ≤ (leafBytes (effective E secure k) MPT.nullBytes).length) :
    ∃ p, (MPT.after E secure ops).getPoi E now k = .ok p ∧
      (MPT.after E secure ops).verifyPoe E { p with type := mptPoe } = .ok true := by
  have hkey : (MPT.after E secure ops).keyOf E k = effective E secure k := by
    rw [keyOf_eq, after_secure]; rfl
  have hf := fits_nibs (h.fit (k := k) (by simp))
  obtain ⟨a, h1, h2, h3, h4⟩ := h.inv
  have ha := (leaf_iff h h2 h3 h4).2 ((onlyEntry_iff h).1 hone)
  subst ha
  have hnl : (T.enc E (.leaf (toNibs (effective E secure k)) MPT.nullBytes)).length < 2 ^ 64 :=
    T.null_len E (by rw [toNibs_length]; omega)
  have hfp : T.foundP (.leaf (toNibs (effective E secure k)) MPT.nullBytes) (toNibs (effective E secure k)) =
      .ok (.leaf (toNibs (effective E secure k)) MPT.nullBytes) := by
    cases toNibs (effective E secure k) <;> simp [T.foundP]
  have hpoi := h1.getPoi h.log (by simp) (now := now) hf
  rw [hkey] at hpoi
  simp only [T.seek, hfp] at hpoi
  refine ⟨_, hpoi, ?_⟩
  rw [h1.verifyPoe_one h.log (by simp) rfl hnl rfl (by omega), if_neg (fun h => h rfl)]
  exact if_pos h32

example : Valid toyEnv false [.update longKey MPT.nullBytes] [longKey] ∧
    (effective toyEnv false longKey).length < 2 ^ 60 ∧
    OnlyEntry toyEnv false [.update longKey MPT.nullBytes] (effective toyEnv false longKey) MPT.nullBytes ∧
    32 ≤ (leafBytes (effective toyEnv false longKey) MPT.nullBytes).length := by
  refine ⟨valid_of (by decide +kernel), by decide +kernel, ⟨⟨longKey, rfl, by decide +kernel⟩, ?_⟩,
    by decide +kernel⟩
  rintro e ⟨k, h1, h2⟩
  have h2 : e = k := h2
  rw [h2]
  simp only [contents, contentsFrom, List.foldl_cons, List.foldl_nil, Op.apply] at h1
  split at h1
  · assumption
  · simp at h1

/-- C22 exactly: for which present keys some proof of exclusion is accepted.  For all of them as soon as there are
two keys; for the only one just if its value is `null` and its leaf has 32 bytes or more. -/
theorem C22_exact {E : Env} {secure : Bool} {ops : List Op} {k now : Bytes} {p₀ : Proof Bytes}
    (h : Valid E secure ops [k]) (hk : contents ops k ≠ none)
    (hlen : (effective E secure k).length < 2 ^ 60)
    (hp₀ : (MPT.after E secure ops).getPoi E now k = .ok p₀)
    (hcoll : CollFree E (nullLeaf :: (hashed (MPT.after E secure ops) ++ checked p₀))) :
    (∃ p : Proof Bytes, p.targetKey = effective E secure k ∧
      CollFree E (hashed (MPT.after E secure ops) ++ checked p) ∧
      (MPT.after E secure ops).verifyPoe E p = .ok true) ↔
    (∃ k', effective E secure k' ≠ effective E secure k ∧ contents ops k' ≠ none) ∨
    (contents ops k = some MPT.nullBytes ∧ 32 ≤ (leafBytes (effective E secure k) MPT.nullBytes).length) := by
  have hkey : (MPT.after E secure ops).keyOf E k = effective E secure k := by
    rw [keyOf_eq, after_secure]; rfl
  have ht₀ : p₀.targetKey = effective E secure k := by
    obtain ⟨a, h1, h2, h3, h4⟩ := h.inv
    have hne : a ≠ .empty := by
      rintro rfl
      rw [h1.getPoi_empty h.log] at hp₀
      simp at hp₀
    rw [h1.getPoi h.log hne (fits_nibs (h.fit (k := k) (by simp)))] at hp₀
    split at hp₀
    · simp at hp₀
    · simp only [Except.ok.injEq] at hp₀
      rw [← hp₀, hkey]
  constructor
  · rintro ⟨p, ht, hc, hv⟩
    apply Classical.byContradiction
    intro hn
    rw [not_or] at hn
    cases hm : contents ops k with
    | none => exact hk hm
    | some v =>
      refine C22_single_partial h hc hm ?_ ?_ hv ⟨k, hk, ht⟩
      · rintro e ⟨k', g1, rfl⟩
        apply Classical.byContradiction
        intro hne
        exact hn.1 ⟨k', hne, g1⟩
      · rintro rfl
        exact Nat.lt_of_not_le fun g => hn.2 ⟨hm, g⟩
  · intro hc
    by_cases htwo : ∃ k', effective E secure k' ≠ effective E secure k ∧ contents ops k' ≠ none
    · obtain ⟨p, hp, hv⟩ := C22_forgery (now := now) h hk htwo
      rw [hp₀] at hp
      obtain rfl := Except.ok.inj hp
      refine ⟨_, ?_, ?_, hv⟩
      · exact ht₀
      · refine hcoll.mono fun x hx => ?_
        have hrn : reenc nullLeaf = some nullLeaf := by decide
        simp only [checked, List.filterMap_append, List.mem_append, List.mem_cons, List.filterMap_cons,
          List.filterMap_nil, hrn, List.not_mem_nil, or_false] at hx ⊢
        rcases hx with hx | (hx | hx) | hx | hx
        · exact .inr (.inl hx)
        · exact .inr (.inr (.inl hx))
        · exact .inl hx
        · exact .inr (.inr (.inr hx))
        · exact .inl hx
    · obtain ⟨hm, h32⟩ := hc.resolve_left htwo
      have hone : OnlyEntry E secure ops (effective E secure k) MPT.nullBytes := by
        refine ⟨⟨k, rfl, hm⟩, ?_⟩
        rintro e ⟨k', g1, rfl⟩
        apply Classical.byContradiction
        intro hne
        exact htwo ⟨k', hne, g1⟩
      obtain ⟨p, hp, hv⟩ := C22_null now h hlen hone h32
      rw [hp₀] at hp
      obtain rfl := Except.ok.inj hp
      exact ⟨{ p₀ with type := mptPoe }, ht₀, hcoll.mono fun x hx => List.mem_cons_of_mem _ hx, hv⟩

example : ∃ p₀, (MPT.after toyEnv false sampleOps).getPoi toyEnv [] [0x12] = .ok p₀ ∧
    Valid toyEnv false sampleOps [[0x12]] ∧ contents sampleOps [0x12] ≠ none ∧
    (effective toyEnv false [0x12]).length < 2 ^ 60 ∧
    CollFree toyEnv (nullLeaf :: (hashed (MPT.after toyEnv false sampleOps) ++ checked p₀)) := by
  obtain ⟨p, hp, hq⟩ := ok_of (m := (MPT.after toyEnv false sampleOps).getPoi toyEnv [] [0x12])
    (f := fun p => collFreeB toyEnv (nullLeaf :: (hashed (MPT.after toyEnv false sampleOps) ++ checked p)))
    (by decide +kernel)
  exact ⟨p, hp, valid_of (by decide +kernel), by decide +kernel, by decide +kernel, collFree_of (by simpa using hq)⟩

end Props
end Pymt
