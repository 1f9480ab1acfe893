import Verif.Lemmas.Exclusion

/-!
# Exclusion proofs with one entry
-/

namespace Pymt
namespace T

/-- What a trie answers to an exclusion proof that is a single leaf with the value `null`. -/
theorem Holds.verifyPoe_one {E : Env} {t : MPT} {b : T} (h : Holds E t b) (hl : LogOk E t.store.written)
    (hne : b ≠ empty) {p : Proof Bytes} (ht : p.type = mptPoe) {r : List Nib}
    (hr : (enc E (leaf r MPT.nullBytes)).length < 2 ^ 64)
    (hp : p.proof = [enc E (leaf r MPT.nullBytes)]) (hlim : 0 < E.limit) :
    t.verifyPoe E p =
      if E.keccak (enc E b) ≠ E.keccak (enc E (leaf r MPT.nullBytes)) then .ok false
      else if 32 ≤ (enc E b).length then .ok true else .error .poe := by
  unfold MPT.verifyPoe
  have hfirst : pyIndex p.proof 0 = .ok (enc E (leaf r MPT.nullBytes)) := by rw [hp]; rfl
  have hlast : MPT.lastItem p.proof = .ok (enc E (leaf r MPT.nullBytes)) := by rw [hp]; rfl
  have hdrop : p.proof.dropLast = [] := by rw [hp]; rfl
  obtain ⟨n0, hn0, hrep0⟩ := decode_enc (t := leaf r MPT.nullBytes) (by simp) hr
  have hd0 : MPT.nodeData n0 = .ok MPT.nullBytes := by
    cases n0 <;> simp only [Rep] at hrep0
    simp [MPT.nodeData, hrep0.2.2]
  rw [h.noRoot hl, Holds.isEmpty_false hne, h.getD hne, if_neg (by simp [ht]), hfirst, hlast, hdrop, h.rootHash]
  simp only [Bool.false_eq_true, if_false, Except.bind_ok']
  by_cases hroot : E.keccak (enc E b) = E.keccak (enc E (leaf r MPT.nullBytes))
  · have c : ¬ (E.keccak (enc E b) ≠ E.keccak (enc E (leaf r MPT.nullBytes))) := fun h => h hroot
    rw [if_neg c, if_neg c]
    simp only [hn0, hd0, Except.bind_ok', ne_eq, not_true, if_false, MPT.proofStorage]
    obtain ⟨f, hf⟩ : ∃ f, E.limit = f + 1 := ⟨E.limit - 1, by omega⟩
    rw [hf]
    unfold MPT.verifyPoeAux
    by_cases h32 : 32 ≤ (enc E b).length
    · have hlen : (ref E b).length = 32 := by
        rw [ref_of_ne hne, if_neg (by omega), E.keccak_len]
      rw [if_pos h32, if_pos ⟨hlen, rfl⟩]
      rfl
    · have hlen : (ref E b).length ≠ 32 := by
        rw [ref_of_ne hne, if_pos (by omega)]; omega
      have hraw : MPT.rawOf [] (ref E b) = .ok (enc E b) := by
        unfold MPT.rawOf
        rw [if_neg hlen, ref_of_ne hne, if_pos (by omega)]
      obtain ⟨n, g1, _⟩ := decode_enc hne (enc_len h.stored)
      rw [if_neg h32, if_neg (fun e => hlen e.1), hraw]
      simp only [Except.bind_ok', g1]
      rfl
  · rw [if_pos hroot, if_pos hroot]
    rfl

end T

/-- The trie of a history with a single entry is a leaf, and conversely. -/
theorem leaf_iff {E : Env} {secure : Bool} {ops : List Op} {ks : List Bytes} (h : Valid E secure ops ks)
    {a : T} (hcan : a.Canon) (h3 : ∀ k, a.lookup (toNibs k) = eff E secure ops k)
    (h4 : ∀ q v, a.lookup q = some v → ∃ k, q = toNibs k) {e v : Bytes} :
    a = .leaf (toNibs e) v ↔ eff E secure ops e = some v ∧ ∀ e', Present E secure ops e' → e' = e := by
  constructor
  · rintro rfl
    have hl := h3 e
    simp only [T.lookup, if_true] at hl
    refine ⟨hl.symm, fun e' hp => ?_⟩
    have := (eff_present h).2 hp
    rw [← h3] at this
    simp only [T.lookup] at this
    split at this
    · rename_i g; exact (toNibs_inj g).symm
    · exact absurd rfl this
  · rintro ⟨h1, h2⟩
    have hla : T.lookup a (toNibs e) = some v := by rw [h3, h1]
    have hne : a ≠ .empty := by rintro rfl; simp [T.lookup] at hla
    have : ∃ q w, a = .leaf q w := by
      apply Classical.byContradiction
      intro hn
      obtain ⟨q, w, g1, g2⟩ := hcan.two_keys' hne (fun q w e => hn ⟨q, w, e⟩) (toNibs e)
      obtain ⟨e', rfl⟩ := h4 _ _ g1
      have hpe : Present E secure ops e' := (eff_present h).1 (by rw [← h3, g1]; simp)
      rw [h2 e' hpe] at g2
      exact g2 rfl
    obtain ⟨q, w, rfl⟩ := this
    simp only [T.lookup] at hla
    split at hla
    · rename_i g; simp only [Option.some.injEq] at hla; rw [g, hla]
    · simp at hla

end Pymt
