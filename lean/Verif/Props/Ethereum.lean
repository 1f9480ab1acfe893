import Verif.Lemmas.YellowPaper
import Verif.Lemmas.Same
import Verif.Lemmas.Pairs
import Verif.Spec.Toy

/-!
# Property C17: the root hash is that of the Ethereum Yellow Paper
-/

namespace Pymt
namespace Props

/-- C17: for every list that has exactly the pairs present, `root_hash()` is `TRIE` of that list; in
secure mode the keys are hashed. -/
theorem C17_yellow_paper {E : Env} {secure : Bool} {ops : List Op} (h : Valid E secure ops [])
    {I : List (Bytes × Bytes)} (hn : (I.map (·.1)).Nodup)
    (hI : ∀ k v, (k, v) ∈ I ↔ contents ops k = some v) :
    (MPT.after E secure ops).rootHash E =
      YP.TRIE E (I.map fun e => (if secure then E.keccak e.1 else e.1, e.2)) := by
  obtain ⟨a, h1, h2, h3, h4⟩ := h.inv
  rw [h1.rootHash, YP.TRIE]
  have hmap : (I.map fun e => (if secure then E.keccak e.1 else e.1, e.2)).map
      (fun e => (toNibs e.1, e.2)) = I.map fun e => (toNibs (effective E secure e.1), e.2) := by
    rw [List.map_map]; rfl
  rw [hmap]
  have key : ∀ {k v}, (k, v) ∈ I → k ∈ ops.map Op.key := fun hm => contents_some_mem ((hI _ _).1 hm)
  have hL : YP.Lists (I.map fun e => (toNibs (effective E secure e.1), e.2)) a := by
    constructor
    · intro q v
      rw [List.mem_map]
      constructor
      · rintro ⟨⟨k, w⟩, hm, he⟩
        simp only [Prod.mk.injEq] at he
        obtain ⟨rfl, rfl⟩ := he
        rw [h3, eff_eq h.keys (List.mem_append_right _ (key hm))]
        exact (hI _ _).1 hm
      · intro hq
        obtain ⟨k', rfl⟩ := h4 q v hq
        rw [h3] at hq
        obtain ⟨k0, hk0, rfl⟩ := eff_some_mem hq
        rw [eff_eq h.keys (List.mem_append_right _ hk0)] at hq
        exact ⟨(k0, v), (hI _ _).2 hq, rfl⟩
    · rw [List.map_map]
      rw [List.Nodup, List.pairwise_map] at hn ⊢
      refine hn.imp_of_mem ?_
      rintro ⟨k, v⟩ ⟨k', v'⟩ hm hm' hne he
      apply hne
      have he' : effective E secure k = effective E secure k' := toNibs_inj he
      cases secure with
      | false => exact he'
      | true => exact h.keys rfl k (by simpa using key hm) k' (by simpa using key hm') he'
  rw [YP.c_eq_item E h2 hL]
  rfl

/-- C17 without the choice of a list. -/
theorem C17_pairs {E : Env} {secure : Bool} {ops : List Op} (h : Valid E secure ops []) :
    (MPT.after E secure ops).rootHash E =
      YP.TRIE E ((pairs ops).map fun e => (if secure then E.keccak e.1 else e.1, e.2)) :=
  C17_yellow_paper h (nodup_pairs ops) fun _ _ => mem_pairs

example : Valid toyEnv false sampleOps [] ∧ Valid toyEnv true secureOps [] ∧
    pairs sampleOps = [([0x12], bigValue 2), ([0x99], [5, 5]), ([0x12, 0x34], bigValue 3)] :=
  ⟨valid_of (by decide +kernel), valid_of (by decide +kernel), by decide +kernel⟩

end Props
end Pymt
