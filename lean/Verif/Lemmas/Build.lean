import Verif.Lemmas.Empt

/-!
# Lemmas on `build_trie`, `clear` and `items` of `EMPT`
-/

namespace Pymt

theorem after_refOps_update {E : Env} {secure : Bool} {ops : List EOp} {k : Bytes} {v : Value}
    {ks : List Bytes} (h : EValid E secure (ops ++ [.update k v]) ks) (hs : v.storable = true) :
    MPT.update E k (refOf E k v) (MPT.after E secure (refOps E ops)) =
      (.ok (), MPT.after E secure (refOps E (ops ++ [.update k v]))) := by
  have hv' := (h.valid h.mirror).subset (ks' := []) (by
    intro x hx; simp at hx)
  rw [refOps_append] at hv' ⊢
  have h1 : refOps E [.update k v] = [.update k (refOf E k v)] := by simp [refOps, refOp, hs]
  rw [h1] at hv' ⊢
  have := Props.C05_update_total hv'
  rw [Pymt.after_append]
  exact Prod.ext this rfl

theorem EValid.update_ok {E : Env} {secure : Bool} {ops : List EOp} {k : Bytes} {v : Value}
    {ks : List Bytes} (h : EValid E secure (ops ++ [.update k v]) ks) (hs : v.storable = true) :
    EMPT.update E k v (EMPT.after E secure ops) = (.ok (), EMPT.after E secure (ops ++ [.update k v])) := by
  have h1 := after_refOps_update h hs
  have h2 : EMPT.after E secure (ops ++ [.update k v]) = (EMPT.update E k v (EMPT.after E secure ops)).2 := by
    rw [EMPT.after_append]; rfl
  refine Prod.ext ?_ h2.symm
  rw [EMPT.update_storable hs, h.cut.mirror.trie, h1]

theorem EValid.delete_ok {E : Env} {secure : Bool} {ops : List EOp} {k : Bytes} {v : Value}
    {ks : List Bytes} (h : EValid E secure (ops ++ [.delete k]) ks) (hk : econtents ops k = some v) :
    EMPT.delete E k (EMPT.after E secure ops) = (.ok (), EMPT.after E secure (ops ++ [.delete k])) ∧
    (EMPT.after E secure (ops ++ [.delete k])).data = ddel (EMPT.after E secure ops).data k := by
  have h0 : EValid E secure (ops ++ [.delete k]) [] := ⟨h.fits, by simp, h.sizes, h.log, fun hs =>
    (h.keys hs).mono fun a ha => List.mem_append_right _ (by simpa using ha)⟩
  have hm := h.cut.mirror
  have hm' := h.mirror
  have h1 : refOps E (ops ++ [.delete k]) = refOps E ops ++ [.delete k] := by
    rw [refOps_append]; simp [refOps, refOp]
  have hl := h.log
  rw [hm'.trie, h1, Pymt.after_append] at hl
  have hd := hm.delete_some h0 hl hk
  have hs : EMPT.after E secure (ops ++ [.delete k]) = (EMPT.delete E k (EMPT.after E secure ops)).2 := by
    rw [EMPT.after_append]; rfl
  rw [hs, hd]
  exact ⟨rfl, rfl⟩

/-- The calls that put every entry of a data storage. -/
def putAll (d : Dict Value) : List EOp := d.map fun e => .update e.1 e.2

theorem econtents_putAll {d : Dict Value} (hn : (d.map (·.1)).Nodup) (hs : ∀ e ∈ d, e.2.storable = true) :
    econtents (putAll d) = dget d := by
  have : ∀ (d : Dict Value) (m : EContents), (d.map (·.1)).Nodup → (∀ e ∈ d, e.2.storable = true) → ∀ k,
      (putAll d).foldl EOp.apply m k = (dget d k).or (m k) := by
    intro d
    induction d with
    | nil => intro m _ _ k; simp [putAll, dget]
    | cons e d ih =>
      intro m hn hs k
      obtain ⟨k', v⟩ := e
      rw [List.map_cons, List.nodup_cons] at hn
      have hsv := hs _ List.mem_cons_self
      simp only at hsv
      rw [show putAll ((k', v) :: d) = .update k' v :: putAll d from rfl, List.foldl_cons,
        ih _ hn.2 (fun e he => hs e (List.mem_cons_of_mem _ he))]
      simp only [EOp.apply, hsv, true_and, dget]
      by_cases hk : k = k'
      · subst hk
        rw [dget_of_not_mem hn.1]
        simp
      · rw [if_neg hk, if_neg (Ne.symm hk)]
  funext k
  rw [econtents, this d _ hn hs k]
  simp

/-- The second loop of `build_trie` on byte strings. -/
theorem addRefs_ok {E : Env} {secure : Bool} {data : Dict Value} (rest : Dict Value) :
    ∀ pre : Dict Value, EValid E secure (putAll (pre ++ rest)) [] → (∀ e ∈ rest, ∃ b, e.2 = .bytes b) →
    EMPT.addRefs E rest { trie := MPT.after E secure (refOps E (putAll pre)), data := data } =
      (.ok (), { trie := MPT.after E secure (refOps E (putAll (pre ++ rest))), data := data }) := by
  induction rest with
  | nil => intro pre _ _; simp only [List.append_nil]; rfl
  | cons e rest ih =>
    intro pre h hb
    obtain ⟨k, v⟩ := e
    obtain ⟨b, hv⟩ := hb _ List.mem_cons_self
    simp only at hv
    subst hv
    have h1 : putAll (pre ++ (k, .bytes b) :: rest) = putAll pre ++ [.update k (.bytes b)] ++ putAll rest := by
      simp [putAll]
    have h2 : pre ++ (k, Value.bytes b) :: rest = (pre ++ [(k, .bytes b)]) ++ rest := by simp
    have h3 : putAll (pre ++ [(k, .bytes b)]) = putAll pre ++ [.update k (.bytes b)] := by simp [putAll]
    have hc : EValid E secure (putAll pre ++ [.update k (.bytes b)]) _ := (h1 ▸ h).cut
    have hu := after_refOps_update hc rfl
    have := ih (pre ++ [(k, .bytes b)]) (by rw [← h2]; exact h) (fun e he => hb e (List.mem_cons_of_mem _ he))
    rw [h2, ← this, EMPT.addRefs, h3, M.bind_apply, EMPT.onTrie_apply]
    have hr : DataRef.encode E ⟨k, b⟩ = refOf E k (.bytes b) := rfl
    simp only [hr, hu]

theorem items_data {E : Env} {s : EMPT} (h : ∀ e ∈ s.data, s.get E e.1 = .ok e.2) :
    s.items E = .ok s.data := by
  have : ∀ l : Dict Value, (∀ e ∈ l, s.get E e.1 = .ok e.2) →
      (l.map (·.1)).mapM (fun key => do let v ← s.get E key; return (key, v)) = (.ok l : Py _) := by
    intro l
    induction l with
    | nil => intro _; rfl
    | cons e l ih =>
      intro h
      rw [List.map_cons, List.mapM_cons, h e List.mem_cons_self, ih fun e he => h e (List.mem_cons_of_mem _ he)]
      rfl
  exact this s.data h

end Pymt
