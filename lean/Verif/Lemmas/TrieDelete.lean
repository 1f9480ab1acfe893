import Verif.Lemmas.Trie

/-!
# Deletion on abstract tries
-/

namespace Pymt
namespace T

/-- Result of `MPT._delete` on trees. -/
inductive DelRes where
  | deleted
  | updated (t : T)
  | useless (p : List Nib) (t : T)

/-- The trie after a deletion. -/
def DelRes.tree : DelRes → T
  | .deleted => empty
  | .updated t => t
  | .useless _ t => t

/-- Number of children. -/
def occ (cs : Nib → T) : Nat := (List.finRange 16).countP (fun i => !(cs i).isEmpty)

/-- The first child that is there. -/
def firstChild (cs : Nib → T) : Option Nib := (List.finRange 16).find? (fun i => !(cs i).isEmpty)

/-- `_build_new_node_from_last_branch` on trees. -/
def fromLast (cs : Nib → T) : DelRes :=
  match firstChild cs with
  | none => .deleted
  | some i =>
    match cs i with
    | empty => .deleted
    | leaf p v => .useless (i :: p) (leaf (i :: p) v)
    | ext p c => .useless (i :: p) (ext (i :: p) c)
    | branch ds v => .useless [i] (ext [i] (branch ds v))

/-- `MPT._delete` at a branch that lost its value or a child. -/
def afterDel (cs : Nib → T) (v : Bytes) : DelRes :=
  if occ cs = 0 ∧ v = [] then .deleted
  else if occ cs = 0 ∧ v ≠ [] then .useless [] (leaf [] v)
  else if occ cs = 1 ∧ v = [] then fromLast cs
  else .updated (branch cs v)

/-- An extension whose child was replaced by a useless branch's rest. -/
def mergeExt (q sp : List Nib) : T → T
  | leaf p v => leaf (q ++ p) v
  | ext p c => ext (q ++ p) c
  | branch cs v => ext (q ++ sp) (branch cs v)
  | empty => empty

/-- `MPT._delete` on trees. -/
def remove : T → List Nib → Py DelRes
  | empty, _ => .error .rlpDecoding
  | leaf q _, p => if p = q then .ok .deleted else .error .leafPath
  | ext q c, p =>
    if q <+: p then
      match remove c (p.drop q.length) with
      | .error e => .error e
      | .ok .deleted => .ok .deleted
      | .ok (.updated c') => .ok (.updated (ext q c'))
      | .ok (.useless sp c') => .ok (.updated (mergeExt q sp c'))
    else .error .extensionPath
  | branch cs v, [] => if v = [] then .error .assertion else .ok (afterDel cs [])
  | branch cs v, i :: p =>
    if (cs i).isEmpty then .error .branchPath
    else
      match remove (cs i) p with
      | .error e => .error e
      | .ok .deleted => .ok (afterDel (fset cs i empty) v)
      | .ok (.updated c') => .ok (.updated (branch (fset cs i c') v))
      | .ok (.useless _ c') => .ok (.updated (branch (fset cs i c') v))

/-! ### Counting children -/

theorem occ_zero {cs : Nib → T} : occ cs = 0 ↔ ∀ i, cs i = empty := by
  simp [occ, List.countP_eq_zero, isEmpty_iff, List.mem_finRange]

theorem two_of_countP {l : List Nib} (hn : l.Nodup) {f : Nib → Bool} (h : 2 ≤ l.countP f) (i : Nib) :
    ∃ j, j ≠ i ∧ f j = true := by
  refine Classical.byContradiction fun hc => ?_
  have h1 : l.countP f ≤ l.countP (fun j => j == i) := by
    apply List.countP_mono_left
    intro j _ hj
    simp only [beq_iff_eq]
    exact Classical.byContradiction fun hne => hc ⟨j, hne, hj⟩
  have h2 : l.countP (fun j => j == i) ≤ 1 := List.nodup_iff_count.1 hn i
  omega

theorem occ_two {cs : Nib → T} (h : 2 ≤ occ cs) (i : Nib) : ∃ j, j ≠ i ∧ cs j ≠ empty := by
  obtain ⟨j, h1, h2⟩ := two_of_countP (List.nodup_finRange 16) h i
  exact ⟨j, h1, by simpa [← isEmpty_iff] using h2⟩

theorem occ_pos {cs : Nib → T} (h : occ cs ≠ 0) : ∃ j, cs j ≠ empty := by
  refine Classical.byContradiction fun hc => h (occ_zero.2 fun i => ?_)
  exact Classical.byContradiction fun hne => hc ⟨i, hne⟩

theorem occ_one_unique {cs : Nib → T} (h : occ cs = 1) {i j : Nib} (hi : cs i ≠ empty)
    (hj : cs j ≠ empty) : i = j := by
  refine Classical.byContradiction fun hne => ?_
  -- two different children: the count is at least two
  have key : ∀ l : List Nib, i ∈ l → j ∈ l → 2 ≤ l.countP (fun k => !(cs k).isEmpty) := by
    have one : ∀ (l : List Nib) (m : Nib), cs m ≠ empty → m ∈ l →
        1 ≤ l.countP (fun k => !(cs k).isEmpty) := by
      intro l m hm hml
      exact List.countP_pos_iff.2 ⟨m, hml, by simpa [← isEmpty_iff] using hm⟩
    intro l
    induction l with
    | nil => simp
    | cons a l ih =>
      intro h1 h2
      rw [List.countP_cons]
      rcases List.mem_cons.1 h1 with rfl | h1' <;> rcases List.mem_cons.1 h2 with rfl | h2'
      · exact absurd rfl hne
      · have := one l j hj h2'
        have : (!(cs i).isEmpty) = true := by simpa [← isEmpty_iff] using hi
        simp only [this, if_true]; omega
      · have := one l i hi h1'
        have : (!(cs j).isEmpty) = true := by simpa [← isEmpty_iff] using hj
        simp only [this, if_true]; omega
      · have := ih h1' h2'
        omega
  have := key (List.finRange 16) (List.mem_finRange i) (List.mem_finRange j)
  unfold occ at h
  omega

theorem firstChild_some {cs : Nib → T} (h : occ cs ≠ 0) : ∃ i, firstChild cs = some i ∧ cs i ≠ empty := by
  cases hf : firstChild cs with
  | some i =>
    refine ⟨i, rfl, ?_⟩
    have := List.find?_some hf
    simpa [← isEmpty_iff] using this
  | none =>
    obtain ⟨j, hj⟩ := occ_pos h
    have := List.find?_eq_none.1 hf j (List.mem_finRange j)
    simp [isEmpty_iff] at this
    exact absurd this hj

/-! ### What a deletion does to lookups -/

theorem lookup_empty (q : List Nib) : lookup empty q = none := by simp [lookup]

/-- `useless p t`: `t` is a leaf or extension whose path is `p`. -/
def DelRes.Ok : DelRes → Prop
  | .useless p t => (∃ v, t = leaf p v) ∨ (∃ c, t = ext p c)
  | _ => True

theorem fromLast_spec {cs : Nib → T} (h : occ cs = 1) (hc : ∀ i, (cs i).Canon) :
    (fromLast cs).tree.Canon ∧ (fromLast cs).tree ≠ empty ∧ (fromLast cs).Ok ∧
      (∀ t, fromLast cs ≠ .updated t) ∧
      ∀ q, lookup (fromLast cs).tree q = lookup (branch cs []) q := by
  obtain ⟨i, hf, hi⟩ := firstChild_some (cs := cs) (by omega)
  have other : ∀ j, j ≠ i → cs j = empty := fun j hj =>
    Classical.byContradiction fun hne => hj (occ_one_unique h hne hi)
  have look : ∀ (t : T), (∀ r, lookup t (i :: r) = lookup (cs i) r) → (lookup t [] = none) →
      (∀ j r, j ≠ i → lookup t (j :: r) = none) → ∀ q, lookup t q = lookup (branch cs []) q := by
    intro t h1 h2 h3 q
    rcases q with _ | ⟨j, q⟩
    · rw [h2]; simp [lookup]
    · by_cases hj : j = i
      · subst hj; rw [h1]; simp [lookup]
      · rw [h3 j q hj]; simp [lookup, other j hj]
  have hci := hc i
  unfold fromLast
  rw [hf]
  simp only
  cases hcs : cs i with
  | empty => exact absurd hcs hi
  | leaf p v =>
    rw [hcs] at hci
    refine ⟨hci, by simp [DelRes.tree], .inl ⟨v, rfl⟩, by simp, ?_⟩
    apply look
    · intro r; simp [DelRes.tree, lookup, hcs]
    · simp [DelRes.tree, lookup]
    · intro j r hj; simp [DelRes.tree, lookup, Ne.symm hj]
  | ext p c =>
    rw [hcs] at hci
    refine ⟨⟨by simp, hci.2⟩, by simp [DelRes.tree], .inr ⟨c, rfl⟩, by simp, ?_⟩
    apply look
    · intro r; simp [DelRes.tree, lookup, hcs]
    · simp [DelRes.tree, lookup]
    · intro j r hj; simp [DelRes.tree, lookup, Ne.symm hj]
  | branch ds v =>
    rw [hcs] at hci
    refine ⟨⟨by simp, rfl, hci⟩, by simp [DelRes.tree], .inr ⟨_, rfl⟩, by simp, ?_⟩
    apply look
    · intro r
      simp [DelRes.tree, lookup, hcs]
    · simp [DelRes.tree, lookup]
    · intro j r hj; simp [DelRes.tree, lookup, Ne.symm hj]

theorem afterDel_spec {cs : Nib → T} {v : Bytes} (hc : ∀ i, (cs i).Canon) :
    (afterDel cs v).tree.Canon ∧ (afterDel cs v).Ok ∧
      (∀ t, afterDel cs v = .updated t → t.isBranch = true) ∧
      ((∃ j, cs j ≠ empty) ∨ v ≠ [] → (afterDel cs v).tree ≠ empty) ∧
      (∀ q, lookup (afterDel cs v).tree q = lookup (branch cs v) q) := by
  unfold afterDel
  by_cases h0 : occ cs = 0
  · by_cases hv : v = []
    · rw [if_pos ⟨h0, hv⟩]
      refine ⟨trivial, trivial, by simp, ?_, ?_⟩
      · rintro (⟨j, hj⟩ | h)
        · exact absurd (occ_zero.1 h0 j) hj
        · exact absurd hv h
      · rintro (_ | ⟨j, q⟩) <;> simp [DelRes.tree, lookup, hv, occ_zero.1 h0]
    · rw [if_neg (fun h => hv h.2), if_pos ⟨h0, hv⟩]
      refine ⟨trivial, .inl ⟨v, rfl⟩, by simp, by simp [DelRes.tree], ?_⟩
      rintro (_ | ⟨j, q⟩) <;> simp [DelRes.tree, lookup, hv, occ_zero.1 h0]
  · rw [if_neg (fun h => h0 h.1), if_neg (fun h => h0 h.1)]
    by_cases h1 : occ cs = 1 ∧ v = []
    · rw [if_pos h1]
      obtain ⟨a, b, c, d, e⟩ := fromLast_spec h1.1 hc
      refine ⟨a, c, fun t ht => absurd ht (d t), fun _ => b, ?_⟩
      rw [h1.2]; exact e
    · rw [if_neg h1]
      refine ⟨⟨occ_pos h0, fun i => ?_, hc⟩, trivial, ?_, by simp [DelRes.tree], fun q => rfl⟩
      · by_cases hv : v = []
        · exact .inr (occ_two (by have : occ cs ≠ 1 := fun h => h1 ⟨h, hv⟩; omega) i)
        · exact .inl hv
      · rintro t ht
        simp only [DelRes.updated.injEq] at ht
        rw [← ht]; rfl

theorem mergeExt_spec {q sp : List Nib} {c : T} (hq : q ≠ []) (hc : c.Canon)
    (hok : (∃ v, c = leaf sp v) ∨ (∃ d, c = ext sp d)) :
    (mergeExt q sp c).Canon ∧ mergeExt q sp c ≠ empty ∧
      ∀ r, lookup (mergeExt q sp c) r = lookup (ext q c) r := by
  rcases hok with ⟨v, rfl⟩ | ⟨d, rfl⟩
  · refine ⟨hc, by simp [mergeExt], fun r => ?_⟩
    simp only [mergeExt]
    by_cases hr : q <+: r
    · obtain ⟨r, rfl⟩ := hr
      simp [lookup]
    · rw [lookup_ext_none _ hr]
      simp only [lookup]
      rw [if_neg]
      rintro rfl; exact hr (List.prefix_append _ _)
  · refine ⟨⟨by simp [hq], hc.2⟩, by simp [mergeExt], fun r => ?_⟩
    simp only [mergeExt]
    by_cases hr : q <+: r
    · obtain ⟨r, rfl⟩ := hr
      rw [lookup_ext_append]
      by_cases hs : sp <+: r
      · obtain ⟨r, rfl⟩ := hs
        rw [← List.append_assoc, lookup_ext_append, lookup_ext_append]
      · rw [lookup_ext_none _ hs, lookup_ext_none]
        intro h; exact hs ((List.prefix_append_right_inj q).1 h)
    · rw [lookup_ext_none _ hr, lookup_ext_none]
      intro h; exact hr ((List.prefix_append _ _).trans h)

/-- Deleting a key that is there. -/
theorem Canon.remove_some {t : T} (h : t.Canon) {p : List Nib} {w : Bytes} (hp : lookup t p = some w) :
    ∃ r, remove t p = .ok r ∧ r.tree.Canon ∧ r.Ok ∧
      (∀ t', t.isBranch = true → r = .updated t' → t'.isBranch = true) ∧
      (t.isBranch = true → r ≠ .deleted) ∧
      (∀ t', r = .updated t' → t' ≠ empty) ∧
      ∀ q, lookup r.tree q = if q = p then none else lookup t q := by
  induction t generalizing p with
  | empty => simp [lookup] at hp
  | leaf q v =>
    have hpq : p = q := by
      simp only [lookup] at hp
      split at hp <;> simp_all
    subst hpq
    refine ⟨.deleted, by simp [remove], trivial, trivial, by simp, by simp [isBranch], by simp, fun q => ?_⟩
    simp only [DelRes.tree, lookup, eq_comm (a := q)]
    split <;> simp_all
  | ext q c ih =>
    obtain ⟨p, rfl, hp2⟩ := lookup_ext_some hp
    obtain ⟨r, hr, hrc, hok, hbr, hnd, hne, hl⟩ := ih h.2.2 hp2
    have look : ∀ t' : T, (∀ s, lookup t' s = lookup (ext q r.tree) s) →
        ∀ s, lookup t' s = if s = q ++ p then none else lookup (ext q c) s := by
      intro t' ht s
      rw [ht]
      by_cases hs : q <+: s
      · obtain ⟨s, rfl⟩ := hs
        simp [hl s]
      · rw [lookup_ext_none _ hs, lookup_ext_none _ hs]; simp
    rw [remove, if_pos (List.prefix_append _ _), List.drop_left, hr]
    cases r with
    | deleted => exact absurd rfl (hnd h.2.1)
    | updated c' =>
      exact ⟨_, rfl, ⟨h.1, hbr _ h.2.1 rfl, hrc⟩, trivial, by simp [isBranch], by simp [isBranch],
        by rintro t' ⟨⟩; simp, look _ (fun _ => rfl)⟩
    | useless sp c' =>
      obtain ⟨m1, m2, m3⟩ := mergeExt_spec h.1 hrc hok
      exact ⟨_, rfl, m1, trivial, by simp [isBranch], by simp [isBranch],
        by rintro t' ⟨⟩; exact m2, look _ m3⟩
  | branch cs v ih =>
    have h' := h
    obtain ⟨hex, h2, hc⟩ := h
    rcases p with _ | ⟨i, p⟩
    · have hv : v ≠ [] := by rintro rfl; simp [lookup] at hp
      rw [remove, if_neg hv]
      obtain ⟨a1, a2, a3, a4, a5⟩ := afterDel_spec (v := []) hc
      refine ⟨_, rfl, a1, a2, fun t' _ e => a3 t' e, fun _ e => ?_, fun t' e => ?_, fun q => ?_⟩
      · have := a4 (.inl hex); rw [e] at this; exact this rfl
      · have := a3 t' e; rintro rfl; simp [isBranch] at this
      · rw [a5]
        rcases q with _ | ⟨j, q⟩ <;> simp [lookup]
    · simp only [lookup] at hp
      have hi : cs i ≠ empty := by rintro e; rw [e] at hp; simp [lookup] at hp
      have hie : (cs i).isEmpty = false := by
        cases hh : (cs i).isEmpty
        · rfl
        · exact absurd (isEmpty_iff.1 hh) hi
      obtain ⟨r, hr, hrc, hok, hbr, hnd, hne, hl⟩ := ih i (hc i) hp
      rw [remove, hie]
      simp only [Bool.false_eq_true, if_false]
      rw [hr]
      have look : ∀ c', (∀ q, lookup c' q = if q = p then none else lookup (cs i) q) →
          ∀ q, lookup (branch (fset cs i c') v) q =
            if q = i :: p then none else lookup (branch cs v) q := by
        rintro c' hc' (_ | ⟨j, q⟩)
        · simp [lookup]
        · simp only [lookup]
          by_cases hj : j = i
          · subst hj; simp [hc']
          · simp [fset_other _ hj, hj]
      have other : (∃ j, fset cs i empty j ≠ empty) ∨ v ≠ [] := by
        rcases h2 i with hv | ⟨j, hj, hj'⟩
        · exact .inr hv
        · exact .inl ⟨j, by rw [fset_other _ hj]; exact hj'⟩
      have canonSet : ∀ c', c' ≠ empty → c'.Canon → (branch (fset cs i c') v).Canon := by
        intro c' hce hcc
        have keep : ∀ j, cs j ≠ empty → fset cs i c' j ≠ empty := by
          intro j hj; simp only [fset]; split
          · exact hce
          · exact hj
        refine ⟨hex.elim fun j hj => ⟨j, keep j hj⟩, fun k => (h2 k).elim .inl ?_, fun k => ?_⟩
        · rintro ⟨j, hj, hj'⟩; exact .inr ⟨j, hj, keep j hj'⟩
        · simp only [fset]; split
          · exact hcc
          · exact hc k
      cases r with
      | deleted =>
        have hce : ∀ k, (fset cs i empty k).Canon := by
          intro k; simp only [fset]; split
          · trivial
          · exact hc k
        obtain ⟨a1, a2, a3, a4, a5⟩ := afterDel_spec (v := v) hce
        refine ⟨_, rfl, a1, a2, fun t' _ e => a3 t' e, fun _ e => ?_, fun t' e => ?_, fun q => ?_⟩
        · have := a4 other; rw [e] at this; exact this rfl
        · have := a3 t' e; rintro rfl; simp [isBranch] at this
        · rw [a5]
          exact look empty (fun q => by rw [← hl q]; simp [DelRes.tree]) q
      | updated c' =>
        refine ⟨_, rfl, canonSet _ (hne _ rfl) hrc, trivial, ?_, by simp, ?_, look _ hl⟩
        · rintro t' _ ⟨⟩; rfl
        · rintro t' ⟨⟩; simp
      | useless sp c' =>
        have hce : c' ≠ empty := by
          rcases hok with ⟨w, rfl⟩ | ⟨d, rfl⟩ <;> simp
        refine ⟨_, rfl, canonSet _ hce hrc, trivial, ?_, by simp, ?_, look _ hl⟩
        · rintro t' _ ⟨⟩; rfl
        · rintro t' ⟨⟩; simp

/-- Deleting a key that is not there fails, with one of the path errors or, at a branch without value,
the assertion. -/
theorem Canon.remove_none {t : T} (h : t.Canon) (hne : t ≠ empty) {p : List Nib} (hp : lookup t p = none) :
    ∃ e, remove t p = .error e ∧
      (e = .leafPath ∨ e = .extensionPath ∨ e = .branchPath ∨ e = .assertion) := by
  induction t generalizing p with
  | empty => exact absurd rfl hne
  | leaf q v =>
    refine ⟨.leafPath, ?_, by simp⟩
    rw [remove, if_neg]
    rintro rfl; simp [lookup] at hp
  | ext q c ih =>
    by_cases hq : q <+: p
    · obtain ⟨p, rfl⟩ := hq
      rw [lookup_ext_append] at hp
      obtain ⟨e, he, hee⟩ := ih h.2.2 (by rintro rfl; simp [Canon, isBranch] at h) hp
      refine ⟨e, ?_, hee⟩
      rw [remove, if_pos (List.prefix_append _ _), List.drop_left, he]
    · exact ⟨_, by rw [remove, if_neg hq], by simp⟩
  | branch cs v ih =>
    rcases p with _ | ⟨i, p⟩
    · have hv : v = [] := by
        simp only [lookup] at hp
        split at hp <;> simp_all
      exact ⟨_, by rw [remove, if_pos hv], by simp⟩
    · rw [remove]
      cases hi : (cs i).isEmpty with
      | true => exact ⟨_, by simp; rfl, by simp⟩
      | false =>
        obtain ⟨e, he, hee⟩ := ih i (h.2.2 i) (by rintro e; rw [e] at hi; simp [isEmpty] at hi) hp
        exact ⟨e, by simp [he], hee⟩

end T
end Pymt
