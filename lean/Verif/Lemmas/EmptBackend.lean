import Verif.Spec.EmptBackend
import Verif.Lemmas.Backend
import Verif.Lemmas.EmptTurns

/-!
# `EMPT`s over storages that are not dicts
-/

namespace Pymt

variable {B : Backend Empty} {D : DataBackend} {view : B.σ → Bytes → Option Bytes}
  {dview : D.σ → Bytes → Option Value} {E : Env} {α : Type}

/-- The storages have what the dicts have. -/
structure Mirrors (view : B.σ → Bytes → Option Bytes) (dview : D.σ → Bytes → Option Value) (o : BackEmpt B D)
    (s : EMPT) : Prop where
  root : o.trie.root = s.trie.root
  secure : o.trie.secure = s.trie.secure
  nodes : ∀ k, view o.trie.st k = dget s.trie.store.kv k
  data : ∀ k, dview o.data k = dget s.data k

theorem EProg.against_faithful (hB : B.Faithful view) (hD : D.Faithful dview) (p : EProg α) (o : BackEmpt B D) (s : EMPT)
    (h : Mirrors view dview o s) :
    (p.against o).1 = (p.alone s).1 ∧ Mirrors view dview (p.against o).2 (p.alone s).2 := by
  induction p generalizing o s with
  | done r => exact ⟨rfl, h⟩
  | load k p ih =>
    have h1 := hB.get k o.trie.st
    have h2 := hB.get_view k o.trie.st
    rw [h.nodes] at h1
    simp only [against, alone]
    generalize B.getItem k o.trie.st = x at h1 h2
    obtain ⟨x, st⟩ := x
    simp only at h1 h2
    subst h1
    have h' : Mirrors view dview { o with trie := { o.trie with st := st } } s :=
      ⟨h.root, h.secure, fun k => by simp only [h2]; exact h.nodes k, h.data⟩
    cases e : dget s.trie.store.kv k with
    | none => exact ⟨rfl, h'⟩
    | some v => exact ih v _ s h'
  | save k v p ih =>
    have h1 := hB.set k v o.trie.st
    have h2 := hB.set_view k v o.trie.st
    simp only [against, alone]
    generalize B.setItem k v o.trie.st = x at h1 h2
    obtain ⟨x, st⟩ := x
    simp only at h1 h2
    subst h1
    refine ih { o with trie := { o.trie with st := st, written := o.trie.written ++ [v] } } _
      ⟨h.root, h.secure, fun k' => ?_, h.data⟩
    rw [h2, Store.dget_set, h.nodes]
  | root p ih =>
    simp only [against, alone]
    rw [h.root]
    exact ih _ o s h
  | setRoot r p ih => exact ih { o with trie := { o.trie with root := r } } _ ⟨rfl, h.secure, h.nodes, h.data⟩
  | data k p ih =>
    have h1 := hD.get k o.data
    have h2 := hD.get_view k o.data
    rw [h.data] at h1
    simp only [against, alone]
    generalize D.getItem k o.data = x at h1 h2
    obtain ⟨x, d⟩ := x
    simp only at h1 h2
    subst h1
    have h' : Mirrors view dview { o with data := d } s :=
      ⟨h.root, h.secure, h.nodes, fun k => by simp only [h2]; exact h.data k⟩
    cases e : dget s.data k with
    | none => exact ⟨rfl, h'⟩
    | some v => exact ih v _ s h'
  | setData k v p ih =>
    refine ih { o with data := D.setItem k v o.data } _ ⟨h.root, h.secure, h.nodes, fun k' => ?_⟩
    simp only [hD.set_view, h.data, dget_dset]
    by_cases hk : k = k'
    · rw [if_pos hk, if_pos hk.symm]
    · rw [if_neg hk, if_neg fun e => hk e.symm]
  | delData k p ih =>
    have h1 := hD.del k o.data
    have h2 := hD.del_view k o.data
    rw [h.data] at h1
    simp only [against, alone]
    generalize D.delItem k o.data = x at h1 h2
    obtain ⟨x, d⟩ := x
    simp only at h1 h2
    subst h1
    cases e : dget s.data k with
    | none =>
      refine ⟨rfl, h.root, h.secure, h.nodes, fun k' => ?_⟩
      show dview d k' = _
      rw [h2]
      by_cases hk : k' = k
      · rw [if_pos hk, hk, e]
      · rw [if_neg hk]; exact h.data k'
    | some v =>
      refine ih { o with data := d } _ ⟨h.root, h.secure, h.nodes, fun k' => ?_⟩
      simp only [h2, h.data, dget_ddel]
      by_cases hk : k = k'
      · rw [if_pos hk, if_pos hk.symm]
      · rw [if_neg hk, if_neg fun e => hk e.symm]

theorem BackEmpt.calls_faithful (hB : B.Faithful view) (hD : D.Faithful dview) (l : List ECall) (o : BackEmpt B D)
    (s : EMPT) (h : Mirrors view dview o s) :
    (o.calls E l).1 = (ECall.seqAll E l s).1 ∧ Mirrors view dview (o.calls E l).2 (ECall.seqAll E l s).2 := by
  induction l generalizing o s with
  | nil => exact ⟨rfl, h⟩
  | cons c l ih =>
    have h1 := EProg.against_faithful hB hD (c.prog E o.trie.secure) o s h
    simp only [calls, ECall.seqAll]
    rw [h.secure, ECall.prog_alone] at h1
    rw [h.secure]
    obtain ⟨i1, i2⟩ := ih _ _ h1.2
    exact ⟨by rw [i1, h1.1], i2⟩

end Pymt
