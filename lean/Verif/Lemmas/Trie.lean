import Verif.Lemmas.Nibble
import Verif.Lemmas.Rlp
import Verif.Model.Mpt

/-!
# Abstract tries

`T` is a trie as a tree, without references or storage.  `insert`/`remove` follow `MPT._update` and
`MPT._delete`; this file proves what they do to the *lookup function* of a trie, and that a canonical
trie is determined by its lookup function.  `Verif/Lemmas/Refine.lean` connects `T` to the model.
-/

namespace Pymt

/-- Tries as trees. -/
inductive T where
  | empty
  | leaf (path : List Nib) (value : Bytes)
  | ext (path : List Nib) (child : T)
  | branch (children : Nib → T) (value : Bytes)

namespace T

def isEmpty : T → Bool
  | empty => true
  | _ => false

def isBranch : T → Bool
  | branch _ _ => true
  | _ => false

theorem isEmpty_iff {t : T} : t.isEmpty = true ↔ t = empty := by cases t <;> simp [isEmpty]

/-- `f` with the value at `i` replaced. -/
def fset (f : Nib → T) (i : Nib) (x : T) : Nib → T := fun j => if j = i then x else f j

@[simp] theorem fset_same (f : Nib → T) (i : Nib) (x : T) : fset f i x i = x := by simp [fset]
theorem fset_other {f : Nib → T} {i j : Nib} (x : T) (h : j ≠ i) : fset f i x j = f j := by
  simp [fset, h]

/-- The value stored at a path. -/
def lookup : T → List Nib → Option Bytes
  | empty, _ => none
  | leaf q v, p => if q = p then some v else none
  | ext q c, p => if q <+: p then lookup c (p.drop q.length) else none
  | branch _ v, [] => if v = [] then none else some v
  | branch cs _, i :: p => lookup (cs i) p

@[simp] theorem lookup_ext_append (q r : List Nib) (c : T) : lookup (ext q c) (q ++ r) = lookup c r := by
  simp [lookup]

theorem lookup_ext_none {q p : List Nib} (c : T) (h : ¬ q <+: p) : lookup (ext q c) p = none := by
  simp [lookup, h]

/-- Structure: extensions are non-empty and lead to branches. -/
def Shape : T → Prop
  | empty => True
  | leaf _ _ => True
  | ext p c => p ≠ [] ∧ c.isBranch = true ∧ Shape c
  | branch cs _ => ∀ i, Shape (cs i)

/-- Canonical tries: non-empty extensions leading to branches, and every branch has at least two
occupants (children or value). -/
def Canon : T → Prop
  | empty => True
  | leaf _ _ => True
  | ext p c => p ≠ [] ∧ c.isBranch = true ∧ Canon c
  | branch cs v => (∃ j, cs j ≠ empty) ∧ (∀ i, v ≠ [] ∨ ∃ j, j ≠ i ∧ cs j ≠ empty) ∧ ∀ i, Canon (cs i)

theorem Canon.shape {t : T} (h : t.Canon) : t.Shape := by
  induction t with
  | empty => trivial
  | leaf p v => trivial
  | ext p c ih => exact ⟨h.1, h.2.1, ih h.2.2⟩
  | branch cs v ih => exact fun i => ih i (h.2.2 i)

/-! ### Uniqueness -/

theorem Canon.exists_key {t : T} (h : t.Canon) (hne : t ≠ empty) : ∃ p v, lookup t p = some v := by
  induction t with
  | empty => exact absurd rfl hne
  | leaf p v => exact ⟨p, v, by simp [lookup]⟩
  | ext p c ih =>
    obtain ⟨q, v, hq⟩ := ih h.2.2 (by rintro rfl; simp [Canon, isBranch] at h)
    exact ⟨p ++ q, v, by simpa using hq⟩
  | branch cs v ih =>
    obtain ⟨⟨j, hj⟩, _, hc⟩ := h
    obtain ⟨q, w, hq⟩ := ih j (hc j) hj
    exact ⟨j :: q, w, by simpa [lookup] using hq⟩

/-- The keys of a branch do not all start with the same nibble. -/
theorem Canon.diverge {cs : Nib → T} {v : Bytes} (h : (branch cs v).Canon) (i : Nib) :
    ∃ p w, lookup (branch cs v) p = some w ∧ p.head? ≠ some i := by
  obtain ⟨_, h2, hc⟩ := h
  rcases h2 i with hv | ⟨j, hji, hj⟩
  · exact ⟨[], v, by simp [lookup, hv], by simp⟩
  · obtain ⟨q, w, hq⟩ := (hc j).exists_key hj
    exact ⟨j :: q, w, by simpa [lookup] using hq, by simpa using hji⟩

theorem Canon.two_keys {cs : Nib → T} {v : Bytes} (h : (branch cs v).Canon) (p : List Nib) :
    ∃ q w, lookup (branch cs v) q = some w ∧ q ≠ p := by
  cases p with
  | nil =>
    obtain ⟨⟨j, hj⟩, _, hc⟩ := h
    obtain ⟨q, w, hq⟩ := (hc j).exists_key hj
    exact ⟨j :: q, w, by simpa [lookup] using hq, by simp⟩
  | cons i p =>
    obtain ⟨q, w, hq, hh⟩ := h.diverge i
    exact ⟨q, w, hq, by rintro rfl; simp at hh⟩

theorem isBranch_iff {c : T} : c.isBranch = true ↔ ∃ cs v, c = branch cs v := by
  cases c <;> simp [isBranch]

theorem Canon.two_keys' {t : T} (h : t.Canon) (hne : t ≠ empty) (hl : ∀ p v, t ≠ leaf p v)
    (p : List Nib) : ∃ q w, lookup t q = some w ∧ q ≠ p := by
  cases t with
  | empty => exact absurd rfl hne
  | leaf q v => exact absurd rfl (hl q v)
  | branch cs v => exact h.two_keys p
  | ext q c =>
    obtain ⟨cs, v, rfl⟩ := isBranch_iff.1 h.2.1
    by_cases hp : q <+: p
    · obtain ⟨r, rfl⟩ := hp
      obtain ⟨s, w, hs, hne⟩ := h.2.2.two_keys r
      exact ⟨q ++ s, w, by simpa using hs, by simpa using hne⟩
    · obtain ⟨s, w, hs⟩ := h.2.2.exists_key (by simp)
      exact ⟨q ++ s, w, by simpa using hs, by rintro rfl; simp at hp⟩

theorem lookup_ext_some {q p : List Nib} {c : T} {v : Bytes} (h : lookup (ext q c) p = some v) :
    ∃ r, p = q ++ r ∧ lookup c r = some v := by
  by_cases hp : q <+: p
  · obtain ⟨r, rfl⟩ := hp
    exact ⟨r, rfl, by simpa using h⟩
  · simp [lookup, hp] at h

theorem prefix_total {a b c : List Nib} (ha : a <+: c) (hb : b <+: c) : a <+: b ∨ b <+: a := by
  rcases Nat.le_total a.length b.length with h | h
  · exact .inl (List.prefix_of_prefix_length_le ha hb h)
  · exact .inr (List.prefix_of_prefix_length_le hb ha h)

/-- The path of a canonical extension is at least as long as any other one with the same keys. -/
theorem ext_path_le {p p' : List Nib} {c c' : T} (h : (ext p c).Canon) (h' : (ext p' c').Canon)
    (he : ∀ q, lookup (ext p c) q = lookup (ext p' c') q) (hpre : p <+: p') : p = p' := by
  obtain ⟨cs, v, rfl⟩ := isBranch_iff.1 h.2.1
  obtain ⟨r, rfl⟩ := hpre
  cases r with
  | nil => simp
  | cons i r =>
    exfalso
    obtain ⟨q, w, hq, hh⟩ := h.2.2.diverge i
    have := he (p ++ q)
    rw [lookup_ext_append, hq] at this
    obtain ⟨s, hs, _⟩ := lookup_ext_some this.symm
    rw [List.append_assoc, List.append_cancel_left_eq] at hs
    rw [hs] at hh
    simp at hh

theorem ext_ne_branch {p : List Nib} {c : T} {cs : Nib → T} {v : Bytes} (h : (ext p c).Canon)
    (h' : (branch cs v).Canon) (he : ∀ q, lookup (ext p c) q = lookup (branch cs v) q) : False := by
  cases p with
  | nil => exact h.1 rfl
  | cons i p =>
    obtain ⟨q, w, hq, hh⟩ := h'.diverge i
    rw [← he] at hq
    obtain ⟨r, rfl, _⟩ := lookup_ext_some hq
    simp at hh

/-- A canonical trie is determined by its lookup function. -/
theorem canon_unique {t t' : T} (h : t.Canon) (h' : t'.Canon) (he : ∀ q, lookup t q = lookup t' q) :
    t = t' := by
  induction t generalizing t' with
  | empty =>
    by_cases hne : t' = empty
    · exact hne.symm
    · obtain ⟨p, v, hp⟩ := h'.exists_key hne
      rw [← he] at hp
      simp [lookup] at hp
  | leaf p v =>
    by_cases hne : t' = empty
    · subst hne; have := he p; simp [lookup] at this
    by_cases hl : ∀ q w, t' ≠ leaf q w
    · obtain ⟨q, w, hq, hqp⟩ := h'.two_keys' hne hl p
      rw [← he] at hq
      simp only [lookup] at hq
      rw [if_neg (fun e => hqp e.symm)] at hq
      cases hq
    · simp only [Classical.not_forall, Classical.not_not] at hl
      obtain ⟨q, w, rfl⟩ := hl
      have := he p
      simp only [lookup, if_true] at this
      split at this
      · simp_all
      · cases this
  | ext p c ih =>
    cases t' with
    | empty =>
      obtain ⟨q, v, hq⟩ := h.exists_key (by simp)
      rw [he] at hq; simp [lookup] at hq
    | leaf q w =>
      obtain ⟨r, u, hr, hne⟩ := h.two_keys' (by simp) (by simp) q
      rw [he] at hr
      simp only [lookup] at hr
      rw [if_neg (fun e => hne e.symm)] at hr
      cases hr
    | branch cs v => exact (ext_ne_branch h h' he).elim
    | ext p' c' =>
      obtain ⟨q, v, hq⟩ := h.exists_key (by simp)
      obtain ⟨r, rfl, _⟩ := lookup_ext_some hq
      rw [he] at hq
      obtain ⟨r', hr', _⟩ := lookup_ext_some hq
      have hpp : p = p' := by
        rcases prefix_total (List.prefix_append p r) (hr' ▸ List.prefix_append p' r') with hh | hh
        · exact ext_path_le h h' he hh
        · exact (ext_path_le h' h (fun q => (he q).symm) hh).symm
      subst hpp
      rw [ih h.2.2 h'.2.2 (fun q => by simpa using he (p ++ q))]
  | branch cs v ih =>
    cases t' with
    | empty =>
      obtain ⟨q, v, hq⟩ := h.exists_key (by simp)
      rw [he] at hq; simp [lookup] at hq
    | leaf q w =>
      obtain ⟨r, u, hr, hne⟩ := h.two_keys' (by simp) (by simp) q
      rw [he] at hr
      simp only [lookup] at hr
      rw [if_neg (fun e => hne e.symm)] at hr
      cases hr
    | ext p c => exact (ext_ne_branch h' h (fun q => (he q).symm)).elim
    | branch cs' v' =>
      have hv : v = v' := by
        have := he []
        simp only [lookup] at this
        by_cases a : v = [] <;> by_cases b : v' = [] <;> simp_all
      have hcs : cs = cs' := funext fun i =>
        ih i (h.2.2 i) (h'.2.2 i) (fun q => by simpa [lookup] using he (i :: q))
      rw [hv, hcs]

/-! ### Insertion -/

/-- `_create_branch_leaf` on trees. -/
def setLeaf : List Nib → Bytes → (Nib → T) → Nib → T
  | [], _, cs => cs
  | i :: p, v, cs => fset cs i (leaf p v)

/-- `_create_branch_extension` on trees. -/
def setExt : List Nib → T → (Nib → T) → Nib → T
  | [], _, cs => cs
  | [i], c, cs => fset cs i c
  | i :: j :: p, c, cs => fset cs i (ext (j :: p) c)

/-- An extension in front of a tree unless its path is empty. -/
def wrapExt (c : List Nib) (t : T) : T := if c = [] then t else ext c t

/-- `_create_branch_node` on trees. -/
def branch2 (p : List Nib) (v : Bytes) (q : List Nib) (w : Bytes) : T :=
  branch (setLeaf q w (setLeaf p v (fun _ => empty))) (if p = [] then v else if q = [] then w else [])

/-- Branch made when an extension with path `q` is split. -/
def branchExt (p : List Nib) (v : Bytes) (q : List Nib) (c : T) : T :=
  branch (setExt q c (setLeaf p v (fun _ => empty))) (if p = [] then v else [])

/-- `MPT._update` on trees. -/
def insert : T → List Nib → Bytes → T
  | empty, p, v => leaf p v
  | leaf q w, p, v =>
    if q = p then leaf q v
    else
      let c := lcp p q
      wrapExt c (branch2 (p.drop c.length) v (q.drop c.length) w)
  | ext q c, p, v =>
    if q <+: p then ext q (insert c (p.drop q.length) v)
    else
      let k := lcp p q
      wrapExt k (branchExt (p.drop k.length) v (q.drop k.length) c)
  | branch cs _, [], v => branch cs v
  | branch cs w, i :: p, v => branch (fset cs i (insert (cs i) p v)) w

theorem lookup_wrapExt (c r : List Nib) (t : T) :
    lookup (wrapExt c t) r = if c <+: r then lookup t (r.drop c.length) else none := by
  unfold wrapExt
  split
  · subst_vars; simp
  · simp [lookup]

/-- No common first nibble. -/
def Apart (p q : List Nib) : Prop := ∀ a b p' q', p = a :: p' → q = b :: q' → a ≠ b

theorem lcp_apart (p q : List Nib) : Apart (p.drop (lcp p q).length) (q.drop (lcp p q).length) :=
  fun a b p' q' hp hq => lcp_maximal p q a b p' q' hp hq

theorem lookup_branch2 {p q : List Nib} {v w : Bytes} (h : Apart p q) (hpq : p ≠ q) (hv : p = [] → v ≠ [])
    (hw : q = [] → w ≠ []) (r : List Nib) :
    lookup (branch2 p v q w) r = if r = p then some v else if r = q then some w else none := by
  rcases p with _ | ⟨i, p⟩ <;> rcases q with _ | ⟨j, q⟩ <;> rcases r with _ | ⟨k, r⟩ <;>
    simp only [branch2, setLeaf, lookup, fset, if_true, if_false] <;>
    try simp_all [lookup]
  · by_cases hk : k = j
    · subst hk; simp [lookup, eq_comm]
    · simp [hk, lookup]
  · by_cases hk : k = i
    · subst hk; simp [lookup, eq_comm]
    · simp [hk, lookup]
  · have hij : i ≠ j := h i j p q rfl rfl
    by_cases hk : k = j
    · subst hk
      simp [lookup, eq_comm, Ne.symm hij]
      intro e; exact absurd e hij
    · by_cases hk' : k = i
      · subst hk'
        rw [if_neg hk, if_pos rfl]
        have : ¬ j = k := fun e => hk e.symm
        simp only [lookup, List.cons.injEq, true_and, hk, false_and, if_false]
        by_cases e : p = r
        · simp [e]
        · rw [if_neg e, if_neg (fun e' => e e'.symm)]
      · simp [hk, hk', lookup]

theorem app_eq_iff {c p p' r : List Nib} (h : p = c ++ p') : c ++ r = p ↔ r = p' := by
  subst h; simp

theorem app_prefix_iff {c p p' r : List Nib} (h : p = c ++ p') : p <+: c ++ r ↔ p' <+: r := by
  subst h; exact List.prefix_append_right_inj _

theorem lookup_branchExt {p q : List Nib} {v : Bytes} {c : T} (h : Apart p q) (hq : q ≠ [])
    (hv : p = [] → v ≠ []) (r : List Nib) :
    lookup (branchExt p v q c) r = if r = p then some v else lookup (ext q c) r := by
  have key : ∀ (cs : Nib → T) (j : Nib) (q' : List Nib) (w : Bytes) (k : Nib) (r : List Nib),
      q = j :: q' → lookup (branch (setExt q c cs) w) (k :: r) =
        if k = j then lookup (ext q c) (k :: r) else lookup (cs k) r := by
    rintro cs j q' w k r rfl
    rcases q' with _ | ⟨j', q'⟩ <;> simp only [setExt, lookup, fset] <;> by_cases hk : k = j
    · subst hk; simp
    · simp [hk]
    · subst hk; simp [lookup]
    · simp [hk]
  rcases q with _ | ⟨j, q⟩
  · exact absurd rfl hq
  rcases r with _ | ⟨k, r⟩
  · rcases p with _ | ⟨i, p⟩
    · simp [branchExt, lookup, hv rfl]
    · simp [branchExt, lookup]
  · unfold branchExt
    rw [key _ j q _ k r rfl]
    rcases p with _ | ⟨i, p⟩
    · simp only [setLeaf, lookup]
      by_cases hk : k = j
      · subst hk; simp
      · have : ¬ j = k := fun e => hk e.symm
        simp [hk, List.cons_prefix_cons, this]
    · have hij : i ≠ j := h i j p q rfl rfl
      simp only [setLeaf, fset]
      by_cases hk : k = j
      · subst hk
        simp [Ne.symm hij]
      · by_cases hk' : k = i
        · subst hk'
          simp only [hk, if_false, if_true, lookup, List.cons.injEq, true_and, eq_comm (a := p)]
          have : ¬ j = k := fun e => hk e.symm
          simp [List.cons_prefix_cons, this]
        · have : ¬ j = k := fun e => hk e.symm
          simp [hk, hk', lookup, List.cons_prefix_cons, this]

theorem drop_lcp_ne {p q : List Nib} (h : p ≠ q) :
    p.drop (lcp p q).length ≠ q.drop (lcp p q).length := by
  intro e
  obtain ⟨h1, h2⟩ := lcp_drop p q
  rw [e, ← h2] at h1
  exact h h1

theorem drop_lcp_ne_nil {p q : List Nib} (h : ¬ q <+: p) : q.drop (lcp p q).length ≠ [] := by
  intro e
  obtain ⟨_, h2⟩ := lcp_drop p q
  rw [e, List.append_nil] at h2
  exact h (h2 ▸ lcp_prefix_left p q)

/-- `v` can be put at `p`: no key with an empty value comes to be a proper prefix of another key. -/
def Room (t : T) (p : List Nib) (v : Bytes) : Prop :=
  ∀ q w, lookup t q = some w → q ≠ p → (q <+: p → w ≠ []) ∧ (p <+: q → v ≠ [])

theorem Room.ext {s p : List Nib} {c : T} {v : Bytes} (h : Room (ext s c) (s ++ p) v) : Room c p v := by
  intro q w hq hne
  have := h (s ++ q) w (by simpa using hq) (by simpa using hne)
  simpa [List.prefix_append_right_inj] using this

theorem Room.branch {cs : Nib → T} {x v : Bytes} {i : Nib} {p : List Nib}
    (h : Room (branch cs x) (i :: p) v) : Room (cs i) p v := by
  intro q w hq hne
  have := h (i :: q) w (by simpa [lookup] using hq) (by simpa using hne)
  simpa [List.cons_prefix_cons] using this

theorem drop_lcp_nil {p q : List Nib} (h : p.drop (lcp p q).length = []) : p <+: q := by
  obtain ⟨h1, _⟩ := lcp_drop p q
  rw [h, List.append_nil] at h1
  rw [h1]; exact lcp_prefix_right p q

theorem Room.leaf_left {s p : List Nib} {w v : Bytes} (h : Room (leaf s w) p v) (hs : s ≠ p)
    (hp : p.drop (lcp p s).length = []) : v ≠ [] :=
  (h s w (by simp [lookup]) hs).2 (drop_lcp_nil hp)

theorem Room.leaf_right {s p : List Nib} {w v : Bytes} (h : Room (leaf s w) p v) (hs : s ≠ p)
    (hp : s.drop (lcp p s).length = []) : w ≠ [] :=
  (h s w (by simp [lookup]) hs).1 (drop_lcp_nil (lcp_comm p s ▸ hp))

theorem Room.ext_split {s p : List Nib} {c : T} {v : Bytes} (hc : (T.ext s c).Canon)
    (h : Room (T.ext s c) p v) (hs : ¬ s <+: p) (hp : p.drop (lcp p s).length = []) : v ≠ [] := by
  obtain ⟨q, w, hq⟩ := hc.exists_key (by simp)
  obtain ⟨r, rfl, _⟩ := lookup_ext_some hq
  refine (h _ w hq ?_).2 ((drop_lcp_nil hp).trans (List.prefix_append _ _))
  rintro rfl
  exact hs (List.prefix_append _ _)

theorem Room.branch_nil {cs : Nib → T} {x v : Bytes} (hc : (T.branch cs x).Canon)
    (h : Room (T.branch cs x) [] v) : v ≠ [] := by
  obtain ⟨q, w, hq, hne⟩ := hc.two_keys []
  exact (h q w hq hne).2 (List.nil_prefix)

theorem Canon.insert_lookup {t : T} (h : t.Canon) {v : Bytes} {p : List Nib} (hv : Room t p v)
    (q : List Nib) :
    lookup (insert t p v) q = if q = p then some v else lookup t q := by
  induction t generalizing p q with
  | empty => simp only [insert, lookup, eq_comm]
  | leaf s w =>
    rw [insert]
    by_cases hs : s = p
    · subst hs
      simp only [if_true, lookup, eq_comm (a := q)]
      split <;> simp_all
    · rw [if_neg hs]
      simp only [lookup_wrapExt]
      obtain ⟨h1, h2⟩ := lcp_drop p s
      rw [lookup_branch2 (lcp_apart p s) (drop_lcp_ne (Ne.symm hs)) (hv.leaf_left hs) (hv.leaf_right hs)]
      by_cases hq : lcp p s <+: q
      · obtain ⟨r, rfl⟩ := hq
        rw [if_pos (List.prefix_append _ _), List.drop_left]
        have e1 := app_eq_iff (r := r) h1
        have e2 := app_eq_iff (r := r) h2
        simp only [lookup, e1, eq_comm (a := s), e2]
      · rw [if_neg hq]
        have n1 : q ≠ p := by rintro rfl; exact hq (lcp_prefix_left _ _)
        have n2 : ¬ s = q := by rintro rfl; exact hq (lcp_prefix_right _ _)
        simp [n1, n2, lookup]
  | ext s c ih =>
    rw [insert]
    by_cases hs : s <+: p
    · obtain ⟨p, rfl⟩ := hs
      rw [if_pos (List.prefix_append _ _), List.drop_left]
      by_cases hq : s <+: q
      · obtain ⟨q, rfl⟩ := hq
        simp [ih h.2.2 hv.ext q]
      · rw [lookup_ext_none _ hq, lookup_ext_none _ hq, if_neg]
        rintro rfl; exact hq (List.prefix_append _ _)
    · rw [if_neg hs]
      simp only [lookup_wrapExt]
      obtain ⟨h1, h2⟩ := lcp_drop p s
      rw [lookup_branchExt (lcp_apart p s) (drop_lcp_ne_nil hs) (hv.ext_split h hs)]
      by_cases hq : lcp p s <+: q
      · obtain ⟨r, rfl⟩ := hq
        rw [if_pos (List.prefix_append _ _), List.drop_left]
        have e1 := app_eq_iff (r := r) h1
        simp only [e1]
        split
        · rfl
        · simp only [lookup]
          have := app_prefix_iff (r := r) h2
          simp only [this]
          split
          · congr 1
            have hl : s.length = (lcp p s).length + (s.drop (lcp p s).length).length := by
              have := congrArg List.length h2
              simpa using this
            rw [hl, List.drop_append]
            simp
          · rfl
      · rw [if_neg hq]
        have n1 : q ≠ p := by rintro rfl; exact hq (lcp_prefix_left _ _)
        rw [if_neg n1, lookup_ext_none]
        intro hsq; exact hq ((lcp_prefix_right p s).trans hsq)
  | branch cs w ih =>
    rcases p with _ | ⟨i, p⟩ <;> rcases q with _ | ⟨j, q⟩ <;> simp only [insert, lookup]
    · simp [hv.branch_nil h]
    · simp
    · simp
    · by_cases hj : j = i
      · subst hj; simp [ih j (h.2.2 j) hv.branch q]
      · simp [fset_other _ hj, hj]

theorem insert_ne_empty (t : T) (p : List Nib) (v : Bytes) : insert t p v ≠ empty := by
  cases t with
  | empty => simp [insert]
  | leaf q w => simp only [insert]; split <;> simp [wrapExt, branch2] <;> split <;> simp
  | ext q c => simp only [insert]; split <;> simp [wrapExt, branchExt] <;> split <;> simp
  | branch cs w => cases p <;> simp [insert]

theorem insert_isBranch {t : T} (h : t.isBranch = true) (p : List Nib) (v : Bytes) :
    (insert t p v).isBranch = true := by
  cases t <;> simp [isBranch] at h
  cases p <;> simp [insert, isBranch]

theorem Shape.wrapExt {k : List Nib} {t : T} (hb : t.isBranch = true) (h : t.Shape) :
    (wrapExt k t).Shape := by
  unfold T.wrapExt
  split
  · exact h
  · exact ⟨by assumption, hb, h⟩

theorem Shape.setLeaf {p : List Nib} {v : Bytes} {cs : Nib → T} (h : ∀ i, (cs i).Shape) (i : Nib) :
    (setLeaf p v cs i).Shape := by
  cases p with
  | nil => exact h i
  | cons j p =>
    simp only [T.setLeaf, fset]
    split
    · trivial
    · exact h i

theorem Shape.setExt {p : List Nib} {c : T} {cs : Nib → T} (hc : c.isBranch = true) (hc' : c.Shape)
    (h : ∀ i, (cs i).Shape) (i : Nib) : (setExt p c cs i).Shape := by
  rcases p with _ | ⟨j, _ | ⟨k, p⟩⟩
  · exact h i
  · simp only [T.setExt, fset]
    split
    · exact hc'
    · exact h i
  · simp only [T.setExt, fset]
    split
    · exact ⟨by simp, hc, hc'⟩
    · exact h i

theorem Shape.insert {t : T} (h : t.Shape) (p : List Nib) (v : Bytes) : (insert t p v).Shape := by
  induction t generalizing p with
  | empty => trivial
  | leaf q w =>
    simp only [T.insert]
    split
    · trivial
    · exact Shape.wrapExt rfl (fun i => Shape.setLeaf (fun i => Shape.setLeaf (cs := fun _ => empty) (fun _ => trivial) i) i)
  | ext q c ih =>
    simp only [T.insert]
    split
    · exact ⟨h.1, insert_isBranch h.2.1 _ _, ih h.2.2 _⟩
    · exact Shape.wrapExt rfl (fun i => Shape.setExt h.2.1 h.2.2 (fun i => Shape.setLeaf (cs := fun _ => empty) (fun _ => trivial) i) i)
  | branch cs w ih =>
    cases p with
    | nil => exact h
    | cons i p =>
      intro j
      simp only [fset]
      split
      · exact ih i (h i) p
      · exact h j

theorem Canon.wrapExt {k : List Nib} {t : T} (hb : t.isBranch = true) (h : t.Canon) :
    (wrapExt k t).Canon := by
  unfold T.wrapExt
  split
  · exact h
  · exact ⟨by assumption, hb, h⟩

theorem Canon.branch2 {p q : List Nib} {v w : Bytes} (h : Apart p q) (hpq : p ≠ q) (hv : p = [] → v ≠ [])
    (hw : q = [] → w ≠ []) : (branch2 p v q w).Canon := by
  rcases p with _ | ⟨i, p⟩ <;> rcases q with _ | ⟨j, q⟩
  · exact absurd rfl hpq
  · refine ⟨⟨j, by simp [setLeaf]⟩, fun _ => .inl (by simpa using hv rfl), fun k => ?_⟩
    simp only [setLeaf, fset]; split
    · trivial
    · trivial
  · refine ⟨⟨i, by simp [setLeaf]⟩, fun _ => .inl (by simpa using hw rfl), fun k => ?_⟩
    simp only [setLeaf, fset]; split
    · trivial
    · trivial
  · have hij : i ≠ j := h i j p q rfl rfl
    refine ⟨⟨j, by simp [setLeaf]⟩, fun k => .inr ?_, fun k => ?_⟩
    · by_cases hk : j = k
      · subst hk
        exact ⟨i, hij, by simp [setLeaf, fset, hij]⟩
      · exact ⟨j, hk, by simp [setLeaf]⟩
    · simp only [setLeaf, fset]; split
      · trivial
      · split
        · trivial
        · trivial

theorem Canon.branchExt {p q : List Nib} {v : Bytes} {c : T} (h : Apart p q) (hq : q ≠ [])
    (hv : p = [] → v ≠ [])
    (hb : c.isBranch = true) (hc : c.Canon) : (branchExt p v q c).Canon := by
  have hce : c ≠ empty := by rintro rfl; simp [isBranch] at hb
  have key : ∀ (cs : Nib → T) j q', q = j :: q' → setExt q c cs j ≠ empty ∧ (setExt q c cs j).Canon ∧
      ∀ k, k ≠ j → setExt q c cs k = cs k := by
    rintro cs j q' rfl
    rcases q' with _ | ⟨j', q'⟩ <;> simp only [setExt, fset_same]
    · exact ⟨hce, hc, fun k hk => fset_other _ hk⟩
    · exact ⟨by simp, ⟨by simp, hb, hc⟩, fun k hk => fset_other _ hk⟩
  rcases q with _ | ⟨j, q⟩
  · exact absurd rfl hq
  unfold T.branchExt
  rcases p with _ | ⟨i, p⟩
  · obtain ⟨k1, k2, k3⟩ := key (setLeaf [] v fun _ => empty) j q rfl
    refine ⟨⟨j, k1⟩, fun _ => .inl (by simpa using hv rfl), fun k => ?_⟩
    by_cases hk : k = j
    · subst hk; exact k2
    · rw [k3 k hk]; trivial
  · obtain ⟨k1, k2, k3⟩ := key (setLeaf (i :: p) v fun _ => empty) j q rfl
    have hij : i ≠ j := h i j p q rfl rfl
    refine ⟨⟨j, k1⟩, fun k => .inr ?_, fun k => ?_⟩
    · by_cases hk : j = k
      · subst hk
        exact ⟨i, hij, by rw [k3 i hij]; simp [setLeaf]⟩
      · exact ⟨j, hk, k1⟩
    · by_cases hk : k = j
      · subst hk; exact k2
      · rw [k3 k hk]
        simp only [setLeaf, fset]; split
        · trivial
        · trivial

theorem Canon.insert {t : T} (h : t.Canon) {p : List Nib} {v : Bytes} (hv : Room t p v) :
    (insert t p v).Canon := by
  induction t generalizing p with
  | empty => trivial
  | leaf q w =>
    simp only [T.insert]
    split
    · trivial
    · rename_i hs
      exact Canon.wrapExt rfl (Canon.branch2 (lcp_apart _ _) (drop_lcp_ne (Ne.symm hs)) (hv.leaf_left hs)
        (hv.leaf_right hs))
  | ext q c ih =>
    simp only [T.insert]
    split
    · rename_i hs
      obtain ⟨r, rfl⟩ := hs
      rw [List.drop_left]
      exact ⟨h.1, insert_isBranch h.2.1 _ _, ih h.2.2 hv.ext⟩
    · rename_i hs
      exact Canon.wrapExt rfl
        (Canon.branchExt (lcp_apart _ _) (drop_lcp_ne_nil hs) (hv.ext_split h hs) h.2.1 h.2.2)
  | branch cs w ih =>
    have hb := h
    obtain ⟨⟨j, hj⟩, h2, hc⟩ := h
    cases p with
    | nil => exact ⟨⟨j, hj⟩, fun _ => .inl (hv.branch_nil hb), hc⟩
    | cons i p =>
      have mono : ∀ k, cs k ≠ empty → fset cs i (T.insert (cs i) p v) k ≠ empty := by
        intro k hk
        simp only [fset]; split
        · exact insert_ne_empty _ _ _
        · exact hk
      refine ⟨⟨j, mono j hj⟩, fun k => ?_, fun k => ?_⟩
      · rcases h2 k with hw | ⟨m, hm, hm'⟩
        · exact .inl hw
        · exact .inr ⟨m, hm, mono m hm'⟩
      · simp only [fset]; split
        · exact ih i (hc i) hv.branch
        · exact hc k

end T
end Pymt
