import Verif.Model.Node
import Verif.Spec.Nibbles

/-!
# Specification: the Merkle-Patricia tree of the Ethereum Yellow Paper, appendix D

Written from the paper, independently of `mpt.py`: a function on a list of pairs, without storage,
nodes, updates or deletions.  The paper writes `c(I, i)` for the node of the pairs `I`, which agree in
their first `i` nibbles; here these nibbles are cut off instead, so that `i` is always 0.  RLP
(appendix B) is `Item.encode`, hex-prefix (appendix C) is `hp`.
-/

namespace Pymt
namespace YP

/-- Pairs of a path (nibbles) and a value. -/
abbrev Pairs := List (List Nib × Bytes)

/-- The longest prefix that all paths have. -/
def common : Pairs → List Nib
  | [] => []
  | [e] => e.1
  | e :: I => lcp e.1 (common I)

/-- The pairs whose path starts with nibble `j`, without that nibble. -/
def sub (j : Nib) (I : Pairs) : Pairs :=
  I.filterMap fun e => match e.1 with
    | [] => none
    | i :: k => if i = j then some (k, e.2) else none

/-- The value of the pair whose path has ended. -/
def ended (I : Pairs) : Bytes :=
  match I.find? fun e => e.1 == [] with
  | some e => e.2
  | none => []

/-- The first part of the node composition function `n`: a node is referred to by itself when its
encoding is shorter than 32 bytes, otherwise by its hash. -/
def cap (E : Env) (x : Item) : Item := if x.encode.length < 32 then x else .str (E.keccak x.encode)

/-- Total number of nibbles. -/
def size (I : Pairs) : Nat := (I.map fun e => e.1.length).sum

theorem size_drop_lt (n : Nat) (I : Pairs) (hn : 0 < n) (hne : I ≠ []) (h : ∀ e ∈ I, n ≤ e.1.length) :
    size (I.map fun e => (e.1.drop n, e.2)) < size I := by
  have hle : ∀ I : Pairs, size (I.map fun e => (e.1.drop n, e.2)) ≤ size I := by
    intro I
    induction I with
    | nil => simp [size]
    | cons e I ih => simp only [size, List.map_cons, List.sum_cons, List.length_drop] at *; omega
  cases I with
  | nil => exact absurd rfl hne
  | cons e I =>
    have h1 := hle I
    have h2 := h e (by simp)
    simp only [size, List.map_cons, List.sum_cons, List.length_drop] at *
    omega

theorem size_sub_le (j : Nib) (I : Pairs) : size (sub j I) + (sub j I).length ≤ size I := by
  induction I with
  | nil => simp [sub, size]
  | cons e I ih =>
    obtain ⟨k, v⟩ := e
    have hc : size ((k, v) :: I) = k.length + size I := by simp [size]
    rw [hc]
    cases k with
    | nil =>
      have : sub j (([], v) :: I) = sub j I := by simp [sub]
      rw [this]; omega
    | cons i k =>
      by_cases hij : i = j
      · have : sub j ((i :: k, v) :: I) = (k, v) :: sub j I := by simp [sub, hij]
        rw [this]
        simp only [size, List.map_cons, List.sum_cons, List.length_cons] at *; omega
      · have : sub j ((i :: k, v) :: I) = sub j I := by simp [sub, hij]
        rw [this]; simp only [List.length_cons]; omega

theorem lcp_le (p q : List Nib) : (lcp p q).length ≤ p.length ∧ (lcp p q).length ≤ q.length := by
  induction p generalizing q with
  | nil => simp [lcp]
  | cons a p ih =>
    cases q with
    | nil => simp [lcp]
    | cons b q =>
      simp only [lcp]
      split
      · have := ih q; simp; omega
      · simp

theorem common_le (I : Pairs) : ∀ e ∈ I, (common I).length ≤ e.1.length := by
  induction I with
  | nil => simp
  | cons e I ih =>
    intro e' he'
    cases I with
    | nil =>
      simp only [List.mem_singleton] at he'
      subst he'; simp [common]
    | cons e2 I =>
      have h := lcp_le e.1 (common (e2 :: I))
      rw [common]
      · rcases List.mem_cons.1 he' with rfl | he'
        · exact h.1
        · have := ih e' he'; omega
      · simp

/-- The structural composition function `c`:
* one pair: a leaf;
* a common prefix: an extension;
* otherwise: a branch with 16 subtrees and the value of the pair that ends here.

The empty set of pairs has the empty byte string as its node. -/
def c (E : Env) (I : Pairs) : Item :=
  match I with
  | [] => .str []
  | [e] => .list [.str (hp true e.1), .str e.2]
  | e1 :: e2 :: I' =>
    let I := e1 :: e2 :: I'
    let l := common I
    if hl : l ≠ [] then
      .list [.str (hp false l), cap E (c E (I.map fun e => (e.1.drop l.length, e.2)))]
    else
      .list ((List.finRange 16).map (fun j => if h : sub j I = [] then .str [] else cap E (c E (sub j I))) ++
        [.str (ended I)])
termination_by size I
decreasing_by
  · exact size_drop_lt _ _ (List.length_pos_iff.2 hl) (by simp) (common_le _)
  · have h1 := size_sub_le j (e1 :: e2 :: I')
    have h2 := List.length_pos_iff.2 (show sub j (e1 :: e2 :: I') ≠ [] from h)
    show size (sub j (e1 :: e2 :: I')) < size (e1 :: e2 :: I')
    omega

/-- `TRIE(I) = KEC(RLP(c(I, 0)))`. -/
def TRIE (E : Env) (I : List (Bytes × Bytes)) : Bytes :=
  E.keccak (c E (I.map fun e => (toNibs e.1, e.2))).encode

end YP
end Pymt
