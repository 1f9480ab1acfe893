import Verif.Spec.Depth
import Verif.Lemmas.Closed
import Verif.Lemmas.Bytes

/-!
# How deep the nodes of a trie nest
-/

namespace Pymt

theorem Item.depthList_le {l : List Item} {d : Nat} (h : ∀ x ∈ l, x.depth ≤ d) : Item.depthList l ≤ d := by
  induction l with
  | nil => simp [Item.depthList]
  | cons x l ih =>
    rw [Item.depthList]
    exact Nat.max_le.2 ⟨h x (by simp), ih fun y hy => h y (List.mem_cons_of_mem _ hy)⟩

mutual
/-- Each level of nesting costs a byte. -/
theorem Item.depth_le_length : (x : Item) → x.depth ≤ x.encode.length
  | .str b => by simp [Item.depth]
  | .list l => by
    have h1 := Item.depthList_le_length l
    have h2 : 1 ≤ (lenPrefix 192 (Item.encodeList l).length).length := by
      unfold lenPrefix; split <;> simp
    rw [Item.depth, Item.encode, List.length_append]
    omega
theorem Item.depthList_le_length : (l : List Item) → Item.depthList l ≤ (Item.encodeList l).length
  | [] => by simp [Item.depthList]
  | x :: l => by
    have h1 := Item.depth_le_length x
    have h2 := Item.depthList_le_length l
    rw [Item.depthList, Item.encodeList, List.length_append]
    omega
end

theorem usage_depth {x : Item} {d : Nat} (h : (prepareForUsage x).length ≤ d) : x.depth ≤ d := by
  cases x with
  | str b => simp [Item.depth]
  | list l => exact Nat.le_trans (Item.depth_le_length _) h

theorem asBytes_depth {x : Item} {v : Bytes} (h : Node.asBytes x = .ok v) : x.depth = 0 := by
  cases x with
  | str b => simp [Item.depth]
  | list l => simp [Node.asBytes] at h

/-- A node nests one level deeper than its longest reference has bytes. -/
theorem decode_depth {raw : Bytes} {n : Node} {d : Nat} (h : Node.decode raw = .ok n)
    (hr : ∀ r ∈ n.refs, r.length ≤ d) : ∃ x, rlpDecode raw = .ok x ∧ x.depth ≤ d + 1 := by
  cases hi : rlpDecode raw with
  | error e => unfold Node.decode at h; rw [hi] at h; simp at h
  | ok x =>
    refine ⟨x, rfl, ?_⟩
    cases x with
    | str b => simp [Item.depth]
    | list l =>
      rw [Item.depth]
      refine Nat.succ_le_succ (Item.depthList_le ?_)
      unfold Node.decode at h
      rw [hi] at h
      simp only [Except.bind_ok'] at h
      split at h
      · rename_i h17
        split at h
        · rename_i y hy
          cases hv : Node.asBytes y with
          | error e => rw [hv] at h; simp at h
          | ok v =>
            rw [hv] at h
            simp only [Except.bind_ok', Except.pure_ok', Except.ok.injEq] at h
            subst h
            intro x hx
            obtain ⟨i, hi, rfl⟩ := List.mem_iff_getElem.1 hx
            by_cases h16 : i = 16
            · subst h16
              rw [List.getElem?_eq_getElem hi] at hy
              injection hy with hy
              rw [hy, asBytes_depth hv]
              exact Nat.zero_le _
            · refine usage_depth (hr _ ?_)
              simp only [Node.refs, List.mem_map]
              exact ⟨l[i], by rw [List.mem_take_iff_getElem]; exact ⟨i, by omega, rfl⟩, rfl⟩
        · simp at h
      · split at h
        · rename_i p y _
          split at h
          · simp at h
          · simp at h
          · rename_i pb _
            cases hp : NibblePath.decodeWithType pb with
            | error e => rw [hp] at h; simp at h
            | ok q =>
              obtain ⟨path, isLeaf⟩ := q
              rw [hp] at h
              simp only [Except.bind_ok'] at h
              intro x hx
              simp only [List.mem_cons, List.not_mem_nil, or_false] at hx
              rcases hx with rfl | rfl
              · simp [Item.depth]
              split at h
              · cases hv : Node.asBytes x with
                | error e => rw [hv] at h; simp at h
                | ok v => rw [asBytes_depth hv]; exact Nat.zero_le _
              · simp only [Except.pure_ok', Except.ok.injEq] at h
                subst h
                exact usage_depth (hr _ (by simp [Node.refs]))
        · simp at h

namespace T

theorem wrap_depth (E : Env) (x : Item) : (wrap E x).depth ≤ 31 := by
  unfold wrap
  split
  · exact Nat.le_trans (Item.depth_le_length x) (by omega)
  · simp [Item.depth]

theorem item_depth (E : Env) (t : T) : (item E t).depth ≤ 32 := by
  cases t with
  | empty => simp [item, Item.depth]
  | leaf p v => simp [item, Item.depth, Item.depthList]
  | ext p c =>
    rw [item, Item.depth]
    refine Nat.succ_le_succ (Item.depthList_le fun x hx => ?_)
    simp only [List.mem_cons, List.not_mem_nil, or_false] at hx
    rcases hx with rfl | rfl
    · simp [Item.depth]
    · exact wrap_depth _ _
  | branch cs v =>
    rw [item, Item.depth]
    refine Nat.succ_le_succ (Item.depthList_le fun x hx => ?_)
    rcases List.mem_append.1 hx with hx | hx
    · obtain ⟨i, _, rfl⟩ := List.mem_map.1 hx
      exact wrap_depth _ _
    · rw [List.mem_singleton.1 hx]; simp [Item.depth]

end T

/-- `n` lists inside each other. -/
def nested : Nat → Item
  | 0 => .list []
  | n + 1 => .list [nested n]

theorem nested_depth (n : Nat) : (nested n).depth = n + 1 := by
  induction n with
  | zero => simp [nested, Item.depth, Item.depthList]
  | succ n ih => simp [nested, Item.depth, Item.depthList, ih]

end Pymt
