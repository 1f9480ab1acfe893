import Verif.Spec.EmptCrash
import Verif.Props.Storage
import Verif.Props.Empt

/-!
# Lemmas about crashes inside calls on an `EMPT`
-/

namespace Pymt
namespace EMPT

/-- What `get` answers, from what the two storages hold. -/
theorem get_of {E : Env} {s : EMPT} {m : Contents} (h : Inv E s.trie m) {k : Bytes} {v : Value}
    (hf : Fits E s.trie.secure k) (hm : m (s.trie.keyOf E k) = some (refOf E k v))
    (hd : DataRef.decode E (refOf E k v) = .ok ⟨k, v.payload⟩) :
    (dget s.data k = none → s.get E k = .error .keyError) ∧
    (∀ w, w.storable = true → dget s.data k = some w → s.get E k =
      if E.keccak (k ++ v.payload) = E.keccak (k ++ w.payload) then .ok w else .error .invalidReference) := by
  refine ⟨fun hn => ?_, fun w hs hw => ?_⟩
  · unfold EMPT.get dgetItem
    rw [hn]
    rfl
  · unfold EMPT.get dgetItem
    rw [hw, h.get_some hf hm]
    simp only [Except.bind_ok']
    rw [hd, Props.ofValue_storable hs]
    simp only [Except.bind_ok']
    by_cases he : E.keccak (k ++ v.payload) = E.keccak (k ++ w.payload)
    · rw [if_pos he, (DataRef.eq_iff E _ _).2 he]
      rfl
    · rw [if_neg he]
      have : (⟨k, v.payload⟩ : DataRef).eq E ⟨k, w.payload⟩ = false := by
        rw [Bool.eq_false_iff]
        exact fun hb => he ((DataRef.eq_iff E _ _).1 hb)
      rw [this]
      rfl

theorem foldl_onTrie (E : Env) (l : List EWrite) (st : Store) :
    ∃ ws, l.foldl (EWrite.onTrie E) st = replay E ws st ∧ ∀ w ∈ ws, EWrite.node w ∈ l := by
  induction l generalizing st with
  | nil => exact ⟨[], rfl, by simp⟩
  | cons x l ih =>
    obtain ⟨ws, h1, h2⟩ := ih (EWrite.onTrie E st x)
    cases x with
    | node w =>
      refine ⟨w :: ws, by rw [List.foldl_cons, h1]; rfl, fun y hy => ?_⟩
      rcases List.mem_cons.1 hy with rfl | hy
      · simp
      · exact List.mem_cons_of_mem _ (h2 y hy)
    | put k v => exact ⟨ws, by rw [List.foldl_cons, h1]; rfl, fun y hy => List.mem_cons_of_mem _ (h2 y hy)⟩
    | drop k => exact ⟨ws, by rw [List.foldl_cons, h1]; rfl, fun y hy => List.mem_cons_of_mem _ (h2 y hy)⟩

theorem foldl_nodes (E : Env) (ws : List Bytes) (st : Store) :
    (ws.map EWrite.node).foldl (EWrite.onTrie E) st = replay E ws st := by
  induction ws generalizing st with
  | nil => rfl
  | cons w ws ih => rw [List.map_cons, List.foldl_cons, ih]; rfl

theorem foldl_data {l : List EWrite} (h : ∀ x ∈ l, ∃ w, x = .node w) (d : Dict Value) :
    l.foldl EWrite.onData d = d := by
  induction l with
  | nil => rfl
  | cons x l ih =>
    obtain ⟨w, rfl⟩ := h x (by simp)
    exact ih fun y hy => h y (List.mem_cons_of_mem _ hy)

theorem nodesOf_node (E : Env) (op : EOp) (s : EMPT) : ∀ x ∈ nodesOf E op s, ∃ w, x = .node w := by
  intro x hx
  obtain ⟨w, _, rfl⟩ := List.mem_map.1 hx
  exact ⟨w, rfl⟩

theorem exec_store (E : Env) (op : EOp) (s : EMPT) :
    ∃ ws, (exec E op s).2.trie.store = replay E ws s.trie.store := by
  obtain ⟨ops, h⟩ := exec_trie E op s
  rw [h]
  exact run_writes E ops _

theorem mem_writesOf {E : Env} {op : EOp} {s : EMPT} {w : Bytes} (h : EWrite.node w ∈ writesOf E op s) :
    w ∈ (exec E op s).2.trie.store.written := by
  have key : EWrite.node w ∈ nodesOf E op s := by
    cases op with
    | update k v =>
      simp only [writesOf, List.mem_append] at h
      rcases h with h | h
      · exact h
      · split at h <;> simp at h
    | delete k =>
      simp only [writesOf, List.mem_append] at h
      rcases h with h | h
      · split at h <;> simp at h
      · exact h
  obtain ⟨w', hw, he⟩ := List.mem_map.1 key
  cases he
  exact List.mem_of_mem_drop hw

theorem crashedTrie_replay (E : Env) (op : EOp) (s : EMPT) (n : Nat) :
    ∃ ws, crashedTrie E op s n = replay E ws s.trie.store :=
  let ⟨ws, h, _⟩ := foldl_onTrie E ((writesOf E op s).take n) s.trie.store
  ⟨ws, h⟩

theorem crashedTrie_log {E : Env} {op : EOp} {s : EMPT} {n : Nat}
    (hl : LogOk E (exec E op s).2.trie.store.written) : LogOk E (crashedTrie E op s n).written := by
  obtain ⟨ws, h, hm⟩ := foldl_onTrie E ((writesOf E op s).take n) s.trie.store
  unfold crashedTrie
  rw [h, replay_written]
  obtain ⟨ws', h'⟩ := exec_store E op s
  refine hl.mono fun a ha => ?_
  rcases List.mem_append.1 ha with ha | ha
  · rw [h', replay_written]
    exact List.mem_append_left _ ha
  · exact mem_writesOf (List.mem_of_mem_take (hm a ha))

/-- After all its writes, a call leaves the trie storage as it does when it returns. -/
theorem crashedTrie_all (E : Env) (op : EOp) (s : EMPT) :
    crashedTrie E op s (writesOf E op s).length = (exec E op s).2.trie.store := by
  obtain ⟨ws, h⟩ := exec_store E op s
  have hn : nodesOf E op s = ws.map .node := by
    unfold nodesOf
    rw [h, replay_written, List.drop_left]
  unfold crashedTrie
  rw [List.take_length, h]
  cases op with
  | update k v =>
    simp only [writesOf, hn, List.foldl_append, foldl_nodes]
    split <;> rfl
  | delete k =>
    simp only [writesOf, hn, List.foldl_append]
    split <;> exact foldl_nodes E ws _

/-- The data storage at a crash inside `update`. -/
theorem crashedData_update (E : Env) (k : Bytes) (v : Value) (s : EMPT) (n : Nat) :
    crashedData E (.update k v) s n =
      if (exec E (.update k v) s).1 = .ok () ∧ (nodesOf E (.update k v) s).length < n then dset s.data k v
      else s.data := by
  unfold crashedData
  simp only [writesOf, List.take_append, List.foldl_append]
  rw [foldl_data (fun x hx => nodesOf_node E _ s x (List.mem_of_mem_take hx))]
  by_cases h1 : (exec E (.update k v) s).1 = .ok ()
  · rw [if_pos h1]
    by_cases h2 : (nodesOf E (.update k v) s).length < n
    · rw [if_pos ⟨h1, h2⟩, List.take_of_length_le (by simp; omega)]
      rfl
    · rw [if_neg (fun h => h2 h.2), show n - (nodesOf E (.update k v) s).length = 0 by omega]
      rfl
  · rw [if_neg h1, if_neg (fun h => h1 h.1)]
    simp

/-- The data storage at a crash inside `delete`. -/
theorem crashedData_delete (E : Env) (k : Bytes) (s : EMPT) (n : Nat) :
    crashedData E (.delete k) s n =
      if (s.trie.contains E k = .ok true ∧ dget s.data k ≠ none) ∧ 0 < n then ddel s.data k
      else s.data := by
  unfold crashedData
  simp only [writesOf, List.take_append, List.foldl_append]
  rw [foldl_data (l := List.take _ (nodesOf E _ s))
    (fun x hx => nodesOf_node E _ s x (List.mem_of_mem_take hx))]
  by_cases h1 : s.trie.contains E k = .ok true ∧ dget s.data k ≠ none
  · rw [if_pos h1]
    by_cases h2 : 0 < n
    · rw [if_pos ⟨h1, h2⟩, List.take_of_length_le (by simp; omega)]
      rfl
    · rw [if_neg (fun h => h2 h.2), show n = 0 by omega]
      rfl
  · rw [if_neg h1, if_neg (fun h => h1 h.1)]
    simp

end EMPT
end Pymt
