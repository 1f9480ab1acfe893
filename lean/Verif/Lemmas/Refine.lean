import Verif.Lemmas.Store
import Verif.Lemmas.TrieDelete

/-!
# Refinement: the model computes on abstract tries

References of tries, tries held by a storage, and: `getNode`, `storeNode`, `updateAux`, `deleteAux`
act as the functions on trees do.
-/

namespace Pymt
namespace T

/-! ### Encoding of tries -/

/-- The item by which a node is referred to: itself when short, otherwise its hash. -/
def wrap (E : Env) (x : Item) : Item :=
  if x.encode.length < 32 then x else .str (E.keccak x.encode)

/-- The RLP item of the top node of a trie. -/
def item (E : Env) : T → Item
  | empty => .str []
  | leaf p v => .list [.str (hp true p), .str v]
  | ext p c => .list [.str (hp false p), wrap E (item E c)]
  | branch cs v => .list ((List.finRange 16).map (fun i => wrap E (item E (cs i))) ++ [.str v])

/-- Encoding of the top node. -/
def enc (E : Env) (t : T) : Bytes := (item E t).encode

/-- The item that refers to a trie. -/
def refItem (E : Env) (t : T) : Item := wrap E (item E t)

/-- The reference to a trie, as a byte string. -/
def ref (E : Env) : T → Bytes
  | empty => []
  | t => if (enc E t).length < 32 then enc E t else E.keccak (enc E t)

/-- The references of the children of a branch. -/
def refs (E : Env) (cs : Nib → T) : List Bytes := (List.finRange 16).map (fun i => ref E (cs i))

theorem ref_of_ne {E : Env} {t : T} (h : t ≠ empty) :
    ref E t = if (enc E t).length < 32 then enc E t else E.keccak (enc E t) := by
  cases t <;> first | exact absurd rfl h | rfl

theorem item_list {E : Env} {t : T} (h : t ≠ empty) : ∃ l, item E t = .list l := by
  cases t <;> first | exact absurd rfl h | exact ⟨_, rfl⟩

theorem usage_refItem (E : Env) (t : T) : prepareForUsage (refItem E t) = ref E t := by
  by_cases h : t = empty
  · subst h
    have : (Item.encode (.str [])).length < 32 := by decide
    simp [refItem, wrap, item, ref, this, prepareForUsage]
  · obtain ⟨l, hl⟩ := item_list (E := E) h
    rw [ref_of_ne h, refItem, wrap]
    show prepareForUsage (if (enc E t).length < 32 then _ else _) = _
    split
    · rw [hl, prepareForUsage, ← hl]; rfl
    · rfl

theorem encoding_ref (E : Env) (t : T) : prepareForEncoding (ref E t) = .ok (refItem E t) := by
  by_cases h : t = empty
  · subst h
    have : (Item.encode (.str [])).length < 32 := by decide
    simp [refItem, wrap, item, ref, this, prepareForEncoding]
  · rw [ref_of_ne h, refItem, wrap]
    show prepareForEncoding (if _ then _ else _) = .ok (if (enc E t).length < 32 then _ else _)
    by_cases hl : (enc E t).length < 32
    · rw [if_pos hl, if_pos hl, prepareForEncoding,
        if_pos ⟨Item.encode_length_pos _, hl⟩]
      exact rlpDecode_encode _ (Nat.lt_of_lt_of_le hl (by decide))
    · rw [if_neg hl, if_neg hl, prepareForEncoding, if_neg]
      · rfl
      · rw [E.keccak_len]; omega

theorem prepareAll_map {α : Type} (l : List α) (f : α → Bytes) (g : α → Item)
    (h : ∀ a ∈ l, prepareForEncoding (f a) = .ok (g a)) : prepareAll (l.map f) = .ok (l.map g) := by
  induction l with
  | nil => rfl
  | cons a l ih =>
    simp only [List.map_cons, prepareAll, h a (by simp), Except.bind_ok',
      ih (fun b hb => h b (List.mem_cons_of_mem _ hb)), Except.pure_ok']

theorem ref_ne_nil {E : Env} {t : T} (h : t ≠ empty) : ref E t ≠ [] := by
  rw [ref_of_ne h]
  split
  · exact Item.encode_ne_nil _
  · intro e
    have := E.keccak_len (enc E t)
    rw [e] at this; simp at this

theorem ref_nil_iff {E : Env} {t : T} : ref E t = [] ↔ t = empty := by
  constructor
  · intro h; exact Classical.byContradiction fun hne => ref_ne_nil hne h
  · rintro rfl; rfl

theorem ref_length_le (E : Env) (t : T) : (ref E t).length ≤ 32 := by
  by_cases h : t = empty
  · subst h; simp [ref]
  · rw [ref_of_ne h]; split
    · omega
    · rw [E.keccak_len]; exact Nat.le_refl _

theorem ref_length_pos {E : Env} {t : T} : (ref E t).length > 0 ↔ t.isEmpty = false := by
  rw [gt_iff_lt, List.length_pos_iff]
  cases t <;> simp [isEmpty, ref_nil_iff]

/-! ### Nodes that stand for tries -/

/-- The model's node stands for the top node of a trie. -/
def Rep (E : Env) : T → Node → Prop
  | leaf p v, .leaf np d => np.WF ∧ np.nibs = p ∧ d = v
  | ext p c, .ext np r => np.WF ∧ np.nibs = p ∧ r = ref E c
  | branch cs v, .branch bs d => bs = refs E cs ∧ d = v
  | _, _ => False

theorem Rep.encode {E : Env} {t : T} {n : Node} (h : Rep E t n) : n.encode = .ok (enc E t) := by
  cases t <;> cases n <;> simp only [Rep] at h
  · obtain ⟨h1, rfl, rfl⟩ := h
    simp [Node.encode, NibblePath.encode_spec h1, enc, item]
  · obtain ⟨h1, rfl, rfl⟩ := h
    simp [Node.encode, NibblePath.encode_spec h1, encoding_ref, enc, item, refItem]
  · obtain ⟨rfl, rfl⟩ := h
    rw [Node.encode, refs, prepareAll_map _ _ (fun i => refItem _ _) (fun i _ => encoding_ref _ _)]
    simp [enc, item, refItem]

theorem Rep.ne_empty {E : Env} {t : T} {n : Node} (h : Rep E t n) : t ≠ empty := by
  rintro rfl; cases n <;> simp [Rep] at h

theorem Rep.intoReference {E : Env} {t : T} {n : Node} (h : Rep E t n) :
    n.intoReference E = .ok (ref E t) := by
  rw [Node.intoReference, h.encode, ref_of_ne h.ne_empty]
  simp only [Except.bind_ok', Except.pure_ok']
  split <;> rfl

theorem decode_enc {E : Env} {t : T} (hne : t ≠ empty) (h : (enc E t).length < 2 ^ 64) :
    ∃ n, Node.decode (enc E t) = .ok n ∧ Rep E t n := by
  have hd := rlpDecode_encode (item E t) h
  unfold Node.decode enc
  rw [hd]
  simp only [Except.bind_ok']
  cases t with
  | empty => exact absurd rfl hne
  | leaf p v =>
    obtain ⟨r, h1, h2, h3⟩ := NibblePath.decodeWithType_spec true p
    exact ⟨.leaf r v, by simp [item, h1, Node.asBytes], h2, h3, rfl⟩
  | ext p c =>
    obtain ⟨r, h1, h2, h3⟩ := NibblePath.decodeWithType_spec false p
    refine ⟨.ext r (prepareForUsage (wrap E (item E c))), ?_, h2, h3, ?_⟩
    · simp [item, h1]
    · exact usage_refItem E c
  | branch cs v =>
    refine ⟨.branch (refs E cs) v, ?_, rfl, rfl⟩
    have hl : ((List.finRange 16).map (fun i => wrap E (item E (cs i)))).length = 16 := by simp
    simp only [item, List.length_append, hl]
    simp only [List.length_cons, List.length_nil, Nat.reduceAdd, if_true]
    rw [List.getElem?_append_right (by rw [hl]; exact Nat.le_refl _), hl,
      List.take_append_of_le_length (by rw [hl]; exact Nat.le_refl _), List.take_of_length_le (by rw [hl]; exact Nat.le_refl _)]
    simp only [Nat.sub_self, List.getElem?_cons_zero, Node.asBytes, Except.bind_ok', Except.pure_ok',
      List.map_map]
    congr 2
    apply List.map_congr_left
    intro i _
    exact usage_refItem E (cs i)

theorem refs_get (E : Env) (cs : Nib → T) (i : Nib) : pyIndex (refs E cs) i.val = .ok (ref E (cs i)) := by
  have : (refs E cs)[i.val]? = some (ref E (cs i)) := by
    simp [refs]
  rw [pyIndex, this]

theorem refs_set (E : Env) (cs : Nib → T) (i : Nib) (c : T) :
    pySet (refs E cs) i.val (ref E c) = .ok (refs E (fset cs i c)) := by
  have hl : (refs E cs).length = 16 := by simp [refs]
  rw [pySet, if_pos (by rw [hl]; exact i.isLt)]
  congr 1
  apply List.ext_getElem
  · simp [refs]
  · intro k h1 h2
    simp only [refs, List.getElem_set, List.getElem_map, List.getElem_finRange, fset]
    have hk : k < 16 := by simpa [refs] using h2
    by_cases e : i.val = k
    · have : (⟨k, hk⟩ : Nib) = i := by ext; simp [e]
      simp [e, this]
    · have : (⟨k, hk⟩ : Nib) ≠ i := by
        intro h; apply e; rw [← h]
      simp [e, this]

theorem refs_replicate (E : Env) : List.replicate 16 [] = refs E (fun _ => empty) := by
  simp [refs, ref, List.map_const']

/-! ### Tries held by a storage -/

/-- The top node is short, or the storage has it. -/
def Here (E : Env) (kv : Dict Bytes) (t : T) : Prop :=
  (enc E t).length < 32 ∨ (dget kv (E.keccak (enc E t)) = some (enc E t) ∧ (enc E t).length < 2 ^ 64)

/-- All nodes of the trie are in the storage. -/
def Stored (E : Env) (kv : Dict Bytes) : T → Prop
  | empty => True
  | leaf p v => Here E kv (leaf p v)
  | ext p c => Here E kv (ext p c) ∧ Stored E kv c
  | branch cs v => Here E kv (branch cs v) ∧ ∀ i, Stored E kv (cs i)

theorem Stored.here {E : Env} {kv : Dict Bytes} {t : T} (h : Stored E kv t) (hne : t ≠ empty) :
    Here E kv t := by
  cases t with
  | empty => exact absurd rfl hne
  | leaf p v => exact h
  | ext p c => exact h.1
  | branch cs v => exact h.1

theorem Here.mono {E : Env} {kv kv' : Dict Bytes} {t : T}
    (hs : ∀ k v, dget kv k = some v → dget kv' k = some v) (h : Here E kv t) : Here E kv' t :=
  h.elim .inl fun h => .inr ⟨hs _ _ h.1, h.2⟩

theorem Stored.mono {E : Env} {kv kv' : Dict Bytes} {t : T}
    (hs : ∀ k v, dget kv k = some v → dget kv' k = some v) (h : Stored E kv t) : Stored E kv' t := by
  induction t with
  | empty => trivial
  | leaf p v => exact Here.mono hs h
  | ext p c ih => exact ⟨Here.mono hs h.1, ih h.2⟩
  | branch cs v ih => exact ⟨Here.mono hs h.1, fun i => ih i (h.2 i)⟩

theorem getNode_ref {E : Env} {kv : Dict Bytes} {t : T} (h : Stored E kv t) (hne : t ≠ empty) :
    ∃ n, MPT.getNode kv (ref E t) = .ok n ∧ Rep E t n := by
  have hh := h.here hne
  rw [ref_of_ne hne]
  unfold MPT.getNode
  by_cases hl : (enc E t).length < 32
  · rw [if_pos hl, if_neg (by omega)]
    obtain ⟨n, h1, h2⟩ := decode_enc hne (E := E) (by omega)
    exact ⟨n, by simpa using h1, h2⟩
  · rcases hh with hh | ⟨h1, h2⟩
    · exact absurd hh hl
    · rw [if_neg hl, if_pos (E.keccak_len _), dgetItem, h1]
      obtain ⟨n, h3, h4⟩ := decode_enc hne h2
      exact ⟨n, by simpa using h3, h4⟩

theorem getNodeM_ref {E : Env} {st : Store} {t : T} (h : Stored E st.kv t) (hne : t ≠ empty) :
    ∃ n, MPT.getNodeM (ref E t) st = (.ok n, st) ∧ Rep E t n := by
  obtain ⟨n, h1, h2⟩ := getNode_ref h hne
  exact ⟨n, by simp [MPT.getNodeM, h1], h2⟩

/-- State after storing the top node of a trie. -/
def put (E : Env) (st : Store) (t : T) : Store :=
  if (enc E t).length < 32 then st else st.set (E.keccak (enc E t)) (enc E t)

theorem storeNode_run {E : Env} {t : T} {n : Node} (h : Rep E t n) (st : Store) :
    MPT.storeNode E n st = (.ok (ref E t), put E st t) := by
  unfold MPT.storeNode put
  rw [h.intoReference, ref_of_ne h.ne_empty, h.encode]
  by_cases hl : (enc E t).length < 32
  · have : (enc E t).length ≠ 32 := by omega
    simp [hl, this]
  · simp [hl, E.keccak_len]

theorem put_eq_replay (E : Env) (st : Store) (t : T) : ∃ ws, put E st t = replay E ws st := by
  unfold put; split
  · exact ⟨[], rfl⟩
  · exact ⟨[_], rfl⟩

/-- A run of writes from a good state without collisions. -/
structure Step (E : Env) (st st' : Store) : Prop where
  good : Good E st'
  log : LogOk E st.written
  keep : ∀ k v, dget st.kv k = some v → dget st'.kv k = some v

theorem Step.stored {E : Env} {st st' : Store} (h : Step E st st') {t : T} (hs : Stored E st.kv t) :
    Stored E st'.kv t := hs.mono h.keep

theorem step_replay {E : Env} {st st' : Store} (hg : Good E st) (hl : LogOk E st'.written)
    (h : ∃ ws, st' = replay E ws st) : Step E st st' := by
  obtain ⟨ws, rfl⟩ := h
  rw [replay_written] at hl
  exact {
    good := hg.replay ws
    log := hl.mono (fun a ha => List.mem_append_left _ ha)
    keep := fun k v hk => dget_replay hg (hl.coll.mono (fun a ha => List.mem_cons_of_mem _ ha)) hk }

theorem step_put {E : Env} {st : Store} {t : T} (hg : Good E st) (hl : LogOk E (put E st t).written) :
    Step E st (put E st t) := step_replay hg hl (put_eq_replay E st t)

theorem step_writes {E : Env} {α : Type} {m : M Store α} (hm : Writes E m) {st st' : Store} {r : Py α}
    (hrun : m st = (r, st')) (hg : Good E st) (hl : LogOk E st'.written) : Step E st st' := by
  refine step_replay hg hl ?_
  obtain ⟨ws, hw⟩ := hm st
  exact ⟨ws, by rw [← hw, hrun]⟩

theorem here_put {E : Env} {st : Store} {t : T} (hl : LogOk E (put E st t).written) :
    Here E (put E st t).kv t := by
  unfold put at *
  by_cases h : (enc E t).length < 32
  · exact .inl h
  · rw [if_neg h] at hl ⊢
    refine .inr ⟨by simp [Store.set, dget_dset], hl.size _ (by simp [Store.set])⟩

theorem stored_put {E : Env} {st : Store} {t : T} (hg : Good E st) (hl : LogOk E (put E st t).written)
    (hc : match t with
      | ext _ c => Stored E st.kv c
      | branch cs _ => ∀ i, Stored E st.kv (cs i)
      | _ => True) : Stored E (put E st t).kv t := by
  have hs := step_put hg hl
  have hh := here_put hl
  cases t with
  | empty => trivial
  | leaf p v => exact hh
  | ext p c => exact ⟨hh, hs.stored hc⟩
  | branch cs v => exact ⟨hh, fun i => hs.stored (hc i)⟩

theorem ref_ne_emptyHash {E : Env} {st : Store} {t : T} (hg : Good E st) (hl : LogOk E st.written)
    (hs : Stored E st.kv t) (hne : t ≠ empty) : ref E t ≠ emptyHash E := by
  intro h
  rw [ref_of_ne hne] at h
  by_cases hlt : (enc E t).length < 32
  · rw [if_pos hlt] at h
    have := E.keccak_len (Item.encode (.str []))
    rw [← emptyHash, ← h] at this
    omega
  · rw [if_neg hlt] at h
    rcases hs.here hne with hh | ⟨h1, _⟩
    · exact hlt hh
    · obtain ⟨_, hw⟩ := hg _ _ h1
      have := hl.coll (enc E t) (List.mem_cons_of_mem _ hw) _ List.mem_cons_self h
      rw [this] at hlt
      exact hlt (by decide)

end T
end Pymt
