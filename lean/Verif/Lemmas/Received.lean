import Verif.Spec.Received
import Verif.Lemmas.Collect
import Verif.Lemmas.Dict

/-!
# Two roots for one root node

A root is the hash of the root node, or the node itself when it is short.  An object that was given the other form
(`Twin`) behaves alike.
-/

namespace Pymt

/-! ### Another reference to the same node -/

structure Doubles (E : Env) (u : MPT) (r r' : Bytes) : Prop where
  root : u.root = some r
  node : MPT.getNode u.store.kv r' = MPT.getNode u.store.kv r
  nil : r ≠ []
  nil' : r' ≠ []
  empty : r ≠ emptyHash E
  empty' : r' ≠ emptyHash E

namespace Doubles
variable {E : Env} {u : MPT} {r r' : Bytes}

theorem get (h : Doubles E u r r') (k : Bytes) : ({ u with root := some r' } : MPT).get E k = u.get E k := by
  unfold MPT.get MPT.rootFalsy MPT.keyOf
  simp only [h.root, Option.getD_some]
  rw [beq_eq_false_iff_ne.2 h.nil, beq_eq_false_iff_ne.2 h.nil']
  cases E.limit with
  | zero => rfl
  | succ f => simp only [MPT.getAux, h.node]

theorem noRoot (h : Doubles E u r r') : u.noRoot E = false := by
  unfold MPT.noRoot
  rw [h.root]
  simp [h.empty]

theorem noRoot' (h : Doubles E u r r') : ({ u with root := some r' } : MPT).noRoot E = false := by
  unfold MPT.noRoot
  simp [h.empty']

theorem contains (h : Doubles E u r r') (k : Bytes) :
    ({ u with root := some r' } : MPT).contains E k = u.contains E k := by
  unfold MPT.contains
  rw [h.noRoot, h.noRoot']
  unfold MPT.rootFalsy MPT.keyOf
  simp only [h.root, Option.getD_some]
  rw [beq_eq_false_iff_ne.2 h.nil, beq_eq_false_iff_ne.2 h.nil']
  cases E.limit with
  | zero => rfl
  | succ f => simp only [MPT.containsAux, h.node]

theorem update (h : Doubles E u r r') (f : Nat) (path : NibblePath) (v : Bytes) :
    MPT.updateAux E f r' path v u.store = MPT.updateAux E f r path v u.store := by
  cases f with
  | zero => rfl
  | succ f =>
    unfold MPT.updateAux
    rw [if_neg (by simp [h.nil', h.empty']), if_neg (by simp [h.nil, h.empty])]
    have : MPT.getNodeM r' u.store = MPT.getNodeM r u.store := by
      unfold MPT.getNodeM
      simp only [M.bind_apply, M.get_apply, M.lift_apply, h.node]
    simp only [M.bind_apply, this]

theorem delete (h : Doubles E u r r') (f : Nat) (path : NibblePath) :
    MPT.deleteAux E f r' path u.store = MPT.deleteAux E f r path u.store := by
  cases f with
  | zero => rfl
  | succ f =>
    unfold MPT.deleteAux
    have : MPT.getNodeM r' u.store = MPT.getNodeM r u.store := by
      unfold MPT.getNodeM
      simp only [M.bind_apply, M.get_apply, M.lift_apply, h.node]
    simp only [M.bind_apply, this]

theorem exec (h : Doubles E u r r') (op : Op) :
    (MPT.exec E op { u with root := some r' }).1 = (MPT.exec E op u).1 ∧
    ((MPT.exec E op u).1 = .ok () → (MPT.exec E op { u with root := some r' }).2 = (MPT.exec E op u).2) ∧
    (MPT.exec E op { u with root := some r' }).2.store = (MPT.exec E op u).2.store := by
  cases op with
  | update k v =>
    simp only [MPT.exec]
    rw [T.update_eq, T.update_eq]
    rw [show ({ u with root := some r' } : MPT).root.getD [] = r' from rfl, show u.root.getD [] = r by rw [h.root]; rfl,
      show ({ u with root := some r' } : MPT).keyOf E k = u.keyOf E k from rfl]
    rw [show ({ u with root := some r' } : MPT).store = u.store from rfl, h.update]
    cases MPT.updateAux E E.limit r ⟨u.keyOf E k, 0⟩ v u.store with
    | mk x s => cases x <;> simp
  | delete k =>
    simp only [MPT.exec]
    rw [T.delete_eq, T.delete_eq, h.noRoot, h.noRoot']
    rw [show ({ u with root := some r' } : MPT).root.getD [] = r' from rfl, show u.root.getD [] = r by rw [h.root]; rfl,
      show ({ u with root := some r' } : MPT).keyOf E k = u.keyOf E k from rfl]
    rw [show ({ u with root := some r' } : MPT).store = u.store from rfl, h.delete]
    cases MPT.deleteAux E E.limit r ⟨u.keyOf E k, 0⟩ u.store with
    | mk x s =>
      cases x with
      | error e => simp
      | ok d => cases d <;> simp

end Doubles

/-! ### Twins -/

/-- `t'` has another reference to the root node `enc a` of `t`, and entries that agree. -/
structure Twin (E : Env) (t' t : MPT) (a : T) (r' : Bytes) : Prop where
  root' : t'.root = some r'
  secure : t'.secure = t.secure
  agree : Agree t'.store.kv (dset t.store.kv (E.keccak (T.enc E a)) (T.enc E a))
  node : r' = E.keccak (T.enc E a) ∨ r' = T.enc E a ∧ (T.enc E a).length ≠ 32
  hash : E.keccak (T.enc E a) ≠ emptyHash E
  log : LogOk E (t.store.written ++ [T.enc E a])

/-- The trie with its root node in the storage even if it is short. -/
def MPT.plus (E : Env) (t : MPT) (e : Bytes) : MPT := { t with store := t.store.set (E.keccak e) e }

namespace Twin
variable {E : Env} {t' t : MPT} {a : T} {r' : Bytes}

theorem bears (h : Twin E t' t a r') (hb : Bears E t a) : Bears E (t.plus E (T.enc E a)) a :=
  ⟨hb.holds.withStore ⟨[T.enc E a], rfl⟩ h.log, hb.full⟩

theorem under (h : Twin E t' t a r') (hb : Bears E t a) : Under t (t.plus E (T.enc E a)) := by
  refine ⟨rfl, rfl, fun k v hk => ?_, fun x hx => List.mem_append_left _ hx⟩
  simp only [MPT.plus, Store.set, dget_dset]
  split
  · rename_i e
    obtain ⟨e1, e2⟩ := hb.holds.good k v hk
    congr 1
    exact h.log.coll _ (by simp) _ (List.mem_cons_of_mem _ (List.mem_append_left _ e2)) (e.trans e1)
  · exact hk

theorem getNode_self {q : Bytes} (hq : q = E.keccak (T.enc E a) ∨ q = T.enc E a ∧ (T.enc E a).length ≠ 32) :
    MPT.getNode (t.plus E (T.enc E a)).store.kv q = Node.decode (T.enc E a) := by
  unfold MPT.getNode
  rcases hq with rfl | ⟨rfl, hn⟩
  · rw [if_pos (E.keccak_len _)]
    simp [MPT.plus, Store.set, dget_dset, dgetItem]
  · rw [if_neg hn]; rfl

theorem doubles (h : Twin E t' t a r') (hb : Bears E t a) (hne : a ≠ .empty) :
    Doubles E (t.plus E (T.enc E a)) (T.ref E a) r' := by
  have hroot : t.root = some (T.ref E a) := by
    rcases hb.holds.root with ⟨e, _⟩ | ⟨_, e⟩
    · exact absurd e hne
    · exact e
  have hr : T.ref E a = E.keccak (T.enc E a) ∨ T.ref E a = T.enc E a ∧ (T.enc E a).length ≠ 32 := by
    rw [T.ref_of_ne hne]
    split
    · exact .inr ⟨rfl, by omega⟩
    · exact .inl rfl
  have nil : ∀ q, (q = E.keccak (T.enc E a) ∨ q = T.enc E a ∧ (T.enc E a).length ≠ 32) → q ≠ [] := by
    rintro q (rfl | ⟨rfl, -⟩)
    · intro e
      have := E.keccak_len (T.enc E a)
      rw [e] at this
      simp at this
    · exact Item.encode_ne_nil _
  have emp : ∀ q, (q = E.keccak (T.enc E a) ∨ q = T.enc E a ∧ (T.enc E a).length ≠ 32) → q ≠ emptyHash E := by
    rintro q (rfl | ⟨rfl, hn⟩)
    · exact h.hash
    · intro e
      rw [e] at hn
      exact hn (E.keccak_len _)
  exact ⟨hroot, (getNode_self h.node).trans (getNode_self hr).symm, nil _ hr, nil _ h.node, emp _ hr, emp _ h.node⟩

theorem alike (h : Twin E t' t a r') : Alike t' { t.plus E (T.enc E a) with root := some r' } :=
  ⟨h.root', h.secure, h.agree⟩

theorem get (h : Twin E t' t a r') (hb : Bears E t a) (hne : a ≠ .empty) {k : Bytes} (hf : Fits E t.secure k) :
    t'.get E k = .error .keyError ∨ t'.get E k = t.get E k := by
  have hb1 := h.bears hb
  have e : (t.plus E (T.enc E a)).get E k = t.get E k := by
    rw [hb1.holds.get hne (fits_nibs hf), hb.holds.get hne (fits_nibs hf)]; rfl
  have hd := h.doubles hb hne
  rcases h.alike.get (E := E) k with g | g | g
  · exact .inl g
  · rw [hd.get] at g
    exact absurd g ((hb1.holds.never_key h.log (k := k) (fits_nibs hf)).1 hne)
  · rw [hd.get, e] at g
    exact .inr g

theorem contains (h : Twin E t' t a r') (hb : Bears E t a) (hne : a ≠ .empty) (hl : LogOk E t.store.written) {k : Bytes}
    (hf : Fits E t.secure k) : t'.contains E k = .error .keyError ∨ t'.contains E k = t.contains E k := by
  have hb1 := h.bears hb
  have e : (t.plus E (T.enc E a)).contains E k = t.contains E k := by
    rw [hb1.holds.contains h.log (fits_nibs hf), hb.holds.contains hl (fits_nibs hf)]; rfl
  have hd := h.doubles hb hne
  rcases h.alike.contains (E := E) k with g | g | g
  · exact .inl g
  · rw [hd.contains] at g
    exact absurd g (hb1.holds.never_key h.log (k := k) (fits_nibs hf)).2.1
  · rw [hd.contains, e] at g
    exact .inr g

theorem exec (h : Twin E t' t a r') (hb : Bears E t a) (hne : a ≠ .empty) {op : Op} (hf : Fits E t.secure op.key)
    (hl : LogOk E (MPT.exec E op t).2.store.written) :
    (MPT.exec E op t').1 = .error .keyError ∨
    ((MPT.exec E op t').1 = (MPT.exec E op t).1 ∧
      (Alike (MPT.exec E op t').2 (MPT.exec E op t).2 ∨
        (MPT.exec E op t).2 = t ∧ Twin E (MPT.exec E op t').2 t a r')) := by
  have hb1 := h.bears hb
  have hd := h.doubles hb hne
  have hl0 := log_of_replay (exec_writes E op t) hl
  obtain ⟨d1, d2, d3⟩ := hd.exec op
  obtain ⟨-, u⟩ := (h.under hb).exec (E := E) op
  rcases u with u | ⟨u1, u2⟩
  · exact absurd u (hb.never_key hf hl)
  rcases h.alike.exec (E := E) op with g | g | ⟨g1, g2⟩
  · exact .inl g
  · rw [d1, ← u1] at g
    exact absurd g (hb.never_key hf hl)
  refine .inr ⟨by rw [g1, d1, u1], ?_⟩
  cases ho : (MPT.exec E op t).1 with
  | ok x =>
    left
    rw [d2 (by rw [← u1, ho])] at g2
    exact ⟨g2.root.trans u2.root.symm, g2.secure.trans u2.secure.symm,
      fun k v w hv hw => g2.agree k v w hv (u2.sub k w hw)⟩
  | error e =>
    right
    -- only a delete can fail, and it fails because the key is not there
    have hdel : ∃ k x, op = .delete k ∧ T.remove a (toNibs (t.keyOf E k)) = .error x := by
      cases op with
      | update k v =>
        have : (MPT.exec E (.update k v) t).1 = .ok () :=
          (hb.holds.update (key := k) (v := v) (fits_nibs hf) rfl hl).1
        rw [this] at ho
        simp at ho
      | delete k =>
        cases hlk : T.lookup a (toNibs (t.keyOf E k)) with
        | none =>
          obtain ⟨x, hx, _⟩ := hb.full.remove_none hne hlk
          exact ⟨k, x, rfl, hx⟩
        | some w =>
          obtain ⟨d, hr, -⟩ := hb.full.remove_some hlk
          have hdd := hb.holds.delete (key := k) hne (fits_nibs hf) rfl hl
          rw [hr] at hdd
          have : (MPT.exec E (.delete k) t).1 = .ok () := hdd.1
          rw [this] at ho
          simp at ho
    obtain ⟨k, x, rfl, hx⟩ := hdel
    have s1 : (MPT.exec E (.delete k) t).2 = t := by
      simp only [MPT.exec]
      rw [hb.holds.delete_fail (key := k) hne hl0 (fits_nibs hf) hx]
    have s2 : (MPT.exec E (.delete k) (t.plus E (T.enc E a))).2 = t.plus E (T.enc E a) := by
      simp only [MPT.exec]
      rw [hb1.holds.delete_fail (key := k) hne h.log (fits_nibs hf) hx]
    refine ⟨s1, ?_, (exec_secure E _ t').trans h.secure, ?_, h.node, h.hash, h.log⟩
    · have : (MPT.exec E (.delete k) t').1 = .error e := by rw [g1, d1, ← u1, ho]
      rw [exec_error_root this, h.root']
    · have := g2.agree
      rw [d3, s2] at this
      exact this

theorem rootHash (h : Twin E t' t a r') (hb : Bears E t a) : t'.rootHash E = t.rootHash E := by
  rw [hb.holds.rootHash]
  unfold MPT.rootHash
  rw [h.root', Option.getD_some]
  simp only
  have hn : r' ≠ [] := by
    rcases h.node with rfl | ⟨rfl, -⟩
    · intro e
      have := E.keccak_len (T.enc E a)
      rw [e] at this
      simp at this
    · exact Item.encode_ne_nil _
  rw [if_neg hn]
  rcases h.node with rfl | ⟨rfl, h32⟩
  · rw [if_pos (E.keccak_len _)]
  · rw [if_neg h32]

end Twin

/-- Whole histories. -/
theorem alike_runs {E : Env} {t t' : MPT} {a : T} {ops : List Op} (h : Bears E t a)
    (hf : ∀ op ∈ ops, Fits E t.secure op.key) (hl : LogOk E (MPT.run E ops t).store.written) (ha : Alike t' t) :
    Except.error Err.keyError ∈ outcomes E ops t' ∨
    (outcomes E ops t' = outcomes E ops t ∧ Alike (MPT.run E ops t') (MPT.run E ops t)) := by
  induction ops generalizing t t' a with
  | nil => exact .inr ⟨rfl, ha⟩
  | cons op rest ih =>
    have hl1 : LogOk E (MPT.exec E op t).2.store.written := log_of_replay (run_writes E rest _) hl
    have hsec := exec_secure E op t
    rcases ha.exec (E := E) op with hk | hk | ⟨hk, ha'⟩
    · exact .inl (by simp [outcomes, hk])
    · exact absurd hk (h.never_key (hf op (by simp)) hl1)
    · rcases ih (h.exec (hf op (by simp)) hl1)
        (fun o ho => by rw [hsec]; exact hf o (List.mem_cons_of_mem _ ho)) hl ha' with hr | ⟨hr, hr'⟩
      · exact .inl (List.mem_cons_of_mem _ hr)
      · exact .inr ⟨by simp only [outcomes, hk, hr], hr'⟩

theorem Twin.run {E : Env} {t t' : MPT} {a : T} {r' : Bytes} {ops : List Op} (h : Twin E t' t a r') (hb : Bears E t a)
    (hne : a ≠ .empty) (hf : ∀ op ∈ ops, Fits E t.secure op.key) (hl : LogOk E (MPT.run E ops t).store.written) :
    Except.error Err.keyError ∈ outcomes E ops t' ∨
    (outcomes E ops t' = outcomes E ops t ∧
      (Alike (MPT.run E ops t') (MPT.run E ops t) ∨ MPT.run E ops t = t ∧ Twin E (MPT.run E ops t') t a r')) := by
  induction ops generalizing t' with
  | nil => exact .inr ⟨rfl, .inr ⟨rfl, h⟩⟩
  | cons op rest ih =>
    have hl1 : LogOk E (MPT.exec E op t).2.store.written := log_of_replay (run_writes E rest _) hl
    have hsec := exec_secure E op t
    rcases h.exec hb hne (hf op (by simp)) hl1 with hk | ⟨hk, ha | ⟨ht, h'⟩⟩
    · exact .inl (by simp [outcomes, hk])
    · rcases alike_runs (hb.exec (hf op (by simp)) hl1)
        (fun o ho => by rw [hsec]; exact hf o (List.mem_cons_of_mem _ ho)) hl ha with hr | ⟨hr, hr'⟩
      · exact .inl (List.mem_cons_of_mem _ hr)
      · exact .inr ⟨by simp only [outcomes, hk, hr], .inl hr'⟩
    · have e : MPT.run E (op :: rest) t = MPT.run E rest t := by
        show MPT.run E rest (MPT.exec E op t).2 = _
        rw [ht]
      rw [e] at hl ⊢
      rcases ih h' (fun o ho => hf o (List.mem_cons_of_mem _ ho)) hl with hr | ⟨hr, hr'⟩
      · exact .inl (List.mem_cons_of_mem _ hr)
      · exact .inr ⟨by simp only [outcomes, hk, hr, ht], hr'⟩

/-! ### Received tries -/

/-- The root of a decoded trie is never None and its entries sit under their hashes. -/
theorem decode_spec {E : Env} {t' : MPT} {b : Bytes} (hd : MPT.decode E b = .ok t') :
    (∃ r, t'.root = some r) ∧ ∀ k v, dget t'.store.kv k = some v → k = E.keccak v := by
  have hre : ∀ (l : List Bytes) (st : Store), (∀ k v, dget st.kv k = some v → k = E.keccak v) →
      ∀ k v, dget (l.foldl (fun s n => s.set (E.keccak n) n) st).kv k = some v → k = E.keccak v := by
    intro l
    induction l with
    | nil => intro st h; exact h
    | cons w l ih =>
      intro st h
      refine ih _ fun k v hk => ?_
      simp only [Store.set, dget_dset] at hk
      split at hk
      · rename_i e; cases hk; exact e.symm
      · exact h k v hk
  unfold MPT.decode at hd
  cases hi : rlpDecode b with
  | error e => rw [hi] at hd; simp at hd
  | ok x =>
    rw [hi] at hd
    simp only [Except.bind_ok'] at hd
    split at hd
    · rename_i r s bo
      cases hb : MPT.binary r with
      | error e => rw [hb] at hd; simp at hd
      | ok root =>
        rw [hb] at hd
        simp only [Except.bind_ok'] at hd
        split at hd
        · rename_i l
          cases hl : MPT.binaries l with
          | error e => rw [hl] at hd; simp at hd
          | ok nodes =>
            rw [hl] at hd
            simp only [Except.bind_ok'] at hd
            cases hbo : MPT.boolean bo with
            | error e => rw [hbo] at hd; simp at hd
            | ok secure =>
              rw [hbo] at hd
              simp only [Except.bind_ok', Except.pure_ok', Except.ok.injEq] at hd
              subst hd
              exact ⟨⟨root, rfl⟩, hre nodes _ (by simp [Store.empty, dget])⟩
        · simp at hd
    · simp at hd

theorem Received.twin {E : Env} {b : Bytes} {t' t : MPT} {a : T} (h : Received E b t' t) (hb : Bears E t a)
    (hl : LogOk E t.store.written) (hne : a ≠ .empty) :
    ∃ r', Twin E t' { t with secure := t'.secure } a r' := by
  obtain ⟨⟨r', hr'⟩, had⟩ := decode_spec h.decoded
  have hc := h.coll
  have hh := h.hash
  rw [hb.holds.rootHash] at hh
  rw [hr', Option.getD_some] at hc
  have m0 : T.enc E a ∈ Item.encode (.str []) :: r' :: t.root.getD [] ::
      (t.store.written ++ t'.store.kv.map (·.2)) := by
    rcases hb.holds.enc_mem hne with ⟨-, e⟩ | e
    · rw [e]; simp
    · simp [e]
  have mkv : ∀ k v, dget t'.store.kv k = some v → v ∈ Item.encode (.str []) :: r' :: t.root.getD [] ::
      (t.store.written ++ t'.store.kv.map (·.2)) := by
    intro k v hk
    have := mem_of_dget hk
    simp only [List.mem_cons, List.mem_append, List.mem_map]
    exact .inr (.inr (.inr (.inr ⟨_, this, rfl⟩)))
  have hash : E.keccak (T.enc E a) ≠ emptyHash E := by
    intro e
    have := hc _ m0 _ (by simp) e
    obtain ⟨n, hd, -⟩ := T.decode_enc hne (T.enc_len hb.holds.stored)
    rw [this] at hd
    have h80 : Node.decode (Item.encode (.str [])) = .error .assertion := by decide
    rw [h80] at hd
    simp at hd
  have hnode : r' = E.keccak (T.enc E a) ∨ r' = T.enc E a ∧ (T.enc E a).length ≠ 32 := by
    unfold MPT.rootHash at hh
    rw [hr', Option.getD_some] at hh
    simp only at hh
    split at hh
    · exact absurd hh.symm hash
    · split at hh
      · exact .inl hh
      · rename_i h32
        have := hc _ (by simp) _ m0 hh
        exact .inr ⟨this, this ▸ h32⟩
  refine ⟨r', hr', rfl, fun k v w hk hw => ?_, hnode, hash, ?_⟩
  · have hk1 := had k v hk
    simp only [dget_dset] at hw
    split at hw
    · rename_i e
      cases hw
      exact hc _ (mkv k v hk) _ m0 (hk1.symm.trans e.symm)
    · obtain ⟨e1, e2⟩ := hb.holds.good k w hw
      exact hc _ (mkv k v hk) _ (by simp [e2]) (hk1.symm.trans e1)
  · refine ⟨hc.mono ?_, ?_⟩
    · intro x hx
      simp only [List.mem_cons, List.mem_append, List.not_mem_nil, or_false] at hx
      rcases hx with rfl | hx | rfl
      · simp
      · simp [hx]
      · exact m0
    · intro x hx
      rcases List.mem_append.1 hx with hx | hx
      · exact hl.size x hx
      · rw [List.mem_singleton.1 hx]; exact T.enc_len hb.holds.stored

theorem Received.twin_same {E : Env} {b : Bytes} {t' t : MPT} {a : T} (h : Received E b t' t) (hb : Bears E t a)
    (hl : LogOk E t.store.written) (hne : a ≠ .empty) (hs : t'.secure = t.secure) : ∃ r', Twin E t' t a r' := by
  obtain ⟨r', ht⟩ := h.twin hb hl hne
  rw [hs] at ht
  exact ⟨r', ht⟩

theorem Bears.flag {E : Env} {t : MPT} {a : T} (h : Bears E t a) (s : Bool) : Bears E { t with secure := s } a :=
  ⟨⟨h.holds.shape, h.holds.stored, h.holds.good, h.holds.root⟩, h.full⟩

/-- A received object for an empty trie: `get` raises, `contains` raises or says False. -/
theorem Received.empty {E : Env} {b : Bytes} {t' t : MPT} (h : Received E b t' t) (hb : Bears E t .empty) (k : Bytes) :
    (∀ v, t'.get E k ≠ .ok v) ∧ t'.contains E k ≠ .ok true := by
  obtain ⟨⟨r', hr'⟩, had⟩ := decode_spec h.decoded
  have hc := h.coll
  have hh := h.hash
  rw [hb.holds.rootHash] at hh
  rw [hr', Option.getD_some] at hc
  have henc : T.enc E .empty = Item.encode (.str []) := rfl
  have h80 : Node.decode (Item.encode (.str [])) = .error .assertion := by decide
  have hr : r' = [] ∨ ∃ e, MPT.getNode t'.store.kv r' = .error e := by
    unfold MPT.rootHash at hh
    rw [hr', Option.getD_some, henc] at hh
    simp only at hh
    split at hh
    · rename_i e; exact .inl e
    · right
      unfold MPT.getNode
      split at hh
      · rename_i h32
        rw [if_pos h32]
        unfold dgetItem
        cases hg : dget t'.store.kv r' with
        | none => exact ⟨_, rfl⟩
        | some v =>
          have h1 := had _ _ hg
          have := hc v (by
            have := mem_of_dget hg
            simp only [List.mem_cons, List.mem_append, List.mem_map]
            exact .inr (.inr (.inr (.inr ⟨_, this, rfl⟩)))) _ (by simp) (h1.symm.trans hh)
          refine ⟨.assertion, ?_⟩
          simp only [Except.bind_ok', this, h80]
      · rename_i h32
        rw [if_neg h32]
        have := hc r' (by simp) _ (by simp) hh
        exact ⟨.assertion, by simp only [Except.bind_ok', this, h80]⟩
  rcases hr with rfl | ⟨e, he⟩
  · simp [MPT.get, MPT.contains, MPT.rootFalsy, hr']
  · constructor
    · intro v hv
      unfold MPT.get at hv
      rw [hr'] at hv
      split at hv
      · simp at hv
      · revert hv
        cases E.limit <;> simp [MPT.getAux, he]
    · intro hv
      unfold MPT.contains at hv
      rw [hr'] at hv
      split at hv
      · simp at hv
      · revert hv
        cases E.limit with
        | zero => simp [MPT.containsAux]
        | succ f =>
          simp only [MPT.containsAux, Option.getD_some, he]
          split <;> simp

end Pymt
