import Verif.Lemmas.Kept
import Verif.Lemmas.Reopen
import Verif.Lemmas.Exclusion

/-!
# The abstract trie after a history

Unlike the contents, the abstract trie determines the root even when empty values were lost.  `T.act` says what a call
makes of it, so that objects that went through the same calls hold the same abstract trie.
-/

namespace Pymt

/-- What a call does to the abstract trie. -/
def T.act (a : T) : Op → T
  | .update k v => T.insert a (toNibs k) v
  | .delete k =>
    match T.remove a (toNibs k) with
    | .ok d => d.tree
    | .error _ => a

/-- The abstract trie after calls. -/
def T.grow (a : T) (ops : List Op) : T := ops.foldl T.act a

theorem T.Full.act {a : T} (h : a.Full) (op : Op) : (a.act op).Full := by
  cases op with
  | update k v => exact h.insert _ _
  | delete k =>
    simp only [T.act]
    by_cases hne : a = .empty
    · subst hne; exact h
    · cases hl : T.lookup a (toNibs k) with
      | none =>
        obtain ⟨e, he, _⟩ := h.remove_none hne hl
        rw [he]; exact h
      | some w =>
        obtain ⟨d, hd, hf, _⟩ := h.remove_some hl
        rw [hd]; exact hf

theorem T.Holds.act {E : Env} {t : MPT} {a : T} (h : T.Holds E t a) (hfull : a.Full) {op : Op}
    (hf : Fits E t.secure op.key) (hl : LogOk E (MPT.exec E op t).2.store.written) :
    T.Holds E (MPT.exec E op t).2 (a.act (op.mapKey (effective E t.secure))) := by
  have hk : ∀ k, effective E t.secure k = t.keyOf E k := fun k => (keyOf_eq ..).symm
  cases op with
  | update k v =>
    have := (h.update (key := k) (v := v) (fits_nibs hf) rfl hl).2
    simp only [T.act, Op.mapKey, hk]
    exact this
  | delete k =>
    have p1 := log_of_replay (exec_writes E (.delete k) t) hl
    simp only [T.act, Op.mapKey, hk]
    by_cases hne : a = .empty
    · subst hne
      simp only [MPT.exec]
      rw [h.delete_empty p1 k]
      exact h
    · cases hlk : T.lookup a (toNibs (t.keyOf E k)) with
      | none =>
        obtain ⟨e, he, _⟩ := hfull.remove_none hne hlk
        rw [he]
        simp only [MPT.exec]
        rw [h.delete_fail (key := k) hne p1 (fits_nibs hf) he]
        exact h
      | some w =>
        obtain ⟨d, hr, hc, hok, _, hnd, hlook⟩ := hfull.remove_some hlk
        have hd := h.delete (key := k) hne (fits_nibs hf) rfl hl
        rw [hr] at hd ⊢
        refine hd.2 ?_
        cases d with
        | deleted => exact .inr rfl
        | updated t' => exact .inl (hnd t' rfl)
        | useless p t' =>
          refine .inl ?_
          rcases hok with ⟨v, rfl⟩ | ⟨c, rfl⟩ <;> simp [T.DelRes.tree]

/-- The object holds the trie, which is `Full`. -/
structure Bears (E : Env) (t : MPT) (a : T) : Prop where
  holds : T.Holds E t a
  full : a.Full

theorem Bears.new (E : Env) (secure : Bool) : Bears E (MPT.new E secure) .empty :=
  ⟨⟨trivial, trivial, Good.empty E, .inl ⟨rfl, .inr rfl⟩⟩, trivial⟩

theorem Bears.exec {E : Env} {t : MPT} {a : T} (h : Bears E t a) {op : Op}
    (hf : Fits E t.secure op.key) (hl : LogOk E (MPT.exec E op t).2.store.written) :
    Bears E (MPT.exec E op t).2 (a.act (op.mapKey (effective E t.secure))) :=
  ⟨h.holds.act h.full hf hl, h.full.act _⟩

theorem Bears.run {E : Env} {t : MPT} {a : T} (h : Bears E t a) {ops : List Op}
    (hf : ∀ op ∈ ops, Fits E t.secure op.key) (hl : LogOk E (MPT.run E ops t).store.written) :
    Bears E (MPT.run E ops t) (a.grow (ops.map (Op.mapKey (effective E t.secure)))) := by
  induction ops generalizing t a with
  | nil => exact h
  | cons op ops ih =>
    have hl1 : LogOk E (MPT.exec E op t).2.store.written := log_of_replay (run_writes E ops _) hl
    have h1 := h.exec (hf op (by simp)) hl1
    have hsec := exec_secure E op t
    have := ih h1 (fun o ho => by rw [hsec]; exact hf o (List.mem_cons_of_mem _ ho)) hl
    rw [hsec] at this
    exact this

theorem Bears.after {E : Env} {secure : Bool} {ops : List Op} (hf : ∀ op ∈ ops, Fits E secure op.key)
    (hl : LogOk E (MPT.after E secure ops).store.written) :
    Bears E (MPT.after E secure ops) (T.grow .empty (ops.map (Op.mapKey (effective E secure)))) :=
  (Bears.new E secure).run hf hl

theorem Bears.reopen {E : Env} {t : MPT} {a : T} (h : Bears E t a) {st : Store}
    (hst : ∃ ws, st = replay E ws t.store) (hl : LogOk E st.written) (secure : Bool) :
    Bears E (MPT.init E st t.root secure) a := ⟨h.holds.reopen hst hl secure, h.full⟩

/-- A trie that contains a key is not empty. -/
theorem T.Holds.ne_of_contains {E : Env} {t : MPT} {a : T} (h : T.Holds E t a) (hl : LogOk E t.store.written)
    {k : Bytes} (hc : t.contains E k = .ok true) : a ≠ .empty := by
  rintro rfl
  unfold MPT.contains at hc
  split at hc
  · simp at hc
  · have hn := h.noRoot hl
    rw [hn] at hc
    revert hc
    cases E.limit <;> simp [MPT.containsAux, T.isEmpty]

theorem Shared.bears {E : Env} {calls : List (Nat × Op)} {w : Shared} {a : Nat → T}
    (h : ∀ i, Bears E (w.obj i) (a i))
    (hf : ∀ c ∈ calls, Fits E (w.obj c.1).secure c.2.key)
    (hl : LogOk E (Shared.run E calls w).store.written) (i : Nat) :
    Bears E ((Shared.run E calls w).obj i)
      ((a i).grow ((callsOf i calls).map (Op.mapKey (effective E (w.obj i).secure)))) := by
  induction calls generalizing w a with
  | nil => exact h i
  | cons c calls ih =>
    have hl1 : LogOk E (Shared.exec E c.1 c.2 w).store.written :=
      log_of_replay (Shared.run_store (E := E) (calls := calls) (w := Shared.exec E c.1 c.2 w)) hl
    have key : ∀ j, Bears E ((Shared.exec E c.1 c.2 w).obj j)
        ((a j).grow ((if c.1 = j then [c.2] else []).map (Op.mapKey (effective E (w.obj j).secure)))) := by
      intro j
      by_cases e : c.1 = j
      · subst e
        rw [if_pos rfl, Shared.obj_exec_same]
        exact (h c.1).exec (hf c (by simp)) hl1
      · rw [if_neg e, Shared.obj_exec_ne E (Ne.symm e)]
        exact ⟨(h j).holds.withStore (Shared.exec_store (E := E) (i := c.1) (op := c.2) (w := w)) hl1, (h j).full⟩
    have := ih key (fun c' hc => by rw [Shared.exec_secure]; exact hf c' (List.mem_cons_of_mem _ hc)) hl
    rw [Shared.exec_secure] at this
    rw [callsOf_cons, List.map_append]
    have e : ∀ x y : List Op, (a i).grow (x ++ y) = ((a i).grow x).grow y := fun x y => by simp [T.grow]
    rw [e]
    exact this

/-- The proof for a key that is there. -/
theorem T.Holds.poi_exact {E : Env} {t : MPT} {a : T} (h1 : T.Holds E t a) {k : Bytes} (now : Bytes)
    (hl : LogOk E t.store.written) (hf : (toNibs (t.keyOf E k)).length < E.limit)
    (hlk : T.lookup a (toNibs (t.keyOf E k)) ≠ none) :
    ∃ p r, t.getPoi E now k = .ok p ∧ t.root = some r ∧ t.verifyPoi E p = .ok (decide (r.length = 32)) := by
  have hne : a ≠ .empty := by rintro rfl; simp [T.lookup] at hlk
  have hls := T.lookup_seek a (toNibs (t.keyOf E k))
  have hst := T.seek_stuck h1.shape hne (toNibs (t.keyOf E k))
  rw [hls] at hlk
  have hroot : t.root = some (T.ref E a) := by
    rcases h1.root with ⟨h0, _⟩ | ⟨_, h0⟩
    · exact absurd h0 hne
    · exact h0
  have hcmp : (t.rootHash E == T.ref E a) = decide ((T.ref E a).length = 32) := by
    rw [h1.rootHash, T.ref_of_ne hne]
    split
    · rename_i hl
      have : E.keccak (T.enc E a) ≠ T.enc E a := by
        intro e
        have := E.keccak_len (T.enc E a)
        rw [e] at this; omega
      have h32 : (T.enc E a).length ≠ 32 := by omega
      simp [this, h32]
    · simp [E.keccak_len]
  have hboth : (∃ x, T.foundP (T.seek a (toNibs (t.keyOf E k))).1
      (T.seek a (toNibs (t.keyOf E k))).2 = .ok x) ∧
      T.verdict (T.seek a (toNibs (t.keyOf E k))).1
      (T.seek a (toNibs (t.keyOf E k))).2 = .ok true := by
    have hsn := T.seek_ne_empty h1.shape hne (toNibs (t.keyOf E k))
    have hsc := h1.shape.seek (toNibs (t.keyOf E k))
    generalize T.seek a (toNibs (t.keyOf E k)) = s at *
    obtain ⟨x, r⟩ := s
    cases x with
    | empty => exact absurd rfl hsn
    | leaf q v =>
      simp only [T.lookup] at hlk
      split at hlk
      · rename_i e
        subst e
        cases q <;> simp [T.foundP, T.verdict]
      · simp at hlk
    | ext q c =>
      exfalso
      rcases hst with h0 | h0
      · simp only at h0
        subst h0
        have hq : ¬ q <+: [] := fun hq => hsc.1 (List.prefix_nil.1 hq)
        simp [T.lookup, hq] at hlk
      · simp [T.lookup, h0] at hlk
    | branch cs v =>
      rcases hst with h0 | ⟨i, r', h0, h0'⟩
      · simp only at h0
        subst h0
        simp [T.foundP, T.verdict]
      · simp only at h0
        subst h0
        simp [T.lookup, h0'] at hlk
  obtain ⟨⟨x, hx⟩, hv⟩ := hboth
  refine ⟨_, T.ref E a, by rw [h1.getPoi hl hne hf, hx], hroot, ?_⟩
  rw [h1.verifyPoi hl hne rfl rfl hf, hv]
  simp only [Bool.true_and, hcmp]

theorem T.Full.seek {t : T} (h : t.Full) (p : List Nib) : (T.seek t p).1.Full :=
  (T.seek_induct (P := T.Full) (fun _ _ h => h.2.2) (fun _ _ i h => h.2 i) h p).1

/-- An accepted walk ends at a beginning of a key that is there. -/
theorem T.Full.accepts_prefix {a : T} (h2 : a.Full) (hne : a ≠ .empty) {k : Bytes}
    (hacc : T.Accepts (T.seek a (toNibs k)).1 (T.seek a (toNibs k)).2) :
    ∃ q w, T.lookup a q = some w ∧ toNibs k <+: q := by
  obtain ⟨b, hb, hlk⟩ := T.seek_split a (toNibs k)
  have hsc := h2.seek (toNibs k)
  have hsn := T.seek_ne_empty h2.shape hne (toNibs k)
  have key : ∃ q w, T.lookup (T.seek a (toNibs k)).1 q = some w ∧
      (T.seek a (toNibs k)).2 <+: q := by
    generalize T.seek a (toNibs k) = s at *
    obtain ⟨x, r⟩ := s
    cases x with
    | empty => exact absurd rfl hsn
    | ext q c => exact absurd hacc (by simp [T.Accepts])
    | leaf q v =>
      refine ⟨q, v, by simp [T.lookup], ?_⟩
      rcases hacc with h0 | h0
      · simp only at h0; subst h0; exact List.nil_prefix
      · simp only at h0; subst h0; exact List.prefix_rfl
    | branch cs v =>
      obtain ⟨q, w, hq⟩ := hsc.exists_key hsn
      refine ⟨q, w, hq, ?_⟩
      simp only [T.Accepts] at hacc
      subst hacc; exact List.nil_prefix
  obtain ⟨q, w, g1, g2⟩ := key
  rw [← hlk] at g1
  refine ⟨_, w, g1, ?_⟩
  conv => lhs; rw [hb]
  exact (List.prefix_append_right_inj b).2 g2

/-- An accepted proof names a beginning of a key that is there. -/
theorem T.Holds.poi_prefix {E : Env} {t : MPT} {a : T} (h1 : T.Holds E t a) (h2 : a.Full) {p : Proof Bytes}
    (hl : LogOk E t.store.written) (hc : CollFree E (t.store.written ++ checked p))
    (hv : t.verifyPoi E p = .ok true) :
    ∃ q w, T.lookup a q = some w ∧ toNibs p.targetKey <+: q := by
  obtain ⟨hne, hacc⟩ := h1.verifyPoi_sound hl hc hv
  exact h2.accepts_prefix hne hacc

/-- What a call leaves was there before or is what it wrote. -/
theorem T.Full.act_lookup {a : T} (h : a.Full) {op : Op} {q : List Nib} {w : Bytes}
    (hq : T.lookup (a.act op) q = some w) :
    (q = toNibs op.key ∧ ∃ k, op = .update k w) ∨ (q ≠ toNibs op.key ∧ T.lookup a q = some w) := by
  cases op with
  | update k v =>
    simp only [T.act] at hq
    rw [h.insert_lookup] at hq
    by_cases e : q = toNibs k
    · rw [if_pos e] at hq
      split at hq
      · exact (nomatch hq)
      · injection hq with hq
        subst hq
        exact .inl ⟨e, k, rfl⟩
    · rw [if_neg e] at hq
      split at hq
      · exact (nomatch hq)
      · exact .inr ⟨e, hq⟩
  | delete k =>
    simp only [T.act] at hq
    refine .inr ?_
    by_cases hne : a = .empty
    · subst hne
      simp only [T.remove] at hq
      simp [T.lookup] at hq
    · cases hl : T.lookup a (toNibs k) with
      | none =>
        obtain ⟨e, he, _⟩ := h.remove_none hne hl
        rw [he] at hq
        refine ⟨?_, hq⟩
        rintro rfl
        simp only [Op.key] at hq
        rw [hl] at hq
        exact (nomatch hq)
      | some w' =>
        obtain ⟨d, hd, _, _, _, _, hlook⟩ := h.remove_some hl
        rw [hd] at hq
        simp only at hq
        rw [hlook] at hq
        split at hq
        · exact (nomatch hq)
        · exact ⟨by assumption, hq⟩

/-- Whatever a history leaves in the trie is in the map it describes. -/
theorem T.grow_sub {f : Bytes → Bytes} {ops : List Op} {q : List Nib} {w : Bytes}
    (h : T.lookup (T.grow .empty (ops.map (Op.mapKey f))) q = some w) :
    ∃ k, contents ops k = some w ∧ q = toNibs (f k) := by
  have key : ∀ (ops : List Op) (a : T) (m : Contents), a.Full →
      (∀ q w, T.lookup a q = some w → ∃ k, m k = some w ∧ q = toNibs (f k)) →
      ∀ q w, T.lookup (T.grow a (ops.map (Op.mapKey f))) q = some w →
        ∃ k, contentsFrom m ops k = some w ∧ q = toNibs (f k) := by
    intro ops
    induction ops with
    | nil => intro a m _ h; exact h
    | cons op ops ih =>
      intro a m hf h
      refine ih (a.act (op.mapKey f)) (Op.apply m op) (hf.act _) fun q w hq => ?_
      rcases hf.act_lookup hq with ⟨rfl, k, e⟩ | ⟨hne, hq⟩
      · cases op with
        | delete k' => exact (nomatch e)
        | update k' v =>
          simp only [Op.mapKey, Op.update.injEq] at e
          exact ⟨k', by simp [Op.apply, e.2], rfl⟩
      · obtain ⟨k, hk, rfl⟩ := h q w hq
        refine ⟨k, ?_, rfl⟩
        have : k ≠ op.key := by
          rintro rfl
          apply hne
          cases op <;> rfl
        cases op with
        | update k' v =>
          have hk' : k ≠ k' := this
          simp [Op.apply, hk', hk]
        | delete k' =>
          have hk' : k ≠ k' := this
          simp [Op.apply, hk', hk]
  exact key ops .empty (fun _ => none) trivial (fun q w h => by simp [T.lookup] at h) q w h

/-- The pairs of an abstract trie. -/
structure T.Keeps (a : T) (l : List (Bytes × Bytes)) : Prop where
  full : a.Full
  pairs : ∀ k v, T.lookup a (toNibs k) = some v ↔ (k, v) ∈ l
  bytes : ∀ p v, T.lookup a p = some v → ∃ k, p = toNibs k

theorem T.Keeps.act {a : T} {l : List (Bytes × Bytes)} (h : a.Keeps l) (op : Op) : (a.act op).Keeps (op.keep l) := by
  obtain ⟨h2, h3, h4⟩ := h
  refine ⟨h2.act op, fun k' w => ?_, fun p w hp => ?_⟩
  · cases op with
    | update k v =>
      have hov := over_iff h3 h4 k
      simp only [T.act]
      rw [h2.insert_lookup]
      simp only [Op.keep, List.mem_append, List.mem_filter, decide_eq_true_eq, hov]
      by_cases e : k' = k
      · subst e
        rw [if_pos rfl]
        by_cases hv : v = [] ∧ ∃ e ∈ l, Beyond k' e.1
        · rw [if_pos hv, if_pos hv]; simp
        · rw [if_neg hv, if_neg hv]; simp [eq_comm]
      · have e' : toNibs k' ≠ toNibs k := fun h => e (toNibs_inj h)
        rw [if_neg e']
        have hb : Beyond k' k ↔ toNibs k' <+: toNibs k := by
          rw [beyond_nibs]
          exact ⟨fun h => h.2, fun h => ⟨Ne.symm e', h⟩⟩
        have hnot : (k', w) ∉ (if v = [] ∧ ∃ e ∈ l, Beyond k e.1 then [] else [(k, v)]) := by
          split
          · simp
          · simp [e]
        simp only [hnot, or_false, hb]
        by_cases hd : T.lookup a (toNibs k') = some [] ∧ toNibs k' <+: toNibs k
        · rw [if_pos hd]
          have hm := hd.1
          constructor
          · intro h0; simp at h0
          · rintro ⟨m1, m2, m3⟩
            rw [(h3 _ _).2 m1] at hm
            simp only [Option.some.injEq] at hm
            exact absurd ⟨hm, hd.2⟩ m3
        · rw [if_neg hd, h3]
          constructor
          · intro m1
            refine ⟨m1, e, ?_⟩
            rintro ⟨rfl, m3⟩
            exact hd ⟨(h3 _ _).2 m1, m3⟩
          · exact fun m => m.1
    | delete k =>
      simp only [T.act, Op.keep, List.mem_filter, decide_eq_true_eq]
      by_cases hne : a = .empty
      · subst hne
        have hl : ∀ x, x ∉ l := fun x hx => by have := (h3 x.1 x.2).2 hx; simp [T.lookup] at this
        simp [T.remove, T.lookup, hl]
      cases hm : T.lookup a (toNibs k) with
      | none =>
        obtain ⟨e, he, _⟩ := h2.remove_none hne hm
        rw [he]
        simp only
        rw [h3]
        refine ⟨fun h => ⟨h, ?_⟩, fun h => h.1⟩
        rintro rfl
        rw [(h3 _ _).2 h] at hm
        exact (nomatch hm)
      | some w' =>
        obtain ⟨d, hr, _, _, _, _, hlook⟩ := h2.remove_some hm
        rw [hr]
        simp only
        rw [hlook]
        by_cases e : k' = k
        · simp [e]
        · have : toNibs k' ≠ toNibs k := fun h => e (toNibs_inj h)
          simp [e, this, h3]
  · rcases h2.act_lookup hp with ⟨e, _⟩ | ⟨_, e⟩
    · exact ⟨_, e⟩
    · exact h4 p w e

theorem T.Keeps.grow {a : T} {l : List (Bytes × Bytes)} (h : a.Keeps l) (ops : List Op) :
    (a.grow ops).Keeps (ops.foldl Op.keep l) := by
  induction ops generalizing a l with
  | nil => exact h
  | cons op ops ih => exact ih (h.act op)

theorem T.Keeps.after (ops : List Op) : (T.grow .empty ops).Keeps (kept ops) :=
  T.Keeps.grow (a := .empty) (l := []) ⟨trivial, by simp [T.lookup], by simp [T.lookup]⟩ ops

/-- The complete trie never raises KeyError while it has a key. -/
theorem T.Holds.never_key {E : Env} {t : MPT} {a : T} (h1 : T.Holds E t a) (hl : LogOk E t.store.written) {k : Bytes}
    (hk : (toNibs (t.keyOf E k)).length < E.limit) :
    (a ≠ .empty → t.get E k ≠ .error .keyError) ∧ t.contains E k ≠ .error .keyError ∧
    (∀ now, t.getPoi E now k ≠ .error .keyError) ∧ (∀ now, t.getPoe E now k ≠ .error .keyError) := by
  refine ⟨fun hn => ?_, ?_, fun now => ?_, fun now => ?_⟩
  · rw [h1.get hn hk]
    have := T.seek_ne_empty h1.shape hn (toNibs (t.keyOf E k))
    generalize T.seek a _ = s at *
    obtain ⟨x, r⟩ := s
    cases r <;> cases x <;> simp_all [T.found, T.dataOf] <;> split <;> simp
  · rw [h1.contains hl hk]; simp
  · by_cases hn : a = .empty
    · subst hn
      rw [h1.getPoi_empty hl]; simp
    · rw [h1.getPoi hl hn hk]
      have := T.seek_ne_empty h1.shape hn (toNibs (t.keyOf E k))
      generalize T.seek a _ = s at *
      obtain ⟨x, r⟩ := s
      cases r <;> cases x <;> simp_all [T.foundP]
      split
      · rename_i e he
        split at he
        · simp at he
        · cases he; simp
      · simp
  · by_cases hn : a = .empty
    · subst hn
      rw [h1.getPoe_empty hl]; simp
    · rw [h1.getPoe hl hn hk]
      split <;> simp

theorem Bears.never_key {E : Env} {t : MPT} {a : T} (h : Bears E t a) {op : Op} (hf : Fits E t.secure op.key)
    (hl : LogOk E (MPT.exec E op t).2.store.written) : (MPT.exec E op t).1 ≠ .error .keyError := by
  cases op with
  | update k v =>
    have : (MPT.exec E (.update k v) t).1 = .ok () :=
      (h.holds.update (key := k) (v := v) (fits_nibs hf) rfl hl).1
    rw [this]; simp
  | delete k =>
    have p1 := log_of_replay (exec_writes E (.delete k) t) hl
    by_cases hne : a = .empty
    · subst hne
      simp only [MPT.exec]
      rw [h.holds.delete_empty p1 k]
      simp
    · cases hlk : T.lookup a (toNibs (t.keyOf E k)) with
      | none =>
        obtain ⟨e, he, hh⟩ := h.full.remove_none hne hlk
        simp only [MPT.exec]
        rw [h.holds.delete_fail (key := k) hne p1 (fits_nibs hf) he]
        rcases hh with rfl | rfl | rfl | rfl <;> simp
      | some w =>
        obtain ⟨d, hr, -⟩ := h.full.remove_some hlk
        have hd := h.holds.delete (key := k) hne (fits_nibs hf) rfl hl
        rw [hr] at hd
        have : (MPT.exec E (.delete k) t).1 = .ok () := hd.1
        rw [this]; simp

end Pymt
