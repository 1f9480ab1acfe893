import Verif.Spec.Alike
import Verif.Lemmas.Watching
import Verif.Lemmas.Merge
import Verif.Lemmas.ProofObj

/-!
# Two objects with the same trie answer alike
-/

namespace Pymt

/-- Both objects have the trie `a`. -/
structure Twins (E : Env) (L L' : List Bytes) (t t' : MPT) (a : T) : Prop where
  one : Bears E t a
  two : Bears E t' a
  secure : t.secure = t'.secure
  log : LogOk E L
  log' : LogOk E L'
  gs : GS E L t.store
  gs' : GS E L' t'.store
  sub : ∀ w ∈ t.store.written, w ∈ L
  sub' : ∀ w ∈ t'.store.written, w ∈ L'

namespace Twins

variable {E : Env} {L L' : List Bytes} {t t' : MPT} {a : T}

theorem logOk (h : Twins E L L' t t' a) : LogOk E t.store.written := h.log.mono h.sub
theorem logOk' (h : Twins E L L' t t' a) : LogOk E t'.store.written := h.log'.mono h.sub'

theorem roots (h : Twins E L L' t t' a) (hne : a ≠ .empty) : t.root = t'.root := h.one.holds.root_eq h.two.holds hne

theorem keyOf (h : Twins E L L' t t' a) (k : Bytes) : t.keyOf E k = t'.keyOf E k := by
  unfold MPT.keyOf; rw [h.secure]

theorem rootHash (h : Twins E L L' t t' a) : t.rootHash E = t'.rootHash E := by
  rw [h.one.holds.rootHash, h.two.holds.rootHash]

theorem noRoot (h : Twins E L L' t t' a) : t.noRoot E = t'.noRoot E := by
  rw [h.one.holds.noRoot h.logOk, h.two.holds.noRoot h.logOk']

/-- `get` of an empty trie. -/
theorem get_empty {k : Bytes} (hb : Bears E t .empty) (hn : dget t.store.kv (emptyHash E) = none) (hlim : 0 < E.limit) :
    t.get E k = if t.root = none then .error .valueError else .error .keyError := by
  have h32 : (emptyHash E).length = 32 := E.keccak_len _
  have h0 := T.emptyHash_ne_nil E
  obtain ⟨f, hf⟩ : ∃ f, E.limit = f + 1 := ⟨E.limit - 1, by omega⟩
  rcases hb.holds.root with ⟨_, h1 | h1⟩ | ⟨h1, _⟩
  · simp [MPT.get, MPT.rootFalsy, h1]
  · simp [MPT.get, MPT.rootFalsy, h1, h0, hf, MPT.getAux, MPT.getNode, h32, dgetItem, hn]
  · exact absurd rfl h1

/-- One more write. -/
theorem exec (h : Twins E L L' t t' a) {op : Op} (hf : Fits E t.secure op.key)
    (hs : ∀ w ∈ (MPT.exec E op t).2.store.written, w ∈ L) (hs' : ∀ w ∈ (MPT.exec E op t').2.store.written, w ∈ L') :
    ∃ b, Twins E L L' (MPT.exec E op t).2 (MPT.exec E op t').2 b ∧ (MPT.exec E op t).1 = (MPT.exec E op t').1 ∧
      (t.root = t'.root → (MPT.exec E op t).2.root = (MPT.exec E op t').2.root) := by
  have hl := h.log.mono hs
  have hl' := h.log'.mono hs'
  have hf' : Fits E t'.secure op.key := h.secure ▸ hf
  have hb := h.one.exec hf hl
  have hb' := h.two.exec hf' hl'
  rw [← h.secure] at hb'
  refine ⟨_, ⟨hb, hb', ?_, h.log, h.log', exec_gs op h.gs hs, exec_gs op h.gs' hs', hs, hs'⟩, ?_⟩
  · rw [exec_secure, exec_secure, h.secure]
  cases op with
  | update k v =>
    have e1 : (MPT.update E k v t).1 = .ok () ∧
        T.Holds E (MPT.update E k v t).2 (T.insert a (toNibs (t.keyOf E k)) v) :=
      h.one.holds.update (key := k) (v := v) (fits_nibs hf) rfl hl
    have e2 : (MPT.update E k v t').1 = .ok () ∧
        T.Holds E (MPT.update E k v t').2 (T.insert a (toNibs (t'.keyOf E k)) v) :=
      h.two.holds.update (key := k) (v := v) (fits_nibs hf') rfl hl'
    rw [← h.keyOf] at e2
    exact ⟨e1.1.trans e2.1.symm, fun _ => e1.2.root_eq e2.2 (T.insert_ne_empty _ _ _)⟩
  | delete k =>
    by_cases hne : a = .empty
    · subst hne
      have e1 := h.one.holds.delete_empty h.logOk k
      have e2 := h.two.holds.delete_empty h.logOk' k
      show (MPT.delete E k t).1 = (MPT.delete E k t').1 ∧ (_ → (MPT.delete E k t).2.root = (MPT.delete E k t').2.root)
      rw [e1, e2]
      exact ⟨rfl, id⟩
    have hk : (toNibs (t.keyOf E k)).length < E.limit := fits_nibs hf
    have hk' : (toNibs (t'.keyOf E k)).length < E.limit := fits_nibs hf'
    have e1 : T.DelOk E t (MPT.delete E k t).1 (MPT.delete E k t).2 (T.remove a (toNibs (t.keyOf E k))) :=
      h.one.holds.delete (key := k) hne hk rfl hl
    have e2 : T.DelOk E t' (MPT.delete E k t').1 (MPT.delete E k t').2 (T.remove a (toNibs (t'.keyOf E k))) :=
      h.two.holds.delete (key := k) hne hk' rfl hl'
    rw [← h.keyOf] at e2
    cases hr : T.remove a (toNibs (t.keyOf E k)) with
    | error e =>
      rw [hr] at e1 e2
      exact ⟨e1.1.trans e2.1.symm, fun hq => by
        show (MPT.delete E k t).2.root = (MPT.delete E k t').2.root
        rw [e1.2, e2.2]; exact hq⟩
    | ok d =>
      rw [hr] at e1 e2
      refine ⟨e1.1.trans e2.1.symm, fun _ => ?_⟩
      show (MPT.delete E k t).2.root = (MPT.delete E k t').2.root
      cases hlk : T.lookup a (toNibs (t.keyOf E k)) with
      | none =>
        obtain ⟨e, he, _⟩ := h.one.full.remove_none hne hlk
        rw [he] at hr
        exact (nomatch hr)
      | some w =>
        obtain ⟨d', hr', hc, hok, _, hnd, hlook⟩ := h.one.full.remove_some hlk
        rw [hr] at hr'
        obtain rfl : d = d' := Except.ok.inj hr'
        cases d with
        | deleted =>
          rw [h.one.holds.delete_gone hne hk hl hr, h.two.holds.delete_gone hne hk' hl' (by rw [← h.keyOf, hr])]
        | updated c => exact (e1.2 (.inl (hnd c rfl))).root_eq (e2.2 (.inl (hnd c rfl))) (hnd c rfl)
        | useless p c =>
          have hne' : (T.DelRes.useless p c).tree ≠ .empty := by
            rcases hok with ⟨v, rfl⟩ | ⟨c, rfl⟩ <;> simp [T.DelRes.tree]
          exact (e1.2 (.inl hne')).root_eq (e2.2 (.inl hne')) hne'

/-- One more call: the outcomes are the same, or nearly if the roots differ. -/
theorem step (h : Twins E L L' t t' a) (c : Request) (hf : ∀ k ∈ c.keys, Fits E t.secure k)
    (hs : ∀ w ∈ (c.run E t).2.store.written, w ∈ L) (hs' : ∀ w ∈ (c.run E t').2.store.written, w ∈ L') :
    (∃ b, Twins E L L' (c.run E t).2 (c.run E t').2 b) ∧ c.Near E (c.run E t).1 (c.run E t').1 ∧
      (t.root = t'.root → (c.run E t).1 = (c.run E t').1 ∧ (c.run E t).2.root = (c.run E t').2.root) := by
  have fit : ∀ k ∈ c.keys, (toNibs (t.keyOf E k)).length < E.limit ∧ (toNibs (t'.keyOf E k)).length < E.limit :=
    fun k hk => ⟨fits_nibs (hf k hk), by rw [← h.keyOf]; exact fits_nibs (hf k hk)⟩
  have same : ∀ {x y : Py Told}, x = y → c.Near E x y ∧ (t.root = t'.root → x = y ∧ t.root = t'.root) :=
    fun e => ⟨.inl e, fun hr => ⟨e, hr⟩⟩
  cases c with
  | get k =>
    refine ⟨⟨a, h⟩, ?_⟩
    have hk := fit k (by simp [Request.keys])
    by_cases hne : a = .empty
    · subst hne
      have hlim : 0 < E.limit := Nat.lt_of_le_of_lt (Nat.zero_le _) hk.1
      have e1 := get_empty (k := k) h.one (h.gs.noEmpty h.log) hlim
      have e2 := get_empty (k := k) h.two (h.gs'.noEmpty h.log') hlim
      simp only [Request.run, e1, e2]
      refine ⟨.inr (.inl ⟨k, rfl, ?_⟩), fun hr => ⟨by rw [hr], hr⟩⟩
      intro z hz
      simp only [List.mem_cons, List.not_mem_nil, or_false] at hz
      rcases hz with rfl | rfl <;> split
      · exact .inl rfl
      · exact .inr rfl
      · exact .inl rfl
      · exact .inr rfl
    · refine same ?_
      simp only [Request.run]
      rw [h.one.holds.get hne hk.1, h.two.holds.get hne hk.2, h.keyOf]
  | contains k =>
    refine ⟨⟨a, h⟩, same ?_⟩
    have hk := fit k (by simp [Request.keys])
    simp only [Request.run]
    rw [h.one.holds.contains h.logOk hk.1, h.two.holds.contains h.logOk' hk.2, h.keyOf]
  | update k v =>
    obtain ⟨b, h1, h2, h3⟩ := h.exec (op := .update k v) (hf k (by simp [Request.keys])) hs hs'
    have h2 : (MPT.update E k v t).1 = (MPT.update E k v t').1 := h2
    exact ⟨⟨b, h1⟩, .inl (by simp only [Request.run, h2]), fun hr => ⟨by simp only [Request.run, h2], h3 hr⟩⟩
  | delete k =>
    obtain ⟨b, h1, h2, h3⟩ := h.exec (op := .delete k) (hf k (by simp [Request.keys])) hs hs'
    have h2 : (MPT.delete E k t).1 = (MPT.delete E k t').1 := h2
    exact ⟨⟨b, h1⟩, .inl (by simp only [Request.run, h2]), fun hr => ⟨by simp only [Request.run, h2], h3 hr⟩⟩
  | poi now k =>
    refine ⟨⟨a, h⟩, same ?_⟩
    have hk := fit k (by simp [Request.keys])
    simp only [Request.run]
    by_cases hne : a = .empty
    · subst hne
      rw [h.one.holds.getPoi_empty h.logOk, h.two.holds.getPoi_empty h.logOk']
    · rw [h.one.holds.getPoi h.logOk hne hk.1, h.two.holds.getPoi h.logOk' hne hk.2, h.keyOf]
  | poe now k =>
    refine ⟨⟨a, h⟩, same ?_⟩
    have hk := fit k (by simp [Request.keys])
    simp only [Request.run]
    by_cases hne : a = .empty
    · subst hne
      rw [h.one.holds.getPoe_empty h.logOk, h.two.holds.getPoe_empty h.logOk']
    · rw [h.one.holds.getPoe h.logOk hne hk.1, h.two.holds.getPoe h.logOk' hne hk.2, h.keyOf, h.rootHash]
  | verifyPoi p =>
    refine ⟨⟨a, h⟩, same ?_⟩
    simp only [Request.run]
    unfold MPT.verifyPoi
    rw [h.noRoot, h.rootHash]
    by_cases hne : a = .empty
    · subst hne
      have : t'.noRoot E = true := h.two.holds.noRoot h.logOk'
      simp only [this, if_true]
    · rw [h.roots hne]
  | verifyPoe p =>
    refine ⟨⟨a, h⟩, same ?_⟩
    simp only [Request.run]
    unfold MPT.verifyPoe
    rw [h.noRoot, h.rootHash]
    by_cases hne : a = .empty
    · subst hne
      have : t'.noRoot E = true := h.two.holds.noRoot h.logOk'
      simp only [this, if_true]
    · rw [h.roots hne]
  | root =>
    refine ⟨⟨a, h⟩, ?_, fun hr => ⟨by simp only [Request.run, hr], hr⟩⟩
    by_cases hne : a = .empty
    · subst hne
      refine .inr (.inr ⟨rfl, ?_⟩)
      have key : ∀ s : MPT, Bears E s .empty →
          (Except.ok (.root s.root) : Py Told) = .ok (.root none) ∨
            (Except.ok (.root s.root) : Py Told) = .ok (.root (some (emptyHash E))) := by
        intro s hs
        rcases hs.holds.root with ⟨_, h1 | h1⟩ | ⟨h1, _⟩
        · exact .inl (by rw [h1])
        · exact .inr (by rw [h1])
        · exact absurd rfl h1
      intro z hz
      simp only [Request.run, List.mem_cons, List.not_mem_nil, or_false] at hz
      rcases hz with rfl | rfl
      · exact key t h.one
      · exact key t' h.two
    · exact .inl (by simp only [Request.run, h.roots hne])
  | rootHash =>
    refine ⟨⟨a, h⟩, same ?_⟩
    simp only [Request.run, h.rootHash]

end Twins

theorem Request.run_secure {E : Env} {t : MPT} (c : Request) : (c.run E t).2.secure = t.secure := by
  cases c with
  | update k v => exact exec_secure E (.update k v) t
  | delete k => exact exec_secure E (.delete k) t
  | _ => rfl

theorem Request.run_written {E : Env} {t : MPT} (c : Request) :
    ∀ w ∈ t.store.written, w ∈ (c.run E t).2.store.written := by
  have key : ∀ op : Op, ∀ w ∈ t.store.written, w ∈ (MPT.exec E op t).2.store.written := by
    intro op w hw
    obtain ⟨ws, h⟩ := exec_writes E op t
    rw [h, replay_written]
    simp [hw]
  cases c with
  | update k v => exact key (.update k v)
  | delete k => exact key (.delete k)
  | _ => exact fun _ h => h

theorem Request.final_written {E : Env} (cs : List Request) {t : MPT} :
    ∀ w ∈ t.store.written, w ∈ (Request.final E cs t).store.written := by
  induction cs generalizing t with
  | nil => exact fun _ h => h
  | cons c cs ih => exact fun w h => ih w (c.run_written w h)

/-- Calls one after the other. -/
theorem Twins.all {E : Env} {L L' : List Bytes} (cs : List Request) : ∀ {t t' : MPT} {a : T}, Twins E L L' t t' a →
    (∀ c ∈ cs, ∀ k ∈ c.keys, Fits E t.secure k) →
    (∀ w ∈ (Request.final E cs t).store.written, w ∈ L) → (∀ w ∈ (Request.final E cs t').store.written, w ∈ L') →
    (∀ (i : Nat) (c : Request) (x y : Py Told), cs[i]? = some c → (Request.outcomes E cs t)[i]? = some x → (Request.outcomes E cs t')[i]? = some y →
      c.Near E x y) ∧
    (t.root = t'.root → Request.outcomes E cs t = Request.outcomes E cs t') := by
  induction cs with
  | nil => exact fun _ _ _ _ => ⟨fun i c x y h => by simp at h, fun _ => rfl⟩
  | cons c cs ih =>
    intro t t' a h hf hs hs'
    obtain ⟨⟨b, h1⟩, h2, h3⟩ := h.step c (hf c List.mem_cons_self) (fun w hw => hs w (Request.final_written cs w hw))
      (fun w hw => hs' w (Request.final_written cs w hw))
    obtain ⟨i1, i2⟩ := ih h1 (fun c' hc => by rw [Request.run_secure]; exact hf c' (List.mem_cons_of_mem _ hc)) hs hs'
    constructor
    · intro i c' x y hc hx hy
      cases i with
      | zero =>
        simp only [Request.outcomes, List.getElem?_cons_zero, Option.some.injEq] at hc hx hy
        subst hc; subst hx; subst hy
        exact h2
      | succ i =>
        simp only [Request.outcomes, List.getElem?_cons_succ] at hc hx hy
        exact i1 i c' x y hc hx hy
    · intro hr
      obtain ⟨e1, e2⟩ := h3 hr
      simp only [Request.outcomes, e1, i2 e2]

end Pymt
