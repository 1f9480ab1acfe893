import Verif.Spec.OnDemand
import Verif.Lemmas.Merge

/-!
# Lemmas about loading nodes on demand
-/

namespace Pymt

variable {E : Env} {α : Type} {L : List Bytes}

theorem Store.keys_set (s : Store) (k v k' : Bytes) (h : dget s.kv k' ≠ none) : dget (s.set k v).kv k' ≠ none := by
  rw [Store.dget_set]
  split
  · simp
  · exact h

namespace Prog

theorem alone_keys (p : Prog α) (t : MPT) (k : Bytes) (h : dget t.store.kv k ≠ none) :
    dget (p.alone t).2.store.kv k ≠ none := by
  induction p generalizing t with
  | done r => exact h
  | load k' n ih =>
    simp only [alone]
    cases dget t.store.kv k' with
    | none => exact h
    | some v => exact ih v t h
  | save k' v n ih => exact ih _ (Store.keys_set _ _ _ _ h)
  | root n ih => exact ih _ _ h
  | setRoot r n ih => exact ih _ h

/-- What is in the storage afterwards. -/
theorem alone_from (p : Prog α) (t : MPT) (hp : Plain E p) {k v : Bytes}
    (h : dget (p.alone t).2.store.kv k = some v) :
    dget t.store.kv k = some v ∨ v ∈ p.writes t ∧ k = E.keccak v := by
  induction p generalizing t with
  | done r => exact .inl h
  | load k' n ih =>
    simp only [alone, writes] at h ⊢
    cases e : dget t.store.kv k' with
    | none => rw [e] at h; exact .inl h
    | some w => rw [e] at h; exact ih w t (hp w) h
  | save k' w n ih =>
    simp only [alone, writes] at h ⊢
    rcases ih _ hp.2.2 h with h | ⟨h1, h2⟩
    · rw [Store.dget_set] at h
      split at h
      · rename_i hk
        injection h with h
        subst h
        exact .inr ⟨List.mem_cons_self, hk.trans hp.1⟩
      · exact .inl h
    · exact .inr ⟨List.mem_cons_of_mem _ h1, h2⟩
  | root n ih => exact ih _ _ (hp _) h
  | setRoot r n ih =>
    obtain ⟨x, rfl⟩ := hp
    exact .inl h

/-- Everything written is in the storage afterwards, and nothing is lost. -/
theorem alone_sub (hL : LogOk E L) (p : Prog α) (t : MPT) (hp : Plain E p) (hg : GS E L t.store)
    (hw : ∀ w ∈ p.writes t, w ∈ L) : Sub t.store (p.alone t).2.store ∧
      ∀ w ∈ p.writes t, dget (p.alone t).2.store.kv (E.keccak w) = some w := by
  induction p generalizing t with
  | done r => exact ⟨Sub.refl _, by simp [writes]⟩
  | load k n ih =>
    simp only [alone, writes] at hw ⊢
    cases e : dget t.store.kv k with
    | none => exact ⟨Sub.refl _, by simp⟩
    | some v => rw [e] at hw; exact ih v t (hp v) hg hw
  | save k v n ih =>
    simp only [alone, writes] at hw ⊢
    have hv := hw v List.mem_cons_self
    obtain ⟨hk, hlen, hp⟩ := hp
    subst hk
    obtain ⟨i1, i2⟩ := ih { t with store := t.store.set (E.keccak v) v } hp (hg.set hv hlen)
      fun w h => hw w (List.mem_cons_of_mem _ h)
    refine ⟨(hg.sub_set hL hv).trans i1, fun w h => ?_⟩
    rcases List.mem_cons.1 h with rfl | h
    · exact i1 _ _ (by rw [Store.dget_set, if_pos rfl])
    · exact i2 w h
  | root n ih => exact ih _ _ (hp _) hg hw
  | setRoot r n ih =>
    obtain ⟨x, rfl⟩ := hp
    exact ⟨Sub.refl _, by simp [writes]⟩

/-- A program on an object that lacks nodes, next to the complete one. -/
theorem compare (hL : LogOk E L) (p : Prog α) (F C : MPT) (hf : p.Fine E F) (hp : Plain E p) (hr : C.root = F.root)
    (hg : GS E L C.store) (hG : GS E L F.store) (hw : ∀ w ∈ p.writes F, w ∈ L) :
    (p.wants C = none ∧ (p.alone C).1 = (p.alone F).1 ∧ (p.alone C).2.root = (p.alone F).2.root ∧
      p.writes C = p.writes F) ∨
    ∃ h, p.wants C = some h ∧ (p.alone C).1 = .error .keyError ∧ (p.alone C).2.root = C.root ∧
      dget C.store.kv h = none ∧
      ((h = emptyHash E ∧ (p.alone F).1 = .error .keyError ∧ (p.alone F).2.root = F.root ∧ p.writes C = p.writes F) ∨
       (h ∈ p.loads F ∧ (∃ v, dget F.store.kv h = some v) ∧ ∀ w ∈ p.writes C, w ∈ p.writes F)) := by
  induction p generalizing F C with
  | done r => exact .inl ⟨rfl, rfl, hr, rfl⟩
  | load k n ih =>
    simp only [Fine, alone, writes, wants, loads] at hf hw ⊢
    cases e : dget F.store.kv k with
    | none =>
      rw [e] at hf
      simp only at hf
      subst hf
      have hc := hg.noEmpty hL
      rw [hc]
      exact .inr ⟨_, rfl, rfl, rfl, hc, .inl ⟨rfl, rfl, rfl, rfl⟩⟩
    | some v =>
      rw [e] at hf hw
      cases ec : dget C.store.kv k with
      | none => exact .inr ⟨k, rfl, rfl, rfl, ec, .inr ⟨List.mem_cons_self, ⟨v, e⟩, by simp⟩⟩
      | some w =>
        obtain ⟨c1, c2, -⟩ := hg _ _ ec
        obtain ⟨f1, f2, -⟩ := hG _ _ e
        have hvw : w = v := hL.coll w (List.mem_cons_of_mem _ c2) v (List.mem_cons_of_mem _ f2) (c1.symm.trans f1)
        subst hvw
        rcases ih w F C hf (hp w) hr hg hG hw with h | ⟨h, h1, h2, h3, h4, h5⟩
        · exact .inl h
        · refine .inr ⟨h, h1, h2, h3, h4, ?_⟩
          rcases h5 with h5 | ⟨h5, h6⟩
          · exact .inl h5
          · exact .inr ⟨List.mem_cons_of_mem _ h5, h6⟩
  | save k v n ih =>
    simp only [Fine, alone, writes, wants, loads] at hf hw ⊢
    have hv := hw v List.mem_cons_self
    obtain ⟨hk, hlen, hp⟩ := hp
    subst hk
    rcases ih { F with store := F.store.set (E.keccak v) v } { C with store := C.store.set (E.keccak v) v } hf hp hr
      (hg.set hv hlen) (hG.set hv hlen) (fun w h => hw w (List.mem_cons_of_mem _ h)) with
      ⟨h1, h2, h3, h4⟩ | ⟨h, h1, h2, h3, h4, h5⟩
    · exact .inl ⟨h1, h2, h3, congrArg _ h4⟩
    · rw [Store.dget_set] at h4
      split at h4
      · exact absurd h4 (by simp)
      · rename_i hne
        refine .inr ⟨h, h1, h2, h3, h4, ?_⟩
        rcases h5 with ⟨h5, h6, h7, h8⟩ | ⟨h5, ⟨w, h6⟩, h7⟩
        · exact .inl ⟨h5, h6, h7, congrArg _ h8⟩
        · rw [Store.dget_set, if_neg hne] at h6
          refine .inr ⟨h5, ⟨w, h6⟩, fun x hx => ?_⟩
          rcases List.mem_cons.1 hx with rfl | hx
          · exact List.mem_cons_self
          · exact List.mem_cons_of_mem _ (h7 x hx)
  | root n ih =>
    simp only [Fine, alone, writes, wants, loads] at hf hw ⊢
    rw [hr]
    rcases ih _ F C hf (hp _) hr hg hG hw with h | h
    · exact .inl h
    · exact .inr (by rw [hr] at h; exact h)
  | setRoot r n ih =>
    obtain ⟨x, rfl⟩ := hp
    exact .inl ⟨rfl, rfl, rfl, rfl⟩

/-- The nodes a program reads that are not there. -/
def missing (p : Prog α) (F C : MPT) : Nat := ((p.loads F).filter fun k => (dget C.store.kv k).isNone).length

theorem missing_less (p : Prog α) {F C C' : MPT} (hk : ∀ k, dget C.store.kv k ≠ none → dget C'.store.kv k ≠ none)
    {h : Bytes} (h1 : h ∈ p.loads F) (h2 : dget C.store.kv h = none) (h3 : dget C'.store.kv h ≠ none) :
    p.missing F C' < p.missing F C := by
  unfold missing
  have key : ∀ l : List Bytes, (l.filter fun k => (dget C'.store.kv k).isNone).length ≤
      (l.filter fun k => (dget C.store.kv k).isNone).length ∧
      (h ∈ l → (l.filter fun k => (dget C'.store.kv k).isNone).length <
        (l.filter fun k => (dget C.store.kv k).isNone).length) := by
    intro l
    induction l with
    | nil => simp
    | cons x l ih =>
      obtain ⟨i1, i2⟩ := ih
      have hx := hk x
      cases hc : dget C.store.kv x with
      | some w =>
        rw [hc] at hx
        have : (dget C'.store.kv x).isNone = false := by
          cases hd : dget C'.store.kv x with
          | none => exact absurd hd (hx (by simp))
          | some _ => rfl
        simp only [List.filter_cons, hc, this, Option.isNone_some, Bool.false_eq_true, if_false]
        refine ⟨i1, fun hm => ?_⟩
        rcases List.mem_cons.1 hm with rfl | hm
        · rw [h2] at hc; simp at hc
        · exact i2 hm
      | none =>
        simp only [List.filter_cons, hc, Option.isNone_none, if_true, List.length_cons]
        cases hd : dget C'.store.kv x with
        | none =>
          simp only [Option.isNone_none, if_true, List.length_cons]
          refine ⟨by omega, fun hm => ?_⟩
          rcases List.mem_cons.1 hm with rfl | hm
          · exact absurd hd h3
          · have := i2 hm; omega
        | some w =>
          simp only [Option.isNone_some, Bool.false_eq_true, if_false]
          exact ⟨by omega, fun _ => by omega⟩
  exact (key _).2 h1

/-- Nodes from anybody, checked by their hashes: the call ends as on the complete object, or with KeyError.  When the nodes
that are missing are all given, it does not end with a KeyError of its own. -/
theorem fetch_same (hL : LogOk E L) {ask : Bytes → Option Bytes}
    (ha : ∀ h v, ask h = some v → ∀ w ∈ Item.encode (.str []) :: L, E.keccak v = E.keccak w → v = w)
    (p : Prog α) (F C : MPT) (n : Nat) (hf : p.Fine E F) (hp : Plain E p) (hr : C.root = F.root)
    (hs : C.secure = F.secure)
    (hg : GS E L C.store) (hG : GS E L F.store) (hw : ∀ w ∈ p.writes F, w ∈ L) :
    let r := p.fetch E ask n C
    GS E L r.2.store ∧ r.2.secure = F.secure ∧ (∀ k, dget C.store.kv k ≠ none → dget r.2.store.kv k ≠ none) ∧
    ((r.1 = (p.alone F).1 ∧ r.2.root = (p.alone F).2.root ∧
        ∀ w ∈ p.writes F, dget r.2.store.kv (E.keccak w) = some w) ∨
      r.1 = .error .keyError ∧ r.2.root = C.root ∧
        ¬ ((∀ h v, dget F.store.kv h = some v → dget C.store.kv h = some v ∨ ask h = some v) ∧ p.missing F C ≤ n)) := by
  induction n generalizing C with
  | zero =>
    intro r
    have hr' : r = p.alone C := rfl
    rw [hr']
    rcases compare hL p F C hf hp hr hg hG hw with ⟨h1, h2, h3, h4⟩ | ⟨h, h1, h2, h3, h4, h5⟩
    · have hwC : ∀ w ∈ p.writes C, w ∈ L := by rw [h4]; exact hw
      exact ⟨alone_gs p C hp hg hwC, (alone_secure p C).trans hs, fun k hk => alone_keys p C k hk,
        .inl ⟨h2, h3, by rw [← h4]; exact (alone_sub hL p C hp hg hwC).2⟩⟩
    · rcases h5 with ⟨-, h6, h7, h8⟩ | ⟨h6, ⟨v, h7⟩, h8⟩
      · have hwC : ∀ w ∈ p.writes C, w ∈ L := by rw [h8]; exact hw
        exact ⟨alone_gs p C hp hg hwC, (alone_secure p C).trans hs, fun k hk => alone_keys p C k hk,
          .inl ⟨h2.trans h6.symm, h3.trans (hr.trans h7.symm),
            by rw [← h8]; exact (alone_sub hL p C hp hg hwC).2⟩⟩
      · have hwC : ∀ w ∈ p.writes C, w ∈ L := fun w h => hw w (h8 w h)
        refine ⟨alone_gs p C hp hg hwC, (alone_secure p C).trans hs, fun k hk => alone_keys p C k hk,
          .inr ⟨h2, h3, fun ⟨_, hm⟩ => ?_⟩⟩
        unfold missing at hm
        rw [Nat.le_zero, List.length_eq_zero_iff, List.filter_eq_nil_iff] at hm
        exact hm h h6 (by rw [h4]; rfl)
  | succ n ih =>
    intro r
    rcases compare hL p F C hf hp hr hg hG hw with ⟨h1, h2, h3, h4⟩ | ⟨h, h1, h2, h3, h4, h5⟩
    · have hr' : r = p.alone C := by simp only [r, fetch, h1]
      rw [hr']
      have hwC : ∀ w ∈ p.writes C, w ∈ L := by rw [h4]; exact hw
      exact ⟨alone_gs p C hp hg hwC, (alone_secure p C).trans hs, fun k hk => alone_keys p C k hk,
        .inl ⟨h2, h3, by rw [← h4]; exact (alone_sub hL p C hp hg hwC).2⟩⟩
    · by_cases hacc : ∃ v, ask h = some v ∧ E.keccak v = h ∧ 32 ≤ v.length
      · obtain ⟨v, a1, a2, a3⟩ := hacc
        have hr' : r = p.fetch E ask n { (p.alone C).2 with store := (p.alone C).2.store.set h v } := by
          simp only [r, fetch, h1, a1]
          rw [if_pos ⟨a2, a3⟩]
        rcases h5 with ⟨h6, -⟩ | ⟨h6, ⟨v', h7⟩, h8⟩
        · exfalso
          have := ha h v a1 _ List.mem_cons_self (a2.trans h6)
          rw [this] at a3
          exact absurd a3 (by decide)
        · obtain ⟨g1, g2, -⟩ := hG _ _ h7
          have hv : v = v' := ha h v a1 v' (List.mem_cons_of_mem _ g2) (a2.trans g1)
          subst hv
          have hwC : ∀ w ∈ p.writes C, w ∈ L := fun w h => hw w (h8 w h)
          have hg' : GS E L ((p.alone C).2.store.set h v) := by
            rw [← a2]; exact (alone_gs p C hp hg hwC).set g2 a3
          have hkeys : ∀ k, dget C.store.kv k ≠ none →
              dget ((p.alone C).2.store.set h v).kv k ≠ none := fun k hk =>
            Store.keys_set _ _ _ _ (alone_keys p C k hk)
          obtain ⟨i1, i2, i3, i4⟩ := ih { (p.alone C).2 with store := (p.alone C).2.store.set h v } (h3.trans hr)
            ((alone_secure p C).trans hs) hg'
          rw [hr']
          refine ⟨i1, i2, fun k hk => i3 k (hkeys k hk), ?_⟩
          rcases i4 with i4 | ⟨i5, i6, i7⟩
          · exact .inl i4
          · refine .inr ⟨i5, i6.trans h3, fun ⟨q1, q2⟩ => i7 ⟨fun k w hk => ?_, ?_⟩⟩
            · rcases q1 k w hk with q | q
              · left
                have hsub := (alone_sub hL p C hp hg hwC).1 k w q
                show dget ((p.alone C).2.store.set h v).kv k = some w
                rw [Store.dget_set]
                split
                · rename_i e; subst e; rw [h4] at q; simp at q
                · exact hsub
              · exact .inr q
            · have := missing_less p (F := F) (C := C) (C' := { (p.alone C).2 with store := (p.alone C).2.store.set h v })
                hkeys h6 h4 (by show dget ((p.alone C).2.store.set h v).kv h ≠ none; rw [Store.dget_set, if_pos rfl]; simp)
              omega
      · have hr' : r = p.alone C := by
          simp only [r, fetch, h1]
          cases a1 : ask h with
          | none => rfl
          | some v =>
            simp only
            rw [if_neg fun a => hacc ⟨v, a1, a.1, a.2⟩]
        rw [hr']
        rcases h5 with ⟨-, h6, h7, h8⟩ | ⟨h6, ⟨v, h7⟩, h8⟩
        · have hwC : ∀ w ∈ p.writes C, w ∈ L := by rw [h8]; exact hw
          exact ⟨alone_gs p C hp hg hwC, (alone_secure p C).trans hs, fun k hk => alone_keys p C k hk,
            .inl ⟨h2.trans h6.symm, h3.trans (hr.trans h7.symm),
              by rw [← h8]; exact (alone_sub hL p C hp hg hwC).2⟩⟩
        · have hwC : ∀ w ∈ p.writes C, w ∈ L := fun w h => hw w (h8 w h)
          refine ⟨alone_gs p C hp hg hwC, (alone_secure p C).trans hs, fun k hk => alone_keys p C k hk,
            .inr ⟨h2, h3, fun ⟨q, _⟩ => ?_⟩⟩
          rcases q h v h7 with q | q
          · rw [h4] at q; simp at q
          · obtain ⟨g1, -, g3⟩ := hG _ _ h7
            exact hacc ⟨v, q, g1.symm, g3⟩

theorem missing_le (p : Prog α) (F C : MPT) : p.missing F C ≤ (p.loads F).length := List.length_filter_le _ _

theorem Quiet.nothing {p : Prog α} (h : p.Quiet) (t : MPT) : p.writes t = [] := by
  induction p generalizing t with
  | done r => rfl
  | load k n ih =>
    simp only [writes]
    cases dget t.store.kv k with
    | none => rfl
    | some v => exact ih v (h v) t
  | save k v n ih => exact h.elim
  | root n ih => exact ih _ (h _) t
  | setRoot r n ih => exact h.elim

end Prog

/-- A storage with all that another one has, or that somebody gives when asked. -/
def Supplied (ask : Bytes → Option Bytes) (F C : Store) : Prop :=
  ∀ h v, dget F.kv h = some v → dget C.kv h = some v ∨ ask h = some v

/-- A series of calls, next to the same calls on the complete object. -/
theorem Call.fetchAll_same (hL : LogOk E L) {ask : Bytes → Option Bytes}
    (ha : ∀ h v, ask h = some v → ∀ w ∈ Item.encode (.str []) :: L, E.keccak v = E.keccak w → v = w)
    (n : Nat) (l : List Call) (F C : MPT) (a : T) (hb : Bears E F a) (hf : ∀ c ∈ l, Fits E F.secure c.key)
    (hr : C.root = F.root) (hs : C.secure = F.secure) (hg : GS E L C.store) (hG : GS E L F.store)
    (ht : ∀ w ∈ (Call.seqAll E l F).2.store.written, w ∈ L) :
    let r := Call.fetchAll E ask n l C
    let q := Call.seqAll E l F
    ((r.1 = q.1 ∧ r.2.root = q.2.root ∧ r.2.secure = q.2.secure ∧ GS E L r.2.store ∧ GS E L q.2.store ∧
        (∃ b, Bears E q.2 b) ∧ q.2.secure = F.secure ∧
        (Supplied ask F.store C.store → Supplied ask q.2.store r.2.store)) ∨
      ∃ i, r.1.take i = q.1.take i ∧ r.1[i]? = some (.error .keyError)) ∧
    (Supplied ask F.store C.store → Call.mostLoads E l F ≤ n → r.1 = q.1 ∧ r.2.root = q.2.root ∧
      r.2.secure = q.2.secure ∧ GS E L r.2.store ∧ GS E L q.2.store ∧ (∃ b, Bears E q.2 b) ∧ q.2.secure = F.secure ∧
      Supplied ask q.2.store r.2.store) := by
  induction l generalizing F C a with
  | nil =>
    exact ⟨.inl ⟨rfl, hr, hs, hg, hG, ⟨a, hb⟩, rfl, fun h => h⟩, fun h _ => ⟨rfl, hr, hs, hg, hG, ⟨a, hb⟩, rfl, h⟩⟩
  | cons c l ih =>
    simp only [Call.seqAll, Call.fetchAll, Call.mostLoads] at ht ⊢
    have hin : ∀ w ∈ (c.seq E F).2.store.written, w ∈ L := fun w h => ht w (by
      obtain ⟨ws, e⟩ := Call.seqAll_writes (E := E) l (c.seq E F).2
      rw [e, replay_written]
      exact List.mem_append_left _ h)
    have hfc := hf c List.mem_cons_self
    have hlog : LogOk E (c.seq E F).2.store.written := hL.mono hin
    have hw : ∀ w ∈ (c.prog E F.secure).writes F, w ∈ L := fun w h => hin w (by
      rw [← Call.prog_alone, Prog.alone_written]; exact List.mem_append_right _ h)
    have hplain := Prog.plain_call E F.secure c
    have hsec : (c.seq E F).2.secure = F.secure := by
      rw [← Call.prog_alone]; exact Prog.alone_secure _ _
    obtain ⟨b, hb'⟩ : ∃ b, Bears E (c.seq E F).2 b := by
      rw [Call.seq_exec]
      exact ⟨_, hb.run (fun op ho => by
        rw [Attempt.key_of_op (c := c) (by simpa using ho)]; exact hfc) (by rw [← Call.seq_exec]; exact hlog)⟩
    have hG' := Prog.alone_gs _ F hplain hG hw
    obtain ⟨f1, f2, f3, f4⟩ := Prog.fetch_same hL ha (c.prog E F.secure) F C n (fine_call hb hL hG hfc hlog) hplain
      hr hs hg hG hw
    have hfrom := fun k v => Prog.alone_from (c.prog E F.secure) F hplain (k := k) (v := v)
    rw [Call.prog_alone] at f4 hG' hfrom
    rw [hs]
    have hsup : (∀ w ∈ (c.prog E F.secure).writes F,
        dget ((c.prog E F.secure).fetch E ask n C).2.store.kv (E.keccak w) = some w) → Supplied ask F.store C.store →
        Supplied ask (c.seq E F).2.store ((c.prog E F.secure).fetch E ask n C).2.store := by
      intro g3 hsu h v hv
      rcases hfrom h v hv with h1 | ⟨h1, rfl⟩
      · rcases hsu h v h1 with h2 | h2
        · left
          cases h3 : dget ((c.prog E F.secure).fetch E ask n C).2.store.kv h with
          | none => exact absurd h3 (f3 h (by rw [h2]; simp))
          | some w =>
            obtain ⟨e1, e2, -⟩ := f1 _ _ h3
            obtain ⟨d1, d2, -⟩ := hg _ _ h2
            rw [hL.coll w (List.mem_cons_of_mem _ e2) v (List.mem_cons_of_mem _ d2) (e1.symm.trans d1)]
        · exact .inr h2
      · exact .inl (g3 v h1)
    have rest := fun (g : _) => ih (c.seq E F).2 ((c.prog E F.secure).fetch E ask n C).2 b hb'
      (fun c h => by rw [hsec]; exact hf c (List.mem_cons_of_mem _ h)) g (f2.trans hsec.symm) f1 hG' ht
    refine ⟨?_, fun hsu hm => ?_⟩
    · rcases f4 with ⟨g1, g2, g3⟩ | ⟨g1, -, -⟩
      · obtain ⟨i1, -⟩ := rest g2
        rcases i1 with ⟨j1, j2, j3, j4, j5, j6, j7, j8⟩ | ⟨i, j1, j2⟩
        · exact .inl ⟨by rw [g1, j1], j2, j3, j4, j5, j6, j7.trans hsec, fun h => j8 (hsup g3 h)⟩
        · exact .inr ⟨i + 1, by simp only [List.take_succ_cons]; rw [g1, j1], by simpa using j2⟩
      · exact .inr ⟨0, rfl, by simp [g1]⟩
    · rcases f4 with ⟨g1, g2, g3⟩ | ⟨-, -, g3⟩
      · obtain ⟨-, i2⟩ := rest g2
        obtain ⟨j1, j2, j3, j4, j5, j6, j7, j8⟩ := i2 (hsup g3 hsu) (by omega)
        exact ⟨by rw [g1, j1], j2, j3, j4, j5, j6, j7.trans hsec, j8⟩
      · exact absurd ⟨hsu, Nat.le_trans (Prog.missing_le _ _ _) (by omega)⟩ g3

/-- Proofs. -/
theorem Prog.fetch_proof (hL : LogOk E L) {ask : Bytes → Option Bytes}
    (ha : ∀ h v, ask h = some v → ∀ w ∈ Item.encode (.str []) :: L, E.keccak v = E.keccak w → v = w)
    (n : Nat) {p : Prog α} {F C : MPT} {y : Py α} (hq : p.Quiet) (hrd : p.alone F = (y, F)) (hy : y ≠ .error .keyError)
    (hr : C.root = F.root) (hs : C.secure = F.secure) (hg : GS E L C.store) (hG : GS E L F.store) :
    ((p.fetch E ask n C).1 = y ∨ (p.fetch E ask n C).1 = .error .keyError) ∧
    (Supplied ask F.store C.store → (p.loads F).length ≤ n → (p.fetch E ask n C).1 = y) := by
  obtain ⟨-, -, -, f4⟩ := Prog.fetch_same hL ha p F C n (Prog.fine_of_alone _ _ (by rw [hrd]; exact hy)) hq.plain
      hr hs hg hG (by rw [hq.nothing]; simp)
  rw [hrd] at f4
  rcases f4 with ⟨g1, -⟩ | ⟨g1, -, g3⟩
  · exact ⟨.inl g1, fun _ _ => g1⟩
  · exact ⟨.inr g1, fun h1 h2 => absurd ⟨h1, Nat.le_trans (Prog.missing_le _ _ _) h2⟩ g3⟩

theorem Call.seq_error_root {c : Call} {t : MPT} {e : Err} (h : (c.seq E t).1 = .error e) :
    (c.seq E t).2.root = t.root := by
  cases c with
  | update k v =>
    refine exec_error_root (op := .update k v) (e := e) ?_
    simp only [Call.seq] at h
    simp only [MPT.exec]
    revert h
    cases (MPT.update E k v t).1 with
    | ok a => intro h; simp [Except.map] at h
    | error x => intro h; simpa [Except.map] using h
  | delete k =>
    refine exec_error_root (op := .delete k) (e := e) ?_
    simp only [Call.seq] at h
    simp only [MPT.exec]
    revert h
    cases (MPT.delete E k t).1 with
    | ok a => intro h; simp [Except.map] at h
    | error x => intro h; simpa [Except.map] using h
  | get k => rfl
  | contains k => rfl

/-- A series of calls, next to the complete object on which those calls are made that did not end with KeyError. -/
theorem Call.fetchAll_made (hL : LogOk E L) {ask : Bytes → Option Bytes}
    (ha : ∀ h v, ask h = some v → ∀ w ∈ Item.encode (.str []) :: L, E.keccak v = E.keccak w → v = w)
    (n : Nat) (l : List Call) (F C : MPT) (a : T) (hb : Bears E F a) (hf : ∀ c ∈ l, Fits E F.secure c.key)
    (hr : C.root = F.root) (hs : C.secure = F.secure) (hg : GS E L C.store) (hG : GS E L F.store)
    (ht : ∀ s, s.Sublist l → ∀ w ∈ (Call.seqAll E s F).2.store.written, w ∈ L) :
    let r := Call.fetchAll E ask n l C
    let q := Call.seqAll E (madeCalls l r.1) F
    r.1.filter (fun x => x ≠ .error .keyError) = q.1 ∧ r.2.root = q.2.root ∧ GS E L r.2.store := by
  induction l generalizing F C a with
  | nil => exact ⟨rfl, hr, hg⟩
  | cons c l ih =>
    have hin : ∀ w ∈ (c.seq E F).2.store.written, w ∈ L := ht [c] (List.singleton_sublist.2 List.mem_cons_self)
    have hfc := hf c List.mem_cons_self
    have hlog : LogOk E (c.seq E F).2.store.written := hL.mono hin
    have hw : ∀ w ∈ (c.prog E F.secure).writes F, w ∈ L := fun w h => hin w (by
      rw [← Call.prog_alone, Prog.alone_written]; exact List.mem_append_right _ h)
    have hplain := Prog.plain_call E F.secure c
    have hsec : (c.seq E F).2.secure = F.secure := by
      rw [← Call.prog_alone]; exact Prog.alone_secure _ _
    obtain ⟨b, hb'⟩ : ∃ b, Bears E (c.seq E F).2 b := by
      rw [Call.seq_exec]
      exact ⟨_, hb.run (fun op ho => by
        rw [Attempt.key_of_op (c := c) (by simpa using ho)]; exact hfc) (by rw [← Call.seq_exec]; exact hlog)⟩
    have hG' := Prog.alone_gs _ F hplain hG hw
    obtain ⟨f1, f2, -, f4⟩ := Prog.fetch_same hL ha (c.prog E F.secure) F C n (fine_call hb hL hG hfc hlog) hplain
      hr hs hg hG hw
    rw [Call.prog_alone] at f4 hG'
    simp only [Call.fetchAll, hs]
    have skip : ((c.prog E F.secure).fetch E ask n C).1 = .error .keyError →
        ((c.prog E F.secure).fetch E ask n C).2.root = F.root → _ := fun h1 h2 => ih F
      ((c.prog E F.secure).fetch E ask n C).2 a hb (fun c h => hf c (List.mem_cons_of_mem _ h)) h2 f2 f1 hG
      fun s h => ht s (h.trans (List.sublist_cons_self _ _))
    by_cases hk : ((c.prog E F.secure).fetch E ask n C).1 = .error .keyError
    · have hroot : ((c.prog E F.secure).fetch E ask n C).2.root = F.root := by
        rcases f4 with ⟨g1, g2, -⟩ | ⟨-, g2, -⟩
        · rw [g2]; exact Call.seq_error_root (g1.symm.trans hk)
        · exact g2.trans hr
      have := skip hk hroot
      simp only [madeCalls, List.zip_cons_cons, List.filterMap_cons, hk, if_true, List.filter_cons, ne_eq,
        not_true_eq_false, decide_false, Bool.false_eq_true, if_false]
      exact this
    · rcases f4 with ⟨g1, g2, -⟩ | ⟨g1, -, -⟩
      · have := ih (c.seq E F).2 ((c.prog E F.secure).fetch E ask n C).2 b hb'
          (fun c h => by rw [hsec]; exact hf c (List.mem_cons_of_mem _ h)) g2 (f2.trans hsec.symm) f1 hG'
          fun s h => ht (c :: s) (h.cons_cons c)
        simp only [madeCalls, List.zip_cons_cons, List.filterMap_cons, hk, if_false, List.filter_cons, ne_eq,
          not_false_eq_true, decide_true, if_true, Call.seqAll, ← g1]
        exact ⟨congrArg _ this.1, this.2⟩
      · exact absurd g1 hk

end Pymt
