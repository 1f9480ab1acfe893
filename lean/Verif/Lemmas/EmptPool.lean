import Verif.Model.EmptPool
import Verif.Spec.EmptBackend
import Verif.Spec.EmptCrowd
import Verif.Lemmas.EmptTurns
import Verif.Lemmas.Peace

/-!
# Lemmas: threads, each with an `EMPT` of its own, over the same two dicts
-/

namespace Pymt

/-! ## Programs that do the same over larger dicts -/

namespace Prog
variable {E : Env} {α β : Type}

theorem fine_left {p : Prog α} {f : α → Prog β} {t : MPT} (h : (p >>= f).Fine E t) : p.Fine E t := by
  change (p.bind f).Fine E t at h
  induction p generalizing t with
  | done r => trivial
  | load k n ih =>
    simp only [Fine, Prog.bind] at h ⊢
    cases e : dget t.store.kv k with
    | none => rw [e] at h; exact h
    | some v => rw [e] at h; exact ih v h
  | save k v n ih => exact ih h
  | root n ih => exact ih _ h
  | setRoot r n ih => exact ih h

theorem writes_left {p : Prog α} {f : α → Prog β} {t : MPT} {x : Bytes} (h : x ∈ p.writes t) : x ∈ (p >>= f).writes t := by
  show x ∈ (p.bind f).writes t
  induction p generalizing t with
  | done r => exact (nomatch h)
  | load k n ih =>
    simp only [writes, Prog.bind] at h ⊢
    cases e : dget t.store.kv k with
    | none => rw [e] at h; exact (nomatch h)
    | some v => rw [e] at h; exact ih v h
  | save k v n ih =>
    rcases List.mem_cons.1 h with rfl | h
    · exact List.mem_cons_self
    · exact List.mem_cons_of_mem _ (ih h)
  | root n ih => exact ih _ h
  | setRoot r n ih => exact ih h

end Prog

namespace EProg
variable {E : Env} {log : List Bytes} {K : List Bytes} {α β : Type}

/-- Run alone, every node the program asks for is there (only the hash of the empty node may be missing); it saves nodes of
the log under their hashes; and the entries of the data storage that it uses are those of `K`. -/
def Nice (E : Env) (log K : List Bytes) : EProg α → EMPT → Prop
  | .done _, _ => True
  | .load k n, s =>
    match dget s.trie.store.kv k with
    | some v => (n v).Nice E log K s
    | none => k = emptyHash E
  | .save k v n, s => k = E.keccak v ∧ 32 ≤ v.length ∧ v ∈ log ∧
    n.Nice E log K { s with trie := { s.trie with store := s.trie.store.set k v } }
  | .root n, s => (n s.trie.root).Nice E log K s
  | .setRoot r n, s => n.Nice E log K { s with trie := { s.trie with root := r } }
  | .data k n, s => k ∈ K ∧
    match dget s.data k with
    | some v => (n v).Nice E log K s
    | none => True
  | .setData k v n, s => k ∈ K ∧ n.Nice E log K { s with data := dset s.data k v }
  | .delData k n, s => k ∈ K ∧
    match dget s.data k with
    | some _ => n.Nice E log K { s with data := ddel s.data k }
    | none => True

theorem Nice.bind {p : EProg α} {f : α → EProg β} {s : EMPT} (h : p.Nice E log K s)
    (hf : ∀ a, (p.alone s).1 = .ok a → (f a).Nice E log K (p.alone s).2) : (p >>= f).Nice E log K s := by
  show (p.bind f).Nice E log K s
  induction p generalizing s with
  | done r =>
    cases r with
    | ok a => exact hf a rfl
    | error e => trivial
  | load k n ih =>
    simp only [Nice, EProg.bind, alone] at h hf ⊢
    cases e : dget s.trie.store.kv k with
    | none => rw [e] at h; exact h
    | some v => rw [e] at h hf; exact ih v h hf
  | save k v n ih => exact ⟨h.1, h.2.1, h.2.2.1, ih h.2.2.2 hf⟩
  | root n ih => exact ih _ h hf
  | setRoot r n ih => exact ih h hf
  | data k n ih =>
    simp only [Nice, EProg.bind, alone] at h hf ⊢
    refine ⟨h.1, ?_⟩
    cases e : dget s.data k with
    | none => trivial
    | some v => rw [e] at h hf; exact ih v h.2 hf
  | setData k v n ih => exact ⟨h.1, ih h.2 hf⟩
  | delData k n ih =>
    simp only [Nice, EProg.bind, alone] at h hf ⊢
    refine ⟨h.1, ?_⟩
    cases e : dget s.data k with
    | none => trivial
    | some v => rw [e] at h hf; exact ih h.2 hf

theorem Nice.trie {p : Prog α} {s : EMPT} (hf : p.Fine E s.trie) (hp : Prog.Plain E p)
    (hw : ∀ x ∈ p.writes s.trie, x ∈ log) : (EProg.trie p).Nice E log K s := by
  induction p generalizing s with
  | done r => trivial
  | load k n ih =>
    simp only [Prog.Fine, Prog.writes, EProg.trie, Nice] at hf hw ⊢
    cases e : dget s.trie.store.kv k with
    | none => rw [e] at hf; exact hf
    | some v => rw [e] at hf hw; exact ih v hf (hp v) hw
  | save k v n ih =>
    exact ⟨hp.1, hp.2.1, hw v List.mem_cons_self, ih hf hp.2.2 fun x hx => hw x (List.mem_cons_of_mem _ hx)⟩
  | root n ih => exact ih _ hf (hp _) hw
  | setRoot r n ih =>
    obtain ⟨x, rfl⟩ := hp
    trivial

/-- What is nice stays so. -/
theorem Nice.access {p : EProg EAns} {s : EMPT} (h : p.Nice E log K s) :
    (EWorld.access p s).2.Nice E log K (EWorld.access p s).1 := by
  cases p with
  | done r => trivial
  | load k n =>
    simp only [EWorld.access, Nice] at h ⊢
    cases e : dget s.trie.store.kv k with
    | none => trivial
    | some v => rw [e] at h; exact h
  | save k v n => exact h.2.2.2
  | root n => exact h
  | setRoot r n => exact h
  | data k n =>
    simp only [EWorld.access, Nice] at h ⊢
    cases e : dget s.data k with
    | none => trivial
    | some v => rw [e] at h; exact h.2
  | setData k v n => exact h.2
  | delData k n =>
    simp only [EWorld.access, Nice] at h ⊢
    cases e : dget s.data k with
    | none => trivial
    | some v => rw [e] at h; exact h.2

end EProg

/-- An object that is alone, and the same object over dicts that others use as well. -/
structure Within (K : List Bytes) (s S : EMPT) : Prop where
  sub : Sub s.trie.store S.trie.store
  root : S.trie.root = s.trie.root
  secure : S.trie.secure = s.trie.secure
  data : ∀ k ∈ K, dget S.data k = dget s.data k

/-- An access does the same to both. -/
theorem Within.access {E : Env} {log K : List Bytes} {s S : EMPT} {p : EProg EAns} (hL : LogOk E log)
    (h : Within K s S) (hg : GS E log S.trie.store) (hn : p.Nice E log K s) :
    (EWorld.access p S).2 = (EWorld.access p s).2 ∧ Within K (EWorld.access p s).1 (EWorld.access p S).1 ∧
    GS E log (EWorld.access p S).1.trie.store ∧ Sub S.trie.store (EWorld.access p S).1.trie.store ∧
    (∀ k, k ∉ K → dget (EWorld.access p S).1.data k = dget S.data k) := by
  cases p with
  | done r => exact ⟨rfl, h, hg, Sub.refl _, fun _ _ => rfl⟩
  | load k n =>
    simp only [EWorld.access, EProg.Nice] at hn ⊢
    cases e : dget s.trie.store.kv k with
    | none =>
      rw [e] at hn
      simp only at hn
      subst hn
      rw [hg.noEmpty hL]
      exact ⟨rfl, h, hg, Sub.refl _, fun _ _ => rfl⟩
    | some v =>
      rw [h.sub _ _ e]
      exact ⟨rfl, h, hg, Sub.refl _, fun _ _ => rfl⟩
  | save k v n =>
    obtain ⟨h1, h2, h3, _⟩ := hn
    subst h1
    exact ⟨rfl, ⟨h.sub.set _ _, h.root, h.secure, h.data⟩, hg.set h3 h2, hg.sub_set hL h3, fun _ _ => rfl⟩
  | root n =>
    refine ⟨?_, h, hg, Sub.refl _, fun _ _ => rfl⟩
    simp only [EWorld.access, h.root]
  | setRoot r n => exact ⟨rfl, ⟨h.sub, rfl, h.secure, h.data⟩, hg, Sub.refl _, fun _ _ => rfl⟩
  | data k n =>
    simp only [EWorld.access, EProg.Nice] at hn ⊢
    rw [h.data k hn.1]
    cases e : dget s.data k with
    | none => exact ⟨rfl, h, hg, Sub.refl _, fun _ _ => rfl⟩
    | some v => exact ⟨rfl, h, hg, Sub.refl _, fun _ _ => rfl⟩
  | setData k v n =>
    refine ⟨rfl, ⟨h.sub, h.root, h.secure, fun k' hk' => ?_⟩, hg, Sub.refl _, fun k' hk' => ?_⟩
    · simp only [EWorld.access, dget_dset, h.data k' hk']
    · simp only [EWorld.access, dget_dset]
      exact if_neg fun e : k = k' => hk' (e ▸ hn.1)
  | delData k n =>
    simp only [EWorld.access, EProg.Nice] at hn ⊢
    rw [h.data k hn.1]
    cases e : dget s.data k with
    | none => exact ⟨rfl, h, hg, Sub.refl _, fun _ _ => rfl⟩
    | some v =>
      refine ⟨rfl, ⟨h.sub, h.root, h.secure, fun k' hk' => ?_⟩, hg, Sub.refl _, fun k' hk' => ?_⟩
      · simp only [dget_ddel, h.data k' hk']
      · simp only [dget_ddel]
        exact if_neg fun e : k = k' => hk' (e ▸ hn.1)

/-! ## The calls -/

/-- What a call does to the trie. -/
theorem ECall.seq_run (E : Env) (c : ECall) (s : EMPT) :
    ∃ ops : List Op, (∀ op ∈ ops, op.key = c.key) ∧ (c.seq E s).2.trie = MPT.run E ops s.trie := by
  cases c with
  | update k v =>
    have hput : ∀ ref, ∃ ops : List Op, (∀ op ∈ ops, op.key = k) ∧
        ((EMPT.onTrie (MPT.update E k (DataRef.encode E ref)) >>= fun _ =>
          M.modify fun s => { s with data := dset s.data k v }) s).2.trie = MPT.run E ops s.trie := by
      intro ref
      refine ⟨[.update k (ref.encode E)], by simp [Op.key], ?_⟩
      simp only [M.bind_apply, EMPT.onTrie, M.modify]
      show _ = (MPT.update E k (ref.encode E) s.trie).2
      cases h : MPT.update E k (ref.encode E) s.trie with
      | mk r t => cases r <;> rfl
    cases v with
    | bytes b => exact hput _
    | bytearray b => exact ⟨[], by simp, rfl⟩
    | obj i a b enc =>
      cases a with
      | false => exact ⟨[], by simp, rfl⟩
      | true =>
        cases b with
        | false => exact ⟨[], by simp, rfl⟩
        | true => exact hput _
  | delete k =>
    simp only [ECall.seq, EMPT.delete, M.bind_apply, M.get, M.lift]
    cases h : s.trie.contains E k with
    | error e => exact ⟨[], by simp, rfl⟩
    | ok b =>
      cases b with
      | false => exact ⟨[], by simp, rfl⟩
      | true =>
        cases hd : dgetItem s.data k with
        | error e => exact ⟨[], by simp, rfl⟩
        | ok v =>
          refine ⟨[.delete k], by simp [Op.key, ECall.key], ?_⟩
          rfl
  | get k => exact ⟨[], by simp, rfl⟩
  | contains k => exact ⟨[], by simp, rfl⟩

theorem ECall.seq_writes (E : Env) (c : ECall) (s : EMPT) :
    ∀ x ∈ s.trie.store.written, x ∈ (c.seq E s).2.trie.store.written := by
  intro x hx
  obtain ⟨ops, _, e⟩ := c.seq_run E s
  obtain ⟨ws, e'⟩ := run_writes E ops s.trie
  rw [e, e', replay_written]
  exact List.mem_append_left _ hx

theorem ECall.seqAll_writes (E : Env) : ∀ (cs : List ECall) (s : EMPT),
    ∀ x ∈ s.trie.store.written, x ∈ (ECall.seqAll E cs s).2.trie.store.written
  | [], _, _, hx => hx
  | c :: cs, s, x, hx => seqAll_writes E cs _ x (c.seq_writes E s x hx)

theorem ECall.seq_secure (E : Env) (c : ECall) (s : EMPT) : (c.seq E s).2.trie.secure = s.trie.secure := by
  obtain ⟨ops, _, e⟩ := c.seq_run E s
  rw [e]; exact run_secure _ _ _

theorem ECall.seq_bears {E : Env} {c : ECall} {s : EMPT} (h : ∃ a, Bears E s.trie a) (hf : Fits E s.trie.secure c.key)
    (hl : LogOk E (c.seq E s).2.trie.store.written) : ∃ a, Bears E (c.seq E s).2.trie a := by
  obtain ⟨a, h⟩ := h
  obtain ⟨ops, hk, e⟩ := c.seq_run E s
  rw [e] at hl ⊢
  exact ⟨_, h.run (fun op ho => by rw [hk op ho]; exact hf) hl⟩

/-- A call on the trie inside. -/
theorem Call.tidy {E : Env} {log : List Bytes} {t : MPT} (h : ∃ a, Bears E t a) (hL : LogOk E log)
    (hg : GS E log t.store) {c : Call} (hf : Fits E t.secure c.key) (hw : ∀ x ∈ (c.seq E t).2.store.written, x ∈ log) :
    (c.prog E t.secure).Fine E t ∧ ∀ x ∈ (c.prog E t.secure).writes t, x ∈ log := by
  obtain ⟨a, h⟩ := h
  refine ⟨fine_call h hL hg hf (hL.mono hw), fun x hx => hw x ?_⟩
  rw [← Call.prog_alone, Prog.alone_written]
  exact List.mem_append_right _ hx

/-- The entry of the data storage that a call uses. -/
def ECall.dataKey? : ECall → Option Bytes
  | .contains _ => none
  | c => some c.key

theorem ECall.nice {E : Env} {log K : List Bytes} {s : EMPT} (h : ∃ a, Bears E s.trie a) (hL : LogOk E log)
    (hg : GS E log s.trie.store) {c : ECall} (hf : Fits E s.trie.secure c.key) (hk : ∀ k ∈ c.dataKey?, k ∈ K)
    (hw : ∀ x ∈ (c.seq E s).2.trie.store.written, x ∈ log) : (c.prog E s.trie.secure).Nice E log K s := by
  have hw0 := fun x hx => hw x (c.seq_writes E s x hx)
  have hcontains : ∀ k, Fits E s.trie.secure k → (EMPT.containsCallP E s.trie.secure k).Nice E log K s := by
    intro k hf
    obtain ⟨h1, h2⟩ := Call.tidy h hL hg (c := .contains k) hf hw0
    exact .trie (Prog.fine_left h1) (Prog.Quiet.containsCall E _).plain fun x hx => h2 x (Prog.writes_left hx)
  cases c with
  | update k v =>
    refine EProg.Nice.bind ?_ fun _ _ => trivial
    have hput : ∀ ref, DataRef.ofValue k v = .ok ref →
        (∀ x ∈ (MPT.update E k (ref.encode E) s.trie).2.store.written, x ∈ log) →
        (EMPT.putP E s.trie.secure k v).Nice E log K s := by
      intro ref hr hx
      unfold EMPT.putP
      rw [hr]
      obtain ⟨h1, h2⟩ := Call.tidy h hL hg (c := .update k (ref.encode E)) hf hx
      exact EProg.Nice.bind (p := EProg.trie _)
        (.trie (Prog.fine_left h1) (Prog.Plain.updateCall _ _) fun x hx => h2 x (Prog.writes_left hx))
        fun _ _ => ⟨hk k rfl, trivial⟩
    have hsame : ∀ ref, ((EMPT.onTrie (MPT.update E k (DataRef.encode E ref)) >>= fun _ =>
          M.modify fun s => { s with data := dset s.data k v }) s).2.trie = (MPT.update E k (ref.encode E) s.trie).2 := by
      intro ref
      simp only [M.bind_apply, EMPT.onTrie, M.modify]
      cases h : MPT.update E k (ref.encode E) s.trie with
      | mk r t => cases r <;> rfl
    cases v with
    | bytes b => exact hput _ rfl fun x hx => hw x ((congrArg (fun t : MPT => t.store.written) (hsame _)) ▸ hx)
    | bytearray b => trivial
    | obj i a b enc =>
      cases a with
      | false => trivial
      | true =>
        cases b with
        | false => trivial
        | true => exact hput _ rfl fun x hx => hw x ((congrArg (fun t : MPT => t.store.written) (hsame _)) ▸ hx)
  | delete k =>
    refine EProg.Nice.bind ?_ fun _ _ => trivial
    refine EProg.Nice.bind (hcontains k hf) fun b hb => ?_
    rw [EMPT.containsCall_alone] at hb ⊢
    simp only at hb ⊢
    cases b with
    | false => trivial
    | true =>
      refine ⟨hk k rfl, ?_⟩
      cases hd : dget s.data k with
      | none => trivial
      | some v =>
        have e : (ECall.seq E (.delete k) s).2.trie = (MPT.delete E k s.trie).2 := by
          simp only [ECall.seq, EMPT.delete, M.bind_apply, M.get, M.lift]
          change s.trie.contains E k = .ok true at hb
          rw [hb]
          have hd' : dgetItem s.data k = .ok v := by simp [dgetItem, hd]
          simp [hd']
          rfl
        rw [e] at hw
        obtain ⟨h1, h2⟩ := Call.tidy h hL hg (c := .delete k) hf hw
        exact .trie (s := { s with data := ddel s.data k }) (Prog.fine_left h1) (Prog.Plain.deleteCall _)
          fun x hx => h2 x (Prog.writes_left hx)
  | get k =>
    refine EProg.Nice.bind ?_ fun _ _ => trivial
    obtain ⟨h1, h2⟩ := Call.tidy h hL hg (c := .get k) hf hw0
    have hd : (EProg.dataItem k).Nice E log K s := by
      unfold EProg.dataItem EProg.Nice
      refine ⟨hk k rfl, ?_⟩
      cases dget s.data k <;> trivial
    refine EProg.Nice.bind (p := EProg.dataItem k) hd fun v hv => ?_
    · have e : ((EProg.dataItem k).alone s).2 = s := by
        simp only [EProg.dataItem, EProg.alone]
        cases dget s.data k <;> rfl
      rw [e]
      exact EProg.Nice.bind (p := EProg.trie _)
        (.trie (Prog.fine_left h1) (Prog.Quiet.getCall E _).plain fun x hx => h2 x (Prog.writes_left hx))
        fun _ _ => trivial
  | contains k => exact EProg.Nice.bind (hcontains k hf) fun _ _ => trivial

/-! ## The threads -/

/-- A thread, what is left of its calls, and what it would do alone (`own`: outcomes, and object in the end). -/
structure PoolThread (E : Env) (log K : List Bytes) (b : Bool) (own : List (Py EAns) × EMPT) (th : EThread) (S s : EMPT) :
    Prop where
  within : Within K s S
  secure : s.trie.secure = b
  keys : ∀ c ∈ th.rest, (∀ k ∈ c.dataKey?, k ∈ K) ∧ Fits E b c.key
  idle : th.cur = none → (∃ a, Bears E s.trie a) ∧
    own = (th.outs ++ (ECall.seqAll E th.rest s).1, (ECall.seqAll E th.rest s).2)
  busy : ∀ p, th.cur = some p → p.Nice E log K s ∧ (∃ a, Bears E (p.alone s).2.trie a) ∧
    (p.alone s).2.trie.secure = b ∧
    own = (th.outs ++ (p.alone s).1 :: (ECall.seqAll E th.rest (p.alone s).2).1, (ECall.seqAll E th.rest (p.alone s).2).2)

/-- All the threads. -/
structure PoolOk (E : Env) (log : List Bytes) (K : Nat → List Bytes) (secure : Nat → Bool)
    (own : Nat → List (Py EAns) × EMPT) (w : EPool) : Prop where
  gs : GS E log w.store
  sec : w.secure = secure
  thread : ∀ j, ∃ s, PoolThread E log (K j) (secure j) (own j) (w.threads j) (w.obj j) s

theorem GS.of_sub {E : Env} {log : List Bytes} {s S : Store} (h : GS E log S) (hs : Sub s S) : GS E log s :=
  fun k v e => h k v (hs k v e)

section
variable {E : Env} {log : List Bytes} {K : Nat → List Bytes} {secure : Nat → Bool}
  {own : Nat → List (Py EAns) × EMPT} {w : EPool}

theorem PoolOk.setThread (h : PoolOk E log K secure own w) (j : Nat) (th : EThread)
    (ht : ∃ s, PoolThread E log (K j) (secure j) (own j) th (w.obj j) s) : PoolOk E log K secure own (w.setThread j th) where
  gs := h.gs
  sec := h.sec
  thread i := by
    by_cases e : i = j
    · subst e
      simp only [EPool.setThread, if_true]
      exact ht
    · simp only [EPool.setThread, if_neg e]
      exact h.thread i

theorem PoolOk.step (hL : LogOk E log) (hd : ∀ i j, i ≠ j → ∀ k ∈ K i, k ∉ K j)
    (ho : ∀ j, ∀ x ∈ (own j).2.trie.store.written, x ∈ log)
    (h : PoolOk E log K secure own w) (j : Nat) : PoolOk E log K secure own (w.step E j) := by
  obtain ⟨s, hs⟩ := h.thread j
  have hgs : GS E log s.trie.store := h.gs.of_sub hs.within.sub
  cases hcur : (w.threads j).cur with
  | none =>
    cases hrest : (w.threads j).rest with
    | nil =>
      have e : w.step E j = w := by unfold EPool.step; simp only [hcur, hrest]
      rw [e]; exact h
    | cons c rest =>
      have e : w.step E j = w.setThread j { w.threads j with cur := some (c.prog E (w.secure j)), rest := rest } := by
        unfold EPool.step; simp only [hcur, hrest]
      rw [e]
      obtain ⟨hb, hown⟩ := hs.idle hcur
      have hc := hs.keys c (by rw [hrest]; exact List.mem_cons_self)
      rw [hrest] at hown
      have hw : ∀ x ∈ (c.seq E s).2.trie.store.written, x ∈ log := fun x hx => by
        apply ho j
        rw [hown]
        exact ECall.seqAll_writes E rest _ x hx
      have hf : Fits E s.trie.secure c.key := by rw [hs.secure]; exact hc.2
      have hpa := ECall.prog_alone E c s
      have hni := ECall.nice hb hL hgs hf hc.1 hw
      rw [hs.secure] at hpa hni
      refine h.setThread j _ ⟨s, hs.within, hs.secure, fun c' hc' => hs.keys c' (by rw [hrest]; exact List.mem_cons_of_mem _ hc'),
        fun e => (nomatch e), fun p hp => ?_⟩
      injection hp with hp
      subst hp
      rw [h.sec, hpa]
      exact ⟨hni, ECall.seq_bears hb hf (hL.mono hw), by rw [ECall.seq_secure, hs.secure], hown⟩
  | some p =>
    obtain ⟨hn, hb, hsec, hown⟩ := hs.busy p hcur
    have move : PoolOk E log K secure own
        ((w.setThread j { w.threads j with cur := some (EWorld.access p (w.obj j)).2 }).put j
          (EWorld.access p (w.obj j)).1) := by
      obtain ⟨a1, a2, a3, a4, a5⟩ := hs.within.access hL h.gs hn
      refine ⟨a3, h.sec, fun i => ?_⟩
      by_cases e : i = j
      · subst e
        have eo : ((w.setThread i { w.threads i with cur := some (EWorld.access p (w.obj i)).2 }).put i
            (EWorld.access p (w.obj i)).1).obj i = (EWorld.access p (w.obj i)).1 := by
          have e1 : w.secure i = (EWorld.access p (w.obj i)).1.trie.secure := (EProg.access_secure p (w.obj i)).symm
          generalize EWorld.access p (w.obj i) = x at e1 ⊢
          obtain ⟨⟨⟨st, r, b⟩, d⟩, q⟩ := x
          simp only [EPool.obj, EPool.put, EPool.setThread, if_true] at e1 ⊢
          rw [e1]
        have et : ((w.setThread i { w.threads i with cur := some (EWorld.access p (w.obj i)).2 }).put i
            (EWorld.access p (w.obj i)).1).threads i = { w.threads i with cur := some (EWorld.access p (w.obj i)).2 } := by
          simp [EPool.put, EPool.setThread]
        rw [eo, et]
        refine ⟨(EWorld.access p s).1, a2, (EProg.access_secure p s).trans hs.secure, hs.keys, fun e => (nomatch e),
          fun q hq => ?_⟩
        injection hq with hq
        subst hq
        rw [a1, EProg.alone_access]
        exact ⟨hn.access, hb, hsec, hown⟩
      · obtain ⟨s', hs'⟩ := h.thread i
        have et : ((w.setThread j { w.threads j with cur := some (EWorld.access p (w.obj j)).2 }).put j
            (EWorld.access p (w.obj j)).1).threads i = w.threads i := by
          simp [EPool.put, EPool.setThread, e]
        rw [et]
        refine ⟨s', ⟨hs'.within.sub.trans a4, ?_, hs'.within.secure, fun k hk => ?_⟩, hs'.secure, hs'.keys, hs'.idle, hs'.busy⟩
        · simp only [EPool.obj, EPool.put, EPool.setThread, if_neg e]
          exact hs'.within.root
        · exact (a5 k (hd i j e k hk)).trans (hs'.within.data k hk)
    cases p with
    | done r =>
      have e : w.step E j = w.setThread j { w.threads j with cur := none, outs := (w.threads j).outs ++ [r] } := by
        unfold EPool.step; simp only [hcur]
      rw [e]
      refine h.setThread j _ ⟨s, hs.within, hs.secure, hs.keys, fun _ => ⟨hb, ?_⟩, fun p hp => (nomatch hp)⟩
      simpa [EProg.alone] using hown
    | load | save | root | setRoot | data | setData | delData =>
      unfold EPool.step
      simp only [hcur]
      exact move

theorem PoolOk.run (hL : LogOk E log) (hd : ∀ i j, i ≠ j → ∀ k ∈ K i, k ∉ K j)
    (ho : ∀ j, ∀ x ∈ (own j).2.trie.store.written, x ∈ log)
    (h : PoolOk E log K secure own w) (sched : List Nat) : PoolOk E log K secure own (w.run E sched) := by
  induction sched generalizing w with
  | nil => exact h
  | cons j sched ih => exact ih (h.step hL hd ho j)

end

theorem PoolOk.new (E : Env) (log : List Bytes) (secure : Nat → Bool) (calls : Nat → List ECall)
    (hf : ∀ j, ∀ c ∈ calls j, Fits E (secure j) c.key) :
    PoolOk E log (fun j => (calls j).filterMap ECall.dataKey?) secure
      (fun j => ECall.seqAll E (calls j) (EMPT.new E (secure j))) (EPool.new E secure calls) where
  gs := GS.empty E log
  sec := rfl
  thread j := ⟨EMPT.new E (secure j), ⟨Sub.refl _, rfl, rfl, fun _ _ => rfl⟩, rfl,
    fun c hc => ⟨fun _ hk => List.mem_filterMap.2 ⟨c, hc, hk⟩, hf j c hc⟩, fun _ => ⟨⟨_, Bears.new E (secure j)⟩, rfl⟩, fun _ hp => (nomatch hp)⟩

end Pymt
