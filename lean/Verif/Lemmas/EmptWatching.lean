import Verif.Lemmas.Watching
import Verif.Lemmas.EmptCrash
import Verif.Spec.EmptWatching

/-!
# Lemmas: a thread that reads an `EMPT` while another one writes
-/

namespace Pymt

namespace EProg
variable {α β : Type}

theorem alone_bind (p : EProg α) (f : α → EProg β) (s : EMPT) :
    (p >>= f).alone s = match p.alone s with
      | (.ok a, s') => (f a).alone s'
      | (.error e, s') => (.error e, s') := by
  show (p.bind f).alone s = _
  induction p generalizing s with
  | done r => cases r <;> rfl
  | load k n ih =>
    simp only [EProg.bind, alone]
    cases dget s.trie.store.kv k with
    | none => rfl
    | some v => exact ih v _
  | save k v n ih => exact ih _
  | root n ih => exact ih _ _
  | setRoot r n ih => exact ih _
  | data k n ih =>
    simp only [EProg.bind, alone]
    cases dget s.data k with
    | none => rfl
    | some v => exact ih v _
  | setData k v n ih => exact ih _
  | delData k n ih =>
    simp only [EProg.bind, alone]
    cases dget s.data k with
    | none => rfl
    | some v => exact ih _

theorem states_bind (p : EProg α) (f : α → EProg β) (s : EMPT) :
    (p >>= f).states s = p.states s ++ match p.alone s with
      | (.ok a, s') => (f a).states s'
      | (.error _, _) => [] := by
  show (p.bind f).states s = _
  induction p generalizing s with
  | done r => cases r <;> rfl
  | load k n ih =>
    simp only [EProg.bind, alone, states]
    cases dget s.trie.store.kv k with
    | none => rfl
    | some v => exact congrArg (s :: ·) (ih v _)
  | save k v n ih => exact congrArg (_ :: ·) (ih _)
  | root n ih => exact congrArg (s :: ·) (ih _ _)
  | setRoot r n ih => exact congrArg (_ :: ·) (ih _)
  | data k n ih =>
    simp only [EProg.bind, alone, states]
    cases dget s.data k with
    | none => rfl
    | some v => exact congrArg (s :: ·) (ih v _)
  | setData k v n ih => exact congrArg (_ :: ·) (ih _)
  | delData k n ih =>
    simp only [EProg.bind, alone, states]
    cases dget s.data k with
    | none => rfl
    | some v => exact congrArg (_ :: ·) (ih _)

theorem along_bind (V : Nat → EMPT) (p : EProg α) (f : α → EProg β) (m : Nat) :
    (p >>= f).along V m = match p.along V m with
      | (.ok a, m') => (f a).along V m'
      | (.error e, m') => (.error e, m') := by
  show (p.bind f).along V m = _
  induction p generalizing m with
  | done r => cases r <;> rfl
  | load k n ih =>
    simp only [EProg.bind, along]
    cases dget (V m).trie.store.kv k with
    | none => rfl
    | some v => exact ih v _
  | save k v n ih => exact ih _
  | root n ih => exact ih _ _
  | setRoot r n ih => exact ih _
  | data k n ih =>
    simp only [EProg.bind, along]
    cases dget (V m).data k with
    | none => rfl
    | some v => exact ih v _
  | setData k v n ih => exact ih _
  | delData k n ih => exact ih _

theorem trie_alone (p : Prog α) (s : EMPT) :
    (trie p).alone s = ((p.alone s.trie).1, { s with trie := (p.alone s.trie).2 }) := by
  induction p generalizing s with
  | done r => rfl
  | load k n ih =>
    simp only [trie, alone, Prog.alone]
    cases dget s.trie.store.kv k with
    | none => rfl
    | some v => exact ih v _
  | save k v n ih => exact ih _
  | root n ih => exact ih _ _
  | setRoot r n ih => exact ih _

theorem trie_along (V : Nat → EMPT) (p : Prog α) (m : Nat) :
    (trie p).along V m = p.along (fun n => (V n).trie) m := by
  induction p generalizing m with
  | done r => rfl
  | load k n ih =>
    simp only [trie, along, Prog.along]
    cases dget (V m).trie.store.kv k with
    | none => rfl
    | some v => exact ih v _
  | save k v n ih => exact ih _
  | root n ih => exact ih _ _
  | setRoot r n ih => exact ih _

end EProg

/-! ## The programs do what the methods do -/

theorem EMPT.getCall_alone (E : Env) (k : Bytes) (s : EMPT) :
    (EMPT.getCallP E s.trie.secure k).alone s = (s.get E k, s) := by
  unfold EMPT.getCallP EMPT.get EProg.dataItem
  rw [EProg.alone_bind]
  simp only [EProg.alone, dgetItem]
  cases dget s.data k with
  | none => rfl
  | some v =>
    simp only [Except.bind_ok']
    have h : (MPT.getCallP E (if s.trie.secure then E.keccak k else k)).alone s.trie = (s.trie.get E k, s.trie) :=
      Prog.Reads.getCall E k
    rw [EProg.alone_bind, EProg.trie_alone, h]
    cases s.trie.get E k with
    | error e => rfl
    | ok enc => rfl

theorem EMPT.containsCall_alone (E : Env) (k : Bytes) (s : EMPT) :
    (EMPT.containsCallP E s.trie.secure k).alone s = (s.contains E k, s) := by
  have h : (MPT.containsCallP E (if s.trie.secure then E.keccak k else k)).alone s.trie =
      (s.trie.contains E k, s.trie) := Prog.Reads.containsCall E k
  unfold EMPT.containsCallP EMPT.contains
  rw [EProg.trie_alone, h]

theorem EMPT.putP_alone (E : Env) (k : Bytes) {v : Value} (hv : v.storable = true) (s : EMPT) :
    (EMPT.putP E s.trie.secure k v).alone s = EMPT.update E k v s := by
  have h : (MPT.updateCallP E (if s.trie.secure then E.keccak k else k) (refOf E k v)).alone s.trie =
      MPT.update E k (refOf E k v) s.trie := Prog.updateCall_alone E k _ _
  rw [EMPT.update_storable hv]
  unfold EMPT.putP
  rw [Props.ofValue_storable hv]
  show (EProg.trie (MPT.updateCallP E _ (refOf E k v)) >>= fun _ => _).alone s = _
  rw [EProg.alone_bind, EProg.trie_alone, h]
  cases MPT.update E k (refOf E k v) s.trie with
  | mk r t => cases r <;> rfl

theorem EMPT.updateCallP_storable (E : Env) (b : Bool) (k : Bytes) {v : Value} (hv : v.storable = true) :
    EMPT.updateCallP E b k v = EMPT.putP E b k v := by
  match v, hv with
  | .bytes _, _ => rfl
  | .obj _ true true _, _ => rfl

theorem EMPT.updateCallP_other (E : Env) (b : Bool) (k : Bytes) {v : Value} (hv : v.storable = false) :
    ∃ e, EMPT.updateCallP E b k v = .done (.error e) ∧ ∀ s, EMPT.update E k v s = (.error e, s) := by
  match v, hv with
  | .bytearray _, _ => exact ⟨_, rfl, fun _ => rfl⟩
  | .obj _ false _ _, _ => exact ⟨_, rfl, fun _ => rfl⟩
  | .obj _ true false _, _ => exact ⟨_, rfl, fun _ => rfl⟩

theorem EMPT.deleteCall_alone (E : Env) (k : Bytes) (s : EMPT) :
    (EMPT.deleteCallP E s.trie.secure k).alone s = EMPT.delete E k s := by
  have h : (MPT.deleteCallP E (if s.trie.secure then E.keccak k else k)).alone s.trie =
      MPT.delete E k s.trie := Prog.deleteCall_alone E k _
  rw [EMPT.delete_eq]
  unfold EMPT.deleteCallP
  rw [EProg.alone_bind, EMPT.containsCall_alone]
  unfold EMPT.contains
  cases s.trie.contains E k with
  | error e => rfl
  | ok b =>
    cases b with
    | false => rfl
    | true =>
      simp only [Bool.not_true, Bool.false_eq_true, if_false, EMPT.dropP, EProg.alone]
      cases dget s.data k with
      | none => rfl
      | some v =>
        simp only
        rw [EProg.trie_alone]
        simp only
        rw [h]

/-- The program of a call, run alone, is the call. -/
theorem EOp.prog_alone (E : Env) (op : EOp) (s : EMPT) : (op.prog E s.trie.secure).alone s = EMPT.exec E op s := by
  cases op with
  | update k v =>
    show (EMPT.updateCallP E s.trie.secure k v).alone s = EMPT.update E k v s
    cases hv : v.storable with
    | true => rw [EMPT.updateCallP_storable E _ k hv]; exact EMPT.putP_alone E k hv s
    | false =>
      obtain ⟨e, h1, h2⟩ := EMPT.updateCallP_other E s.trie.secure k hv
      rw [h1, h2]; rfl
  | delete k => exact EMPT.deleteCall_alone E k s

/-! ## The states the object goes through -/

/-- A state, and the number of calls that have changed the trie. -/
structure Mark (E : Env) (log : List Bytes) (st : Nat → EMPT) (x : EMPT × Nat) : Prop where
  root : x.1.trie.root = (st x.2).trie.root
  sub : Sub (st x.2).trie.store x.1.trie.store
  gs : GS E log x.1.trie.store
  data : ∃ d, x.1.data = (st d).data

def Later (x y : EMPT × Nat) : Prop := x.2 ≤ y.2 ∧ Sub x.1.trie.store y.1.trie.store

theorem Later.refl (x : EMPT × Nat) : Later x x := ⟨Nat.le_refl _, Sub.refl _⟩
theorem Later.trans {x y z : EMPT × Nat} (h : Later x y) (h' : Later y z) : Later x z :=
  ⟨Nat.le_trans h.1 h'.1, h.2.trans h'.2⟩

/-- States with marks, the first not before `x`, the last not after `y`. -/
structure Marked (E : Env) (log : List Bytes) (st : Nat → EMPT) (x y : EMPT × Nat) (l : List EMPT)
    (ll : List (EMPT × Nat)) : Prop where
  states : ll.map (·.1) = l
  order : ll.Pairwise Later
  mark : ∀ z ∈ ll, Mark E log st z
  low : ∀ z ∈ ll, Later x z
  high : ∀ z ∈ ll, Later z y

section
variable {E : Env} {log : List Bytes} {st : Nat → EMPT} {x y z : EMPT × Nat} {l l' : List EMPT}
  {ll ll' : List (EMPT × Nat)} {α : Type}

theorem Marked.nil : Marked E log st x y [] [] := ⟨rfl, .nil, by simp, by simp, by simp⟩

theorem Marked.cons (hx : Mark E log st x) (hxy : Later x y) (h : Marked E log st x y l ll) :
    Marked E log st x y (x.1 :: l) (x :: ll) := by
  refine ⟨by rw [List.map_cons, h.states], List.pairwise_cons.2 ⟨h.low, h.order⟩, ?_, ?_, ?_⟩ <;>
    intro z hz <;> rcases List.mem_cons.1 hz with rfl | hz
  · exact hx
  · exact h.mark z hz
  · exact Later.refl _
  · exact h.low z hz
  · exact hxy
  · exact h.high z hz

theorem Marked.wide (h : Marked E log st x y l ll) {x' y' : EMPT × Nat} (hx : Later x' x) (hy : Later y y') :
    Marked E log st x' y' l ll :=
  ⟨h.states, h.order, h.mark, fun z hz => hx.trans (h.low z hz), fun z hz => (h.high z hz).trans hy⟩

theorem Marked.append (h : Marked E log st x y l ll) (h' : Marked E log st y z l' ll') (hxy : Later x y)
    (hyz : Later y z) : Marked E log st x z (l ++ l') (ll ++ ll') := by
  refine ⟨by rw [List.map_append, h.states, h'.states], List.pairwise_append.2 ⟨h.order, h'.order, ?_⟩, ?_, ?_, ?_⟩
  · exact fun a ha b hb => (h.high a ha).trans (h'.low b hb)
  all_goals
    intro w hw
    rcases List.mem_append.1 hw with hw | hw
  · exact h.mark w hw
  · exact h'.mark w hw
  · exact h.low w hw
  · exact hxy.trans (h'.low w hw)
  · exact (h.high w hw).trans hyz
  · exact h'.high w hw

/-- The states during a call on the trie. -/
theorem marked_trie (hL : LogOk E log) {q q' : Nat} (hq : q ≤ q') {p : Prog α} {s : EMPT}
    (hp : p.Plain E) (hs : Mark E log st (s, q)) (hw : ∀ w ∈ p.writes s.trie, w ∈ log)
    (hr : (p.alone s.trie).2.root = (st q').trie.root)
    (hst : (p.alone s.trie).2.store = (st q').trie.store) :
    Later (s, q) ({ s with trie := (p.alone s.trie).2 }, q') ∧
    ∃ ll, Marked E log st (s, q) ({ s with trie := (p.alone s.trie).2 }, q') ((EProg.trie p).states s) ll := by
  induction p generalizing s with
  | done r => exact ⟨⟨hq, Sub.refl _⟩, [], Marked.nil⟩
  | load k n ih =>
    simp only [Prog.alone, Prog.writes, EProg.trie, EProg.states] at hw hr hst ⊢
    cases hk : dget s.trie.store.kv k with
    | none => exact ⟨⟨hq, Sub.refl _⟩, [(s, q)], Marked.nil.cons hs ⟨hq, Sub.refl _⟩⟩
    | some v =>
      rw [hk] at hw hr hst
      obtain ⟨h0, ll, h⟩ := ih v (hp v) hs hw hr hst
      exact ⟨h0, (s, q) :: ll, h.cons hs h0⟩
  | save k v n ih =>
    have hv := hw v List.mem_cons_self
    have hk : k = E.keccak v := hp.1
    have hsub : Sub s.trie.store (s.trie.store.set k v) := by rw [hk]; exact hs.gs.sub_set hL hv
    have hs' : Mark E log st ({ s with trie := { s.trie with store := s.trie.store.set k v } }, q) :=
      ⟨hs.root, hs.sub.trans hsub, by rw [hk]; exact hs.gs.set hv hp.2.1, hs.data⟩
    obtain ⟨h0, ll, h⟩ := ih hp.2.2 hs' (fun w h => hw w (List.mem_cons_of_mem _ h)) hr hst
    have hx : Later (s, q) ({ s with trie := { s.trie with store := s.trie.store.set k v } }, q) :=
      ⟨Nat.le_refl _, hsub⟩
    exact ⟨hx.trans h0, _, (h.cons hs' h0).wide hx (Later.refl _)⟩
  | root n ih =>
    obtain ⟨h0, ll, h⟩ := ih _ (hp _) hs hw hr hst
    exact ⟨h0, (s, q) :: ll, h.cons hs h0⟩
  | setRoot r n ih =>
    obtain ⟨x, rfl⟩ := hp
    have hm : Mark E log st ({ s with trie := { s.trie with root := r } }, q') :=
      ⟨hr, by rw [← hst]; exact Sub.refl _, hs.gs, hs.data⟩
    have hx : Later (s, q) ({ s with trie := { s.trie with root := r } }, q') := ⟨hq, Sub.refl _⟩
    exact ⟨hx, _, ((Marked.nil (x := ({ s with trie := { s.trie with root := r } }, q'))).cons hm (Later.refl _)).wide
      hx (Later.refl _)⟩

/-- While a program only reads, the object stays as it is. -/
theorem marked_quiet {q : Nat} {p : Prog α} {s : EMPT} (hp : p.Quiet) (hs : Mark E log st (s, q)) :
    ∃ ll, Marked E log st (s, q) (s, q) ((EProg.trie p).states s) ll := by
  induction p with
  | done r => exact ⟨[], Marked.nil⟩
  | load k n ih =>
    simp only [EProg.trie, EProg.states]
    cases hk : dget s.trie.store.kv k with
    | none => exact ⟨[(s, q)], Marked.nil.cons hs (Later.refl _)⟩
    | some v =>
      obtain ⟨ll, h⟩ := ih v (hp v)
      exact ⟨(s, q) :: ll, h.cons hs (Later.refl _)⟩
  | save k v n ih => exact hp.elim
  | root n ih =>
    obtain ⟨ll, h⟩ := ih _ (hp _)
    exact ⟨(s, q) :: ll, h.cons hs (Later.refl _)⟩
  | setRoot r n ih => exact hp.elim

/-- The states during a call. -/
theorem marked_call (hL : LogOk E log) {q : Nat} (op : EOp) (hn : st (q + 1) = (EMPT.exec E op (st q)).2)
    (hg : GS E log (st q).trie.store) (hw : ∀ w ∈ (st (q + 1)).trie.store.written, w ∈ log) :
    Later (st q, q) (st (q + 1), q + 1) ∧
    ∃ ll, Marked E log st (st q, q) (st (q + 1), q + 1) ((op.prog E (st q).trie.secure).states (st q)) ll := by
  have hs : Mark E log st (st q, q) := ⟨rfl, Sub.refl _, hg, q, rfl⟩
  generalize hsq : st q = s at *
  cases op with
  | update k v =>
    change st (q + 1) = (EMPT.update E k v s).2 at hn
    show _ ∧ ∃ ll, Marked E log st _ _ ((EMPT.updateCallP E s.trie.secure k v).states s) ll
    cases hv : v.storable with
    | false =>
      obtain ⟨e, h1, h2⟩ := EMPT.updateCallP_other E s.trie.secure k hv
      rw [h2] at hn
      rw [h1, hn]
      exact ⟨⟨Nat.le_succ _, Sub.refl _⟩, [], Marked.nil⟩
    | true =>
      have ha : (MPT.updateCallP E (if s.trie.secure then E.keccak k else k) (refOf E k v)).alone s.trie =
        MPT.update E k (refOf E k v) s.trie := Prog.updateCall_alone E k _ _
      have ht : (st (q + 1)).trie = (MPT.update E k (refOf E k v) s.trie).2 := by
        rw [hn, EMPT.update_storable hv]
        cases MPT.update E k (refOf E k v) s.trie with
        | mk r t => cases r <;> rfl
      have hw' : ∀ w ∈ (MPT.updateCallP E (if s.trie.secure then E.keccak k else k) (refOf E k v)).writes s.trie,
          w ∈ log := by
        intro w h
        apply hw
        rw [ht, ← ha, Prog.alone_written]
        exact List.mem_append_right _ h
      obtain ⟨h0, ll, h⟩ := marked_trie (E := E) (st := st) hL (Nat.le_succ q) (Prog.Plain.updateCall _ _) hs hw'
        (by rw [ha, ht]) (by rw [ha, ht])
      rw [EMPT.updateCallP_storable E _ k hv]
      unfold EMPT.putP
      rw [Props.ofValue_storable hv]
      show _ ∧ ∃ ll, Marked E log st _ _ ((EProg.trie (MPT.updateCallP E _ (refOf E k v)) >>= fun _ => _).states s) ll
      rw [EProg.states_bind, EProg.trie_alone]
      rw [ha] at h h0 ⊢
      have hg' : GS E log (st (q + 1)).trie.store := by
        rw [ht, ← ha]
        exact Prog.alone_gs _ _ (Prog.Plain.updateCall _ _) hg hw'
      rw [EMPT.update_storable hv] at hn
      generalize MPT.update E k (refOf E k v) s.trie = x at hn h h0 ht
      have hsame : Later ({ s with trie := x.2 }, q + 1) (st (q + 1), q + 1) :=
        ⟨Nat.le_refl _, by rw [ht]; exact Sub.refl _⟩
      obtain ⟨r, t⟩ := x
      cases r with
      | error e =>
        refine ⟨h0.trans hsame, ll, ?_⟩
        simp only [List.append_nil]
        exact h.wide (Later.refl _) hsame
      | ok u =>
        simp only at hn h h0 hsame ⊢
        refine ⟨h0.trans hsame, ll ++ [(st (q + 1), q + 1)], ?_⟩
        have hm : Mark E log st (st (q + 1), q + 1) := ⟨rfl, Sub.refl _, hg', q + 1, rfl⟩
        have := (h.wide (Later.refl _) hsame).append ((Marked.nil (x := (st (q + 1), q + 1))).cons hm (Later.refl _))
          (h0.trans hsame) (Later.refl _)
        rw [hn] at this ⊢
        exact this
  | delete k =>
    change st (q + 1) = (EMPT.delete E k s).2 at hn
    show _ ∧ ∃ ll, Marked E log st _ _ ((EMPT.deleteCallP E s.trie.secure k).states s) ll
    obtain ⟨l1, h1⟩ := marked_quiet (E := E) (st := st)
      (p := MPT.containsCallP E (if s.trie.secure then E.keccak k else k)) (Prog.Quiet.containsCall E _) hs
    unfold EMPT.deleteCallP
    rw [EProg.states_bind, EMPT.containsCall_alone]
    rw [EMPT.delete_eq] at hn
    unfold EMPT.contains
    have stop : st (q + 1) = s → Later (s, q) (st (q + 1), q + 1) ∧ ∃ ll, Marked E log st (s, q) (st (q + 1), q + 1)
        ((EMPT.containsCallP E s.trie.secure k).states s ++ []) ll := by
      intro e
      rw [e, List.append_nil]
      have : Later (s, q) (s, q + 1) := ⟨Nat.le_succ _, Sub.refl _⟩
      exact ⟨this, l1, h1.wide (Later.refl _) this⟩
    cases hc : s.trie.contains E k with
    | error e => rw [hc] at hn; exact stop hn
    | ok b =>
      cases b with
      | false => rw [hc] at hn; exact stop hn
      | true =>
        rw [hc] at hn
        simp only [Bool.not_true, Bool.false_eq_true, if_false, EMPT.dropP, EProg.states] at hn ⊢
        cases hd : dget s.data k with
        | none =>
          rw [hd] at hn
          obtain ⟨h0, ll, h⟩ := stop hn
          simp only
          refine ⟨h0, l1 ++ [(s, q)], ?_⟩
          exact h1.append (((Marked.nil (x := (s, q))).cons hs h0)) (Later.refl _) h0
        | some w =>
          rw [hd] at hn
          simp only at hn ⊢
          have ha : (MPT.deleteCallP E (if s.trie.secure then E.keccak k else k)).alone s.trie =
            MPT.delete E k s.trie := Prog.deleteCall_alone E k _
          have hs' : Mark E log st ({ s with data := ddel s.data k }, q) :=
            ⟨hs.root, hs.sub, hs.gs, q + 1, by rw [hn]⟩
          have hw' : ∀ w ∈ (MPT.deleteCallP E (if s.trie.secure then E.keccak k else k)).writes s.trie,
              w ∈ log := by
            intro w h
            apply hw
            rw [hn]
            simp only
            rw [← ha, Prog.alone_written]
            exact List.mem_append_right _ h
          obtain ⟨h0, ll, h⟩ := marked_trie (E := E) (st := st) hL (Nat.le_succ q)
            (s := { s with data := ddel s.data k }) (Prog.Plain.deleteCall _) hs' hw'
            (by simp only; rw [ha, hn]) (by simp only; rw [ha, hn])
          simp only at h0 h
          rw [ha, ← hn] at h0 h
          have hx : Later (s, q) ({ s with data := ddel s.data k }, q) := ⟨Nat.le_refl _, Sub.refl _⟩
          exact ⟨hx.trans h0, _, h1.append ((h.cons hs' h0).wide hx (Later.refl _)) (Later.refl _) (hx.trans h0)⟩

/-- The states during several calls. -/
theorem marked_passes (hL : LogOk E log) (mid : List EOp)
    (hn : ∀ q op, mid[q]? = some op → st (q + 1) = (EMPT.exec E op (st q)).2)
    (hg : ∀ q, GS E log (st q).trie.store) (hw : ∀ q, ∀ w ∈ (st q).trie.store.written, w ∈ log)
    {ops : List EOp} {q : Nat} (ho : ops = mid.drop q) :
    ∃ y ll, Later (st q, q) y ∧ Marked E log st (st q, q) y (EMPT.passes E (st q) ops) ll := by
  have hs : ∀ q, Mark E log st (st q, q) := fun q => ⟨rfl, Sub.refl _, hg q, q, rfl⟩
  induction ops generalizing q with
  | nil => exact ⟨_, _, Later.refl _, Marked.nil.cons (hs q) (Later.refl _)⟩
  | cons op ops ih =>
    have hop : mid[q]? = some op := drop_get ho.symm
    have hrest : ops = mid.drop (q + 1) := by
      have := congrArg List.tail ho
      simpa using this
    have hnext := hn q op hop
    obtain ⟨h0, l1, h1⟩ := marked_call hL op hnext (hg q) (hw (q + 1))
    obtain ⟨y, l2, h2, h3⟩ := ih hrest
    refine ⟨y, ((st q, q) :: l1) ++ l2, h0.trans h2, ?_⟩
    unfold EMPT.passes
    rw [← hnext]
    exact (h1.cons (hs q) h0).append h3 h0 h2

end

/-! ## A reader -/

section
variable {E : Env} {secure : Bool} {pre mid : List EOp} {ks : List Bytes}

/-- A call on the trie that belongs to a call on the `EMPT`; one that changes nothing where there is none. -/
def EOp.toCall (E : Env) : EOp → Call
  | .update k v => if v.storable then .update k (refOf E k v) else .get k
  | .delete k => .delete k

theorem writesOf_toCall (j : Nat) (ops : List EOp) :
    writesOf (ops.map fun op => (j, op.toCall E)) = refOps E ops := by
  induction ops with
  | nil => rfl
  | cons op ops ih =>
    rw [refOps, List.flatMap_cons, ← refOps, ← ih]
    cases op with
    | update k v => cases hv : v.storable <;> simp [writesOf, EOp.toCall, refOp, hv, Call.op?]
    | delete k => simp [writesOf, EOp.toCall, refOp, Call.op?]

theorem EValid.prefix {ops ops' : List EOp} (h : EValid E secure (ops ++ ops') ks) : EValid E secure ops ks := by
  have := h.cut
  exact ⟨this.fits, h.fitsq, this.sizes, this.log, fun hs => (this.keys hs).mono (by
    intro a ha
    simp only [List.mem_append] at ha ⊢
    rcases ha with ha | ha
    · exact .inl (.inl ha)
    · exact .inr ha)⟩

/-- The object after `q` of the calls. -/
def midState (E : Env) (secure : Bool) (pre mid : List EOp) (q : Nat) : EMPT :=
  EMPT.after E secure (pre ++ mid.take q)

theorem EValid.midTake (h : EValid E secure (pre ++ mid) ks) (q : Nat) : EValid E secure (pre ++ mid.take q) ks := by
  have : pre ++ mid = (pre ++ mid.take q) ++ mid.drop q := by rw [List.append_assoc, List.take_append_drop]
  rw [this] at h
  exact h.prefix

theorem midState_next {q : Nat} {op : EOp} (h : mid[q]? = some op) :
    midState E secure pre mid (q + 1) = (EMPT.exec E op (midState E secure pre mid q)).2 := by
  unfold midState
  rw [List.take_add_one, h, ← List.append_assoc, EMPT.after_append]
  rfl

theorem EValid.peaceful (h : EValid E secure (pre ++ mid) ks) :
    Peaceful E (fun _ => secure) (fun j => (pre ++ mid).map fun op => (j, op.toCall E))
      (EMPT.after E secure (pre ++ mid)).trie.store.written where
  one := by
    intro j c hc _
    obtain ⟨op, _, rfl⟩ := List.mem_map.1 hc
    rfl
  fits := by
    intro j c hc
    obtain ⟨op, ho, rfl⟩ := List.mem_map.1 hc
    have := h.fits op ho
    cases op with
    | update k v => simp only [EOp.toCall]; split <;> exact this
    | delete k => exact this
  all := fun j w hw => by
    rw [writesOf_toCall, ← h.mirror.trie] at hw
    exact hw
  log := h.log

theorem EValid.midState_trie (h : EValid E secure (pre ++ mid) ks) (q : Nat) :
    (midState E secure pre mid q).trie = stateAt E (fun _ => secure)
      (fun j => (pre ++ mid).map fun op => (j, op.toCall E)) 0 (pre.length + q) := by
  unfold midState stateAt
  rw [← List.map_take, writesOf_toCall, (h.midTake q).mirror.trie]
  congr 2
  rw [List.take_append, List.take_of_length_le (l := pre) (by omega), Nat.add_sub_cancel_left]

theorem EValid.views (h : EValid E secure (pre ++ mid) ks) {V : Nat → EMPT}
    (hV : Sees (EMPT.passes E (EMPT.after E secure pre) mid) V) :
    (∃ e, Views E (EMPT.after E secure (pre ++ mid)).trie.store.written secure
      (fun q => (midState E secure pre mid q).trie) e (fun n => (V n).trie)) ∧
    ∀ n, ∃ d, (V n).data = (midState E secure pre mid d).data := by
  have hp := h.peaceful
  have hok : ∀ q, StOk E (EMPT.after E secure (pre ++ mid)).trie.store.written secure
      (midState E secure pre mid q).trie := by
    intro q
    rw [h.midState_trie q]
    exact hp.stOk 0 _
  have h0 : midState E secure pre mid 0 = EMPT.after E secure pre := by unfold midState; simp
  obtain ⟨y, ll, _, hm⟩ := marked_passes (E := E) (st := midState E secure pre mid) h.log mid
    (fun q op => midState_next) (fun q => (hok q).gs) (fun q => (hok q).written) (q := 0) rfl
  obtain ⟨mom, hmono, hsee⟩ := hV
  have hst := hm.states
  rw [List.drop_zero, h0] at hst
  rw [← hst] at hsee
  have hx : ∀ n, ∃ x, ll[mom n]? = some x ∧ x.1 = V n := by
    intro n
    have := hsee n
    rw [List.getElem?_map] at this
    cases hl : ll[mom n]? with
    | none => rw [hl] at this; exact (nomatch this)
    | some x => rw [hl] at this; injection this with this; exact ⟨x, rfl, this⟩
  have hmark : ∀ n x, ll[mom n]? = some x → Mark E _ (midState E secure pre mid) x :=
    fun n x hx => hm.mark x (List.mem_of_getElem? hx)
  have hlater : ∀ n x y, ll[mom n]? = some x → ll[mom (n + 1)]? = some y → Later x y := by
    intro n x y hx hy
    rcases Nat.lt_or_eq_of_le (hmono n) with hlt | he
    · obtain ⟨h1, rfl⟩ := List.getElem?_eq_some_iff.1 hx
      obtain ⟨h2, rfl⟩ := List.getElem?_eq_some_iff.1 hy
      exact List.pairwise_iff_getElem.1 hm.order _ _ h1 h2 hlt
    · rw [he, hy] at hx
      injection hx with hx
      rw [hx]; exact Later.refl _
  refine ⟨⟨fun n => match ll[mom n]? with | some x => x.2 | none => 0, ?_⟩, fun n => ?_⟩
  · refine ⟨hok, fun n => ?_, fun n => ?_, fun n => ?_, fun n => ?_, fun n => ?_, h.log, fun q q' hq => ?_⟩
    · obtain ⟨x, h1, h2⟩ := hx n
      obtain ⟨y, h3, h4⟩ := hx (n + 1)
      simp only [h1, h3]
      exact (hlater n x y h1 h3).1
    · obtain ⟨x, h1, h2⟩ := hx n
      simp only [h1, ← h2]
      exact (hmark n x h1).root
    · obtain ⟨x, h1, h2⟩ := hx n
      simp only [h1, ← h2]
      exact (hmark n x h1).sub
    · obtain ⟨x, h1, h2⟩ := hx n
      obtain ⟨y, h3, h4⟩ := hx (n + 1)
      rw [← h2, ← h4]
      exact (hlater n x y h1 h3).2
    · obtain ⟨x, h1, h2⟩ := hx n
      simp only [← h2]
      exact (hmark n x h1).gs
    · rw [h.midState_trie q, h.midState_trie q']
      exact hp.root_stays 0 (Nat.add_le_add_left hq _)
  · obtain ⟨x, h1, h2⟩ := hx n
    rw [← h2]
    exact (hmark n x h1).data

/-- A reader that asks the trie inside for a key. -/
theorem Views.get {E : Env} {log : List Bytes} {sec : Bool} {st : Nat → MPT} {e : Nat → Nat} {V : Nat → MPT}
    (h : Views E log sec st e V) {k : Bytes} (hf : Fits E sec k) (m : Nat) :
    (∃ q, ((MPT.getCallP E (if sec then E.keccak k else k)).along V m).1 = (st q).get E k) ∨
    (((MPT.getCallP E (if sec then E.keccak k else k)).along V m).1 = .error .typeError ∧
      ∃ q, (st q).root = none) := by
  have hst := h.stage (c := .get k) rfl hf (p := (Call.get k).prog E sec) (lo := e m) (m := m) (Nat.le_refl _) .begin
  simp only [Call.prog] at hst
  rw [Prog.along_bind] at hst
  have inj : ∀ (x y : Py Bytes), x.map Ans.value = y.map Ans.value → x = y := by
    intro x y hxy
    cases x <;> cases y <;> simp_all [Except.map]
  generalize (MPT.getCallP E (if sec then E.keccak k else k)).along V m = r at hst
  have hst' : Answer E st (.get k) (fun _ => True) (r.1.map Ans.value) := by
    obtain ⟨x, m'⟩ := r
    cases x <;> exact hst.mono fun _ _ => trivial
  rcases hst' with ⟨q, _, hq⟩ | ⟨hx, q, q', _, _, _, _, hq⟩ | ⟨_, ⟨k', hk⟩, _⟩
  · exact .inl ⟨q, inj _ _ hq⟩
  · refine .inr ⟨?_, q', hq⟩
    obtain ⟨x, m'⟩ := r
    cases x <;> simp_all [Except.map]
  · exact (nomatch hk)

end

end Pymt
