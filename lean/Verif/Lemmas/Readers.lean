import Verif.Lemmas.Peace

/-!
# Reading a trie another thread writes to
-/

namespace Pymt

theorem World.ended_step (E : Env) (w : World) (i j : Nat) : w.ended i ≤ (w.step E j).ended i := by
  by_cases hij : i = j
  · subst hij
    unfold World.step
    cases hcur : (w.threads i).cur with
    | none =>
      simp only [hcur]
      cases hrest : (w.threads i).rest with
      | nil => exact Nat.le_refl _
      | cons x rest =>
        simp only
        unfold World.ended; rw [World.setThread_same, hcur]; simp
    | some x =>
      obtain ⟨i', p⟩ := x
      cases p with
      | done r =>
        simp only [hcur]
        unfold World.ended; rw [World.setThread_same, hcur]; simp [Prog.over]
      | load k n =>
        simp only [hcur]
        cases dget w.store.kv k with
        | none => simp only; unfold World.ended; rw [World.setThread_same, hcur]; simp [Prog.over]
        | some v => simp only; unfold World.ended; rw [World.setThread_same, hcur]; simp [Prog.over]
      | save k v n =>
        simp only [hcur]
        unfold World.ended; simp only [World.setThread_same]; rw [hcur]; simp [Prog.over]
      | root n =>
        simp only [hcur]
        unfold World.ended; rw [World.setThread_same, hcur]; simp [Prog.over]
      | setRoot r n =>
        simp only [hcur]
        unfold World.ended; simp only [World.setThread_same]; rw [hcur]; simp [Prog.over]
  · have : (w.step E j).threads i = w.threads i := World.step_other E w hij
    unfold World.ended; rw [this]; exact Nat.le_refl _
where
  World.step_other (E : Env) (w : World) {i j : Nat} (h : i ≠ j) : (w.step E j).threads i = w.threads i := by
    unfold World.step
    cases hcur : (w.threads j).cur with
    | none =>
      simp only [hcur]
      cases hrest : (w.threads j).rest with
      | nil => rfl
      | cons x rest => exact World.setThread_other w _ h
    | some x =>
      obtain ⟨i', p⟩ := x
      cases p with
      | done r => simp only [hcur]; exact World.setThread_other w _ h
      | load k n =>
        simp only [hcur]
        cases dget w.store.kv k <;> exact World.setThread_other w _ h
      | save k v n => simp only [hcur]; exact World.setThread_other w _ h
      | root n => simp only [hcur]; exact World.setThread_other w _ h
      | setRoot r n => simp only [hcur]; exact World.setThread_other w _ h

theorem World.step_other (E : Env) (w : World) {i j : Nat} (h : i ≠ j) :
    (w.step E j).threads i = w.threads i := World.ended_step.World.step_other E w h

theorem World.ended_run (E : Env) (w : World) (i : Nat) (sched : List Nat) : w.ended i ≤ (w.run E sched).ended i := by
  induction sched generalizing w with
  | nil => exact Nat.le_refl _
  | cons j sched ih => exact Nat.le_trans (w.ended_step E i j) (ih _)

theorem WorldOk.step_sub {E : Env} {secure : Nat → Bool} {calls : Nat → List (Nat × Call)} {log : List Bytes}
    {w : World} (hp : Peaceful E secure calls log) (h : WorldOk E secure calls log w) (j : Nat) :
    Sub w.store (w.step E j).store := by
  unfold World.step
  cases hcur : (w.threads j).cur with
  | none =>
    simp only [hcur]
    cases hrest : (w.threads j).rest with
    | nil => exact Sub.refl _
    | cons x rest => exact Sub.refl _
  | some x =>
    obtain ⟨i', p⟩ := x
    cases p with
    | done r => simp only [hcur]; exact Sub.refl _
    | load k n =>
      simp only [hcur]
      cases dget w.store.kv k <;> exact Sub.refl _
    | save k v n =>
      simp only [hcur]
      obtain ⟨c, hd, hq, ha⟩ := (h.thread j).busy _ _ hcur
      by_cases hij : i' = j
      · obtain ⟨a1, a2, a3, a4⟩ := (ha hij).of_save
        show Sub w.store (w.store.set k v)
        rw [a2]; exact h.gs.sub_set hp.log a3
      · exact (hq hij).elim
    | root n => simp only [hcur]; exact Sub.refl _
    | setRoot r n => simp only [hcur]; exact Sub.refl _

namespace Prog

/-- The program does not care which of the roots that are no empty trie it reads; reading one of an empty trie ends it
with an answer in `esc`. -/
def Watch (E : Env) (R : Option Bytes) {α : Type} (esc : α → Prop) : Prog α → Prop
  | .done _ => True
  | .load _ n => ∀ v, Watch E R esc (n v)
  | .save _ _ _ => False
  | .root n => (∀ r, ((r = none ∨ r = some (emptyHash E)) ∧ ∃ a, n r = .done (.ok a) ∧ esc a) ∨ n r = n R) ∧
      Watch E R esc (n R)
  | .setRoot _ _ => False

namespace Watch
variable {E : Env} {R : Option Bytes} {α β : Type} {esc : α → Prop} {esc' : β → Prop}

theorem bind {p : Prog α} {f : α → Prog β} (h : Watch E R esc p)
    (he : ∀ a, esc a → ∃ b, f a = .done (.ok b) ∧ esc' b) (hf : ∀ a, Watch E R esc' (f a)) :
    Watch E R esc' (p >>= f) := by
  show Watch E R esc' (p.bind f)
  induction p with
  | done r => cases r with
    | ok a => exact hf a
    | error e => trivial
  | load k n ih => exact fun v => ih v (h v)
  | save k v n ih => exact h.elim
  | root n ih =>
    refine ⟨fun r => ?_, ih _ h.2⟩
    rcases h.1 r with ⟨h1, a, h2, h3⟩ | h1
    · obtain ⟨b, hb, hb'⟩ := he a h3
      exact .inl ⟨h1, b, (congrArg (·.bind f) h2).trans hb, hb'⟩
    · right
      show (n r).bind f = (n R).bind f
      rw [h1]
  | setRoot r n ih => exact h.elim

theorem lift (m : Py α) : Watch E R esc (Prog.lift m) := trivial
theorem raise (e : Err) : Watch E R esc (Prog.raise e : Prog α) := trivial
theorem pure (a : α) : Watch E R esc (Pure.pure a : Prog α) := trivial

/-- Nothing is read from the root in the first part. -/
theorem bind' {p : Prog α} {f : α → Prog β} (h : Watch E R (fun _ => False) p) (hf : ∀ a, Watch E R esc' (f a)) :
    Watch E R esc' (p >>= f) := h.bind (fun _ h => h.elim) hf

theorem getNode (ref : Option Bytes) : Watch E R (fun _ => False) (MPT.getNodeP ref) := by
  cases ref with
  | none => exact raise _
  | some ref =>
    refine bind' (p := MPT.rawP ref) ?_ fun raw => lift _
    unfold MPT.rawP
    split
    · exact fun _ => trivial
    · exact lift _

theorem get (f : Nat) (ref : Option Bytes) (path : NibblePath) :
    Watch E R (fun _ => False) (MPT.getP f ref path) := by
  induction f generalizing ref path with
  | zero => exact raise _
  | succ f ih =>
    unfold MPT.getP
    refine (getNode _).bind' fun node => (lift _).bind' fun n => ?_
    split
    · exact pure _
    · cases node with
      | leaf p d =>
        refine (lift _).bind' fun same => ?_
        split
        · exact pure _
        · exact raise _
      | ext p r =>
        refine (lift _).bind' fun pre => ?_
        split
        · exact (lift _).bind' fun m => ih _ _
        · exact raise _
      | branch bs d =>
        refine (lift _).bind' fun i => (lift _).bind' fun b => ?_
        split
        · exact ih _ _
        · exact raise _

theorem noRoot (hR : R ≠ none) (hR' : R ≠ some (emptyHash E)) : Watch E R (fun a => a = true) (MPT.noRootP E) := by
  refine ⟨fun r => ?_, ?_⟩
  · cases r with
    | none => exact .inl ⟨.inl rfl, true, rfl, rfl⟩
    | some r =>
      right
      cases R with
      | none => exact absurd rfl hR
      | some R => rfl
  · cases R with
    | none => exact absurd rfl hR
    | some R =>
      refine ⟨fun r => ?_, trivial⟩
      by_cases h : r = some (emptyHash E)
      · exact .inl ⟨.inr h, true, by rw [h]; simp [Pure.pure, Prog.bind], rfl⟩
      · right
        show Prog.done (.ok (r == _)) = Prog.done (.ok (some R == _))
        rw [beq_eq_false_iff_ne.2 h, beq_eq_false_iff_ne.2 hR']

theorem contains (hR : R ≠ none) (hR' : R ≠ some (emptyHash E)) (f : Nat) (ref : Option Bytes) (path : NibblePath) :
    Watch E R (fun a => a.1 = none) (MPT.containsP E f ref path) := by
  induction f generalizing ref path with
  | zero => exact raise _
  | succ f ih =>
    unfold MPT.containsP
    refine (noRoot hR hR').bind (fun a ha => ?_) fun no => ?_
    · subst ha; exact ⟨(none, path), rfl, rfl⟩
    split
    · exact pure _
    refine (getNode _).bind' fun node => (lift _).bind' fun n => ?_
    split
    · exact pure _
    · cases node with
      | leaf p d => exact pure _
      | ext p r =>
        refine (lift _).bind' fun pre => ?_
        split
        · exact (lift _).bind' fun m => ih _ _
        · exact pure _
      | branch bs d =>
        refine (lift _).bind' fun i => (lift _).bind' fun b => ?_
        split
        · exact ih _ _
        · exact pure _

end Watch

/-- A walk over the storage whatever roots are read on the way: it ends as `fin` says, or with `False` after reading
the root of an empty trie. -/
def Walk (E : Env) (esc : Prop) (fin : Py Ans → Prop) : Prog Ans → Store → Prop
  | .done x, _ => fin x
  | .load k n, S =>
    match dget S.kv k with
    | some v => Walk E esc fin (n v) S
    | none => k = emptyHash E ∧ fin (.error .keyError)
  | .save _ _ _, _ => False
  | .root n, S => ∀ r, ((r = none ∨ r = some (emptyHash E)) ∧ esc ∧ n r = .done (.ok (.bool false))) ∨
      Walk E esc fin (n r) S
  | .setRoot _ _, _ => False

theorem Walk.grow {E : Env} {L : List Bytes} {esc : Prop} {fin fin' : Py Ans → Prop} {p : Prog Ans} {S S' : Store}
    (hL : LogOk E L) (h : Walk E esc fin p S) (hs : Sub S S') (hg : GS E L S') (hfin : ∀ x, fin x → fin' x) :
    Walk E esc fin' p S' := by
  induction p with
  | done x => exact hfin _ h
  | load k n ih =>
    simp only [Walk] at h ⊢
    cases e : dget S.kv k with
    | none =>
      rw [e] at h
      simp only at h
      rw [h.1, hg.noEmpty hL]
      exact ⟨rfl, hfin _ h.2⟩
    | some v =>
      rw [e] at h
      rw [hs _ _ e]
      exact ih v h
  | save k v n ih => exact h.elim
  | root n ih =>
    intro r
    rcases h r with h | h
    · exact .inl h
    · exact .inr (ih r h)
  | setRoot r n ih => exact h.elim

theorem walk_of_watch {E : Env} {esc : Prop} {p : Prog Ans} {t : MPT}
    (hw : Watch E t.root (fun a => esc ∧ a = .bool false) p) (hf : p.Fine E t) :
    Walk E esc (fun x => x = (p.alone t).1) p t.store := by
  induction p with
  | done x => rfl
  | load k n ih =>
    simp only [Fine, alone, Walk] at hf ⊢
    cases e : dget t.store.kv k with
    | none => rw [e] at hf; exact ⟨hf, rfl⟩
    | some v =>
      rw [e] at hf
      exact ih v (hw v) hf
  | save k v n ih => exact hw.elim
  | root n ih =>
    intro r
    rcases hw.1 r with ⟨h1, a, h2, h3, h4⟩ | h1
    · exact .inl ⟨h1, h3, by rw [h2, h4]⟩
    · exact .inr (h1 ▸ ih _ hw.2 hf)
  | setRoot r n ih => exact hw.elim

end Prog

/-- A reading call after it has read the root twice. -/
def Call.second (E : Env) (secure : Bool) : Call → Option Bytes → Prog Ans
  | .get k, r => do
    let v ← (do
      let node ← MPT.getP E.limit r { data := if secure then E.keccak k else k }
      MPT.dataP node)
    return .value v
  | .contains k, r => do
    let b ← (do
      let res ← MPT.containsP E E.limit r { data := if secure then E.keccak k else k }
      MPT.hasP res)
    return .bool b
  | _, _ => .done (.ok .none)

/-- What a reading call returns if there is no root. -/
def Call.early : Call → Py Ans
  | .get _ => .error .valueError
  | _ => .ok (.bool false)

theorem Call.prog_read {E : Env} {secure : Bool} {c : Call} (h : c.op? = none) :
    c.prog E secure = .root fun r => if r.getD [] = [] then .done c.early else .root (c.second E secure) := by
  cases c with
  | update k v => exact (nomatch h)
  | delete k => exact (nomatch h)
  | get k =>
    show Prog.root _ = _
    congr 1
    funext r
    show Prog.bind (if r.getD [] = [] then _ else _ : Prog Bytes) _ = _
    split <;> rfl
  | contains k =>
    show Prog.root _ = _
    congr 1
    funext r
    show Prog.bind (if r.getD [] = [] then _ else _ : Prog Bool) _ = _
    split <;> rfl

/-- The outcomes a reading call may have when the trie was in the states `st q`, for all `q` in `G`, while it ran. -/
def Answer (E : Env) (st : Nat → MPT) (c : Call) (G : Nat → Prop) (x : Py Ans) : Prop :=
  (∃ q, G q ∧ x = (c.seq E (st q)).1) ∨
  (x = .error .typeError ∧ ∃ q q', G q ∧ G q' ∧ q ≤ q' ∧ (st q).root ≠ none ∧ (st q').root = none) ∨
  (x = .error .keyError ∧ (∃ k, c = .contains k) ∧ ∃ q q', G q ∧ G q' ∧ q ≤ q' ∧
    (st q).root = some (emptyHash E) ∧ (st q').root ≠ some (emptyHash E))

theorem Answer.mono {E : Env} {st : Nat → MPT} {c : Call} {G G' : Nat → Prop} {x : Py Ans}
    (h : Answer E st c G x) (hh : ∀ q, G q → G' q) : Answer E st c G' x := by
  rcases h with ⟨q, h1, h3⟩ | ⟨hx, q, q', h1, h2, h4⟩ | ⟨hx, hc, q, q', h1, h2, h4⟩
  · exact .inl ⟨q, hh q h1, h3⟩
  · exact .inr (.inl ⟨hx, q, q', hh q h1, hh q' h2, h4⟩)
  · exact .inr (.inr ⟨hx, hc, q, q', hh q h1, hh q' h2, h4⟩)

/-- Where a reading call may be. -/
inductive Stage (E : Env) (sec : Bool) (st : Nat → MPT) (c : Call) (G : Nat → Prop) (S : Store) : Prog Ans → Prop
  | begin : Stage E sec st c G S (c.prog E sec)
  | checked (q : Nat) (h1 : G q) (h : (st q).root ≠ none) :
      Stage E sec st c G S (.root (c.second E sec))
  | walk (p : Prog Ans) (h : p.Walk E (∃ k, c = .contains k) (Answer E st c G) S) :
      Stage E sec st c G S p
  | fresh (q : Nat) (n m : Option Bytes → Prog Ans) (h1 : G q)
      (h : (st q).root = some (emptyHash E)) (hc : ∃ k, c = .contains k)
      (hn : n none = .done (.ok (.bool false))) (hn' : ∀ r, n (some r) = .root m)
      (hm : m (some (emptyHash E)) = .done (.ok (.bool false)))
      (hm' : ∀ r, r ≠ some (emptyHash E) → ∃ g, m r = .load (emptyHash E) g) :
      Stage E sec st c G S (.root n)
  | fresh' (q : Nat) (m : Option Bytes → Prog Ans) (h1 : G q)
      (h : (st q).root = some (emptyHash E)) (hc : ∃ k, c = .contains k)
      (hm : m (some (emptyHash E)) = .done (.ok (.bool false)))
      (hm' : ∀ r, r ≠ some (emptyHash E) → ∃ g, m r = .load (emptyHash E) g) :
      Stage E sec st c G S (.root m)

section
variable {E : Env} {secure : Nat → Bool} {calls : Nat → List (Nat × Call)} {log : List Bytes} {i : Nat} {c : Call}
  {hi : Nat} {G : Nat → Prop} {S : Store} {sec : Bool} {st : Nat → MPT}

theorem Stage.grow {p : Prog Ans} {G' : Nat → Prop} {S' : Store} (hL : LogOk E log)
    (h : Stage E sec st c G S p) (hs : Sub S S') (hg : GS E log S') (hh : ∀ q, G q → G' q) :
    Stage E sec st c G' S' p := by
  cases h with
  | begin => exact .begin
  | checked q h1 h => exact .checked q (hh q h1) h
  | walk _ h => exact .walk _ (h.grow hL hs hg fun _ h => h.mono hh)
  | fresh q n m h1 h hc hn hn' hm hm' => exact .fresh q n m (hh q h1) h hc hn hn' hm hm'
  | fresh' q m h1 h hc hm hm' => exact .fresh' q m (hh q h1) h hc hm hm'

theorem contains_empty {t : MPT} {a : T} (h : Bears E t a) (hl : LogOk E t.store.written) {k : Bytes}
    (hf : Fits E t.secure k) (hr : t.root = none ∨ t.root = some (emptyHash E)) :
    ((Call.contains k).seq E t).1 = .ok (.bool false) := by
  have h1 := h.holds
  have hn : t.noRoot E = true := by unfold MPT.noRoot; rcases hr with hr | hr <;> simp [hr]
  rw [h1.noRoot hl] at hn
  have ha : a = .empty := by cases a <;> simp_all [T.isEmpty]
  subst ha
  show (t.contains E k).map _ = _
  rw [h1.contains hl (fits_nibs hf)]
  rfl

theorem seq_early {t : MPT} (h : c.op? = none) (hr : t.root.getD [] = []) : (c.seq E t).1 = c.early := by
  rw [← Call.prog_alone, Call.prog_read h]
  show Prod.fst (Prog.alone (if t.root.getD [] = [] then _ else _) t) = _
  rw [if_pos hr]; rfl

theorem seq_second {t : MPT} (h : c.op? = none) (hr : t.root.getD [] ≠ []) :
    (c.seq E t).1 = ((c.second E t.secure t.root).alone t).1 := by
  rw [← Call.prog_alone, Call.prog_read h]
  show Prod.fst (Prog.alone (if t.root.getD [] = [] then _ else _) t) = _
  rw [if_neg hr]; rfl

theorem fine_second {t : MPT} (h : c.op? = none) (hr : t.root.getD [] ≠ []) (hf : (c.prog E t.secure).Fine E t) :
    (c.second E t.secure t.root).Fine E t := by
  rw [Call.prog_read h] at hf
  change Prog.Fine E (if t.root.getD [] = [] then _ else _) t at hf
  rw [if_neg hr] at hf
  exact hf

theorem watch_second {R : Option Bytes} (h : c.op? = none)
    (hR : (∃ k, c = .contains k) → R ≠ none ∧ R ≠ some (emptyHash E)) :
    (c.second E sec R).Watch E R (fun a => (∃ k, c = .contains k) ∧ a = .bool false) := by
  cases c with
  | update k v => exact (nomatch h)
  | delete k => exact (nomatch h)
  | get k =>
    refine Prog.Watch.bind' (Prog.Watch.bind' (Prog.Watch.get _ _ _) fun n => ?_) fun v => Prog.Watch.pure _
    cases n <;> trivial
  | contains k =>
    obtain ⟨h1, h2⟩ := hR ⟨k, rfl⟩
    refine Prog.Watch.bind (esc := fun b => b = false) (Prog.Watch.bind (Prog.Watch.contains h1 h2 _ _ _) ?_ ?_) ?_
      fun v => Prog.Watch.pure _
    · rintro ⟨n, p⟩ e
      simp only at e
      subst e
      exact ⟨false, rfl, rfl⟩
    · rintro ⟨n, p⟩
      cases n with
      | none => trivial
      | some n => cases n <;> trivial
    · rintro a rfl
      exact ⟨.bool false, rfl, ⟨k, rfl⟩, rfl⟩

/-- `contains` that found no root on its second look. -/
theorem walk_none {k : Bytes} {fin : Py Ans → Prop} (hlim : 0 < E.limit) (hfin : fin (.error .typeError)) :
    ((Call.contains k).second E sec none).Walk E (∃ k', Call.contains k = .contains k') fin S := by
  obtain ⟨f, hf⟩ : ∃ f, E.limit = f + 1 := ⟨E.limit - 1, by omega⟩
  unfold Call.second
  simp only
  rw [hf]
  unfold MPT.containsP
  intro r
  cases r with
  | none => exact .inl ⟨.inl rfl, ⟨k, rfl⟩, rfl⟩
  | some r =>
    right
    intro r'
    by_cases h : r' = some (emptyHash E)
    · subst h
      left
      refine ⟨.inr rfl, ⟨k, rfl⟩, ?_⟩
      simp [Pure.pure, Prog.bind, bind]
      rfl
    · right
      have : (r' == some (emptyHash E)) = false := beq_eq_false_iff_ne.2 h
      simp only [bind, Prog.bind, Pure.pure, this]
      exact hfin

/-- `contains` that found the root of a new trie on its second look. -/
theorem stage_fresh {k : Bytes} (hlim : 0 < E.limit) {q : Nat} (h1 : G q)
    (h : (st q).root = some (emptyHash E)) :
    Stage E sec st (.contains k) G S ((Call.contains k).second E sec (some (emptyHash E))) := by
  obtain ⟨f, hf⟩ : ∃ f, E.limit = f + 1 := ⟨E.limit - 1, by omega⟩
  unfold Call.second
  simp only
  rw [hf]
  unfold MPT.containsP
  have e32 : (emptyHash E).length = 32 := E.keccak_len _
  refine Stage.fresh q _ _ h1 h ⟨k, rfl⟩ rfl (fun r => rfl) ?_ ?_
  · simp [Pure.pure, Prog.bind, bind]
    rfl
  · intro r hr
    have : (r == some (emptyHash E)) = false := beq_eq_false_iff_ne.2 hr
    simp only [bind, Prog.bind, Pure.pure, this, MPT.getNodeP, MPT.rawP, e32, if_true, Prog.loadItem]
    exact ⟨_, rfl⟩

theorem Stage.ofDone {x : Py Ans} (h : Stage E sec st c G S (.done x)) (hc : c.op? = none) :
    Answer E st c G x := by
  generalize hp : Prog.done x = p at h
  cases h with
  | begin => rw [Call.prog_read hc] at hp; exact (nomatch hp)
  | checked => exact (nomatch hp)
  | walk _ h => subst hp; exact h
  | fresh => exact (nomatch hp)
  | fresh' => exact (nomatch hp)

theorem Stage.ofLoad {k : Bytes} {n : Bytes → Prog Ans} (h : Stage E sec st c G S (.load k n))
    (hc : c.op? = none) :
    (∀ v, dget S.kv k = some v → Stage E sec st c G S (n v)) ∧
      (dget S.kv k = none → Stage E sec st c G S (.done (.error .keyError))) := by
  generalize hp : Prog.load k n = p at h
  cases h with
  | begin => rw [Call.prog_read hc] at hp; exact (nomatch hp)
  | checked => exact (nomatch hp)
  | walk _ h =>
    subst hp
    simp only [Prog.Walk] at h
    constructor
    · intro v e; rw [e] at h; exact .walk _ h
    · intro e; rw [e] at h; exact .walk _ h.2
  | fresh => exact (nomatch hp)
  | fresh' => exact (nomatch hp)

theorem Stage.noSave {k v : Bytes} {n : Prog Ans} (hc : c.op? = none) :
    ¬ Stage E sec st c G S (.save k v n) := by
  intro h
  generalize hp : Prog.save k v n = p at h
  cases h with
  | begin => rw [Call.prog_read hc] at hp; exact (nomatch hp)
  | checked => exact (nomatch hp)
  | walk _ h => subst hp; exact h
  | fresh => exact (nomatch hp)
  | fresh' => exact (nomatch hp)

theorem Stage.noSet {r : Option Bytes} {n : Prog Ans} (hc : c.op? = none) :
    ¬ Stage E sec st c G S (.setRoot r n) := by
  intro h
  generalize hp : Prog.setRoot r n = p at h
  cases h with
  | begin => rw [Call.prog_read hc] at hp; exact (nomatch hp)
  | checked => exact (nomatch hp)
  | walk _ h => subst hp; exact h
  | fresh => exact (nomatch hp)
  | fresh' => exact (nomatch hp)

/-- A state the trie may be in. -/
structure StOk (E : Env) (log : List Bytes) (sec : Bool) (t : MPT) : Prop where
  bears : ∃ a, Bears E t a
  written : ∀ w ∈ t.store.written, w ∈ log
  sec : t.secure = sec
  gs : GS E log t.store

/-- Reading the root. -/
theorem Stage.ofRoot {n : Option Bytes → Prog Ans} (hL : LogOk E log) (hst : StOk E log sec (st hi))
    (hc : c.op? = none) (hf : Fits E sec c.key) (hG : G hi) (hle : ∀ q, G q → q ≤ hi) (hs : Sub (st hi).store S) (hg : GS E log S)
    (h : Stage E sec st c G S (.root n)) :
    Stage E sec st c G S (n (st hi).root) := by
  obtain ⟨⟨m0, hinv⟩, hwr, hsec, hgs⟩ := hst
  have hlog : LogOk E (st hi).store.written := hL.mono hwr
  have hf' : Fits E (st hi).secure c.key := by rw [hsec]; exact hf
  have hlim : 0 < E.limit := by unfold Fits at hf; omega
  have now : ∀ x, x = (c.seq E (st hi)).1 →
      Stage E sec st c G S (.done x) :=
    fun x hx => .walk _ (.inl ⟨hi, hG, hx⟩)
  have no : (∃ k, c = .contains k) → ((st hi).root = none ∨
      (st hi).root = some (emptyHash E)) →
      Stage E sec st c G S (.done (.ok (.bool false))) := by
    rintro ⟨k, rfl⟩ hr
    exact now _ (contains_empty hinv hlog hf' hr).symm
  generalize hpr : Prog.root n = p at h
  cases h with
  | begin =>
    rw [Call.prog_read hc] at hpr
    injection hpr with hpr
    subst hpr
    simp only
    split
    · rename_i hr
      exact now _ (seq_early hc hr).symm
    · rename_i hr
      exact .checked hi hG fun e => hr (by rw [e]; rfl)
  | checked q h1 h =>
    injection hpr with hpr
    subst hpr
    have hne : (st hi).root ≠ none →
        (st hi).root.getD [] ≠ [] := by
      have ha := hinv.holds
      intro h0
      rcases ha.root with ⟨_, e | e⟩ | ⟨e1, e2⟩
      · exact absurd e h0
      · rw [e]; exact T.emptyHash_ne_nil E
      · rw [e2]; exact T.ref_ne_nil e1
    have walk : (st hi).root ≠ none →
        ((∃ k, c = .contains k) → (st hi).root ≠ some (emptyHash E)) →
        Stage E sec st c G S (c.second E sec (st hi).root) := by
      intro h0 h3
      have hfine := fine_second hc (hne h0) (fine_call hinv hL (hgs) hf'
        (by
          have : (c.seq E (st hi)).2 = st hi := by
            cases c with
            | update => exact (nomatch hc)
            | delete => exact (nomatch hc)
            | get => rfl
            | contains => rfl
          rw [this]; exact hlog))
      rw [hsec] at hfine
      have hw := Prog.walk_of_watch (esc := ∃ k, c = .contains k)
        (watch_second (sec := sec) hc fun hk => ⟨h0, h3 hk⟩) hfine
      refine .walk _ (hw.grow hL hs hg fun x hx => .inl ⟨hi, hG, hx.trans ?_⟩)
      rw [seq_second hc (hne h0), hsec]
    by_cases h0 : (st hi).root = none
    · rw [h0]
      have ht : Answer E st c G (.error .typeError) :=
        .inr (.inl ⟨rfl, q, hi, h1, hG, hle q h1, h, h0⟩)
      cases c with
      | update => exact (nomatch hc)
      | delete => exact (nomatch hc)
      | get k =>
        obtain ⟨f, hf⟩ : ∃ f, E.limit = f + 1 := ⟨E.limit - 1, by omega⟩
        unfold Call.second
        simp only
        rw [hf]
        exact .walk _ ht
      | contains k => exact .walk _ (walk_none hlim ht)
    · by_cases h4 : (st hi).root = some (emptyHash E)
      · cases c with
        | update => exact (nomatch hc)
        | delete => exact (nomatch hc)
        | get k => exact walk h0 fun ⟨_, e⟩ => (nomatch e)
        | contains k => rw [h4]; exact stage_fresh hlim hG h4
      · exact walk h0 fun _ => h4
  | walk _ h =>
    subst hpr
    rcases h (st hi).root with ⟨h1, h2, h3⟩ | h
    · rw [h3]; exact no h2 h1
    · exact .walk _ h
  | fresh q n' m h1 h hk hn hn' hm hm' =>
    injection hpr with hpr
    subst hpr
    cases h0 : (st hi).root with
    | none => rw [hn]; exact no hk (.inl h0)
    | some r => rw [hn']; exact .fresh' q m h1 h hk hm hm'
  | fresh' q m h1 h hk hm hm' =>
    injection hpr with hpr
    subst hpr
    by_cases h0 : (st hi).root = some (emptyHash E)
    · rw [h0, hm]; exact no hk (.inr h0)
    · obtain ⟨g, e⟩ := hm' _ h0
      rw [e]
      refine .walk _ ?_
      simp only [Prog.Walk]
      rw [hg.noEmpty hL]
      exact ⟨trivial, .inr (.inr ⟨rfl, hk, q, hi, h1, hG, hle q h1, h, h0⟩)⟩

theorem Peaceful.stOk (hp : Peaceful E secure calls log) (i q : Nat) :
    StOk E log (secure i) (stateAt E secure calls i q) :=
  ⟨⟨_, hp.state_bears i q⟩, hp.state_written i q, state_secure i q, hp.state_gs i q⟩

/-- A reading call between its beginning and the end. -/
structure Reader (E : Env) (secure : Nat → Bool) (calls : Nat → List (Nat × Call)) (j i : Nat) (c : Call)
    (n lo : Nat) (rest : List (Nat × Call)) (w : World) : Prop where
  low : lo ≤ w.ended i
  idle : (w.threads j).outs.length = n → (w.threads j).cur = none → (w.threads j).rest = (i, c) :: rest
  busy : (w.threads j).outs.length = n → ∀ i' p, (w.threads j).cur = some (i', p) → i' = i ∧
    Stage E (secure i) (stateAt E secure calls i) c (fun q => lo ≤ q ∧ q ≤ w.ended i) w.store p
  le : n ≤ (w.threads j).outs.length
  past : n < (w.threads j).outs.length → ∃ x, (w.threads j).outs[n]? = some x ∧
    Answer E (stateAt E secure calls i) c (fun q => lo ≤ q ∧ q ≤ w.ended i) x

theorem Reader.same {j n lo : Nat} {rest : List (Nat × Call)} {w w' : World} (hp : Peaceful E secure calls log)
    (h : Reader E secure calls j i c n lo rest w) (ht : w'.threads j = w.threads j) (hs : Sub w.store w'.store)
    (hg : GS E log w'.store) (he : w.ended i ≤ w'.ended i) : Reader E secure calls j i c n lo rest w' where
  low := Nat.le_trans h.low he
  idle := by rw [ht]; exact h.idle
  busy := by
    rw [ht]
    intro h1 i' p h2
    obtain ⟨h3, h4⟩ := h.busy h1 i' p h2
    exact ⟨h3, h4.grow hp.log hs hg fun _ h => ⟨h.1, Nat.le_trans h.2 he⟩⟩
  le := by rw [ht]; exact h.le
  past := by
    rw [ht]
    intro h1
    obtain ⟨x, h2, h3⟩ := h.past h1
    exact ⟨x, h2, h3.mono fun _ h => ⟨h.1, Nat.le_trans h.2 he⟩⟩

theorem Reader.set {j n lo : Nat} {rest rest' : List (Nat × Call)} {w w' : World} {p : Prog Ans}
    (h : Reader E secure calls j i c n lo rest w) {i' : Nat}
    (ht : w'.threads j = { cur := some (i', p), rest := rest', outs := (w.threads j).outs })
    (he : w.ended i ≤ w'.ended i)
    (hst : (w.threads j).outs.length = n → i' = i ∧ Stage E (secure i) (stateAt E secure calls i) c (fun q => lo ≤ q ∧ q ≤ w'.ended i) w'.store p) :
    Reader E secure calls j i c n lo rest w' where
  low := Nat.le_trans h.low he
  idle := by rw [ht]; intro _ e; exact (nomatch e)
  busy := by
    rw [ht]
    intro h1 i'' p' e
    injection e with e
    injection e with e1 e2
    subst e1 e2
    exact hst h1
  le := by rw [ht]; exact h.le
  past := by
    rw [ht]
    intro h1
    obtain ⟨x, h2, h3⟩ := h.past h1
    exact ⟨x, h2, h3.mono fun _ h => ⟨h.1, Nat.le_trans h.2 he⟩⟩

theorem Reader.step {j n lo : Nat} {rest : List (Nat × Call)} {w : World} (hp : Peaceful E secure calls log)
    (hc : c.op? = none) (hf : Fits E (secure i) c.key) (hw : WorldOk E secure calls log w)
    (h : Reader E secure calls j i c n lo rest w) (j' : Nat) :
    Reader E secure calls j i c n lo rest (w.step E j') := by
  have hw' := hw.step hp j'
  have hs := hw.step_sub hp j'
  have he := w.ended_step E i j'
  by_cases hj : j = j'
  · subst hj
    have hr := (hw.thread i).root
    have hsub := (hw.thread i).sub
    revert hw' hs he
    unfold World.step
    cases hcur : (w.threads j).cur with
    | none =>
      simp only [hcur]
      cases hrest : (w.threads j).rest with
      | nil => intro _ _ _; exact h
      | cons x rest' =>
        obtain ⟨i', c'⟩ := x
        simp only
        intro hw' hs he
        refine h.set (World.setThread_same _ _ _) he fun hn => ?_
        have := h.idle hn hcur
        rw [hrest] at this
        injection this with e1 e2
        injection e1 with e3 e4
        subst e3 e4
        refine ⟨rfl, ?_⟩
        rw [hw.sec]
        exact .begin
    | some x =>
      obtain ⟨i', p⟩ := x
      cases p with
      | done r =>
        simp only [hcur]
        intro hw' hs he
        refine ⟨Nat.le_trans h.low he, ?_, ?_, ?_, ?_⟩
        · rw [World.setThread_same]
          intro hn
          have := h.le
          simp at hn
          omega
        · rw [World.setThread_same]; intro _ _ _ e; exact (nomatch e)
        · rw [World.setThread_same]
          have := h.le
          simp; omega
        · rw [World.setThread_same]
          intro hlt
          show ∃ x, ((w.threads j).outs ++ [r])[n]? = some x ∧ _
          rcases Nat.lt_or_eq_of_le h.le with hl | hl
          · rw [List.getElem?_append_left hl]
            obtain ⟨x, h2, h3⟩ := h.past hl
            exact ⟨x, h2, h3.mono fun _ h => ⟨h.1, Nat.le_trans h.2 he⟩⟩
          · rw [hl, List.getElem?_concat_length]
            obtain ⟨h3, h4⟩ := h.busy hl.symm _ _ hcur
            exact ⟨r, rfl, (h4.ofDone hc).mono fun _ h => ⟨h.1, Nat.le_trans h.2 he⟩⟩
      | load k nx =>
        simp only [hcur]
        cases hv : dget w.store.kv k with
        | none =>
          simp only
          intro hw' hs he
          refine h.set (World.setThread_same _ _ _) he fun hn => ?_
          obtain ⟨h3, h4⟩ := h.busy hn _ _ hcur
          exact ⟨h3, ((h4.ofLoad hc).2 hv).grow hp.log hs hw'.gs fun _ h => ⟨h.1, Nat.le_trans h.2 he⟩⟩
        | some v =>
          simp only
          intro hw' hs he
          refine h.set (World.setThread_same _ _ _) he fun hn => ?_
          obtain ⟨h3, h4⟩ := h.busy hn _ _ hcur
          exact ⟨h3, ((h4.ofLoad hc).1 v hv).grow hp.log hs hw'.gs fun _ h => ⟨h.1, Nat.le_trans h.2 he⟩⟩
      | save k v nx =>
        simp only [hcur]
        intro hw' hs he
        refine h.set (World.setThread_same _ _ _) he fun hn => ?_
        obtain ⟨h3, h4⟩ := h.busy hn _ _ hcur
        exact absurd h4 (Stage.noSave hc)
      | root nx =>
        simp only [hcur]
        intro hw' hs he
        refine h.set (World.setThread_same _ _ _) he fun hn => ?_
        obtain ⟨h3, h4⟩ := h.busy hn _ _ hcur
        subst h3
        refine ⟨rfl, ?_⟩
        have h5 := h4.ofRoot hp.log (hp.stOk _ _) hc hf ⟨h.low, Nat.le_refl _⟩ (fun _ h => h.2) hsub hw.gs
        rw [← hr] at h5
        exact h5.grow hp.log hs hw'.gs fun _ h => ⟨h.1, Nat.le_trans h.2 he⟩
      | setRoot r nx =>
        simp only [hcur]
        intro hw' hs he
        refine h.set (World.setThread_same _ _ _) he fun hn => ?_
        obtain ⟨h3, h4⟩ := h.busy hn _ _ hcur
        exact absurd h4 (Stage.noSet hc)
  · exact h.same hp (w.step_other E hj) hs hw'.gs he

theorem Reader.run {j n lo : Nat} {rest : List (Nat × Call)} {w : World} (hp : Peaceful E secure calls log)
    (hc : c.op? = none) (hf : Fits E (secure i) c.key) (hw : WorldOk E secure calls log w)
    (h : Reader E secure calls j i c n lo rest w) (sched : List Nat) :
    Reader E secure calls j i c n lo rest (w.run E sched) := by
  induction sched generalizing w with
  | nil => exact h
  | cons j' sched ih => exact ih (hw.step hp j') (h.step hp hc hf hw j')

end

end Pymt
