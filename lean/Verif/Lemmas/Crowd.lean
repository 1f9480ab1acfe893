import Verif.Lemmas.Readers
import Verif.Spec.Toy

/-!
# Several threads that write to the same trie
-/

namespace Pymt

namespace Prog

/-- The root is not read any more, and the program does not end well without setting it. -/
def Blind {α : Type} : Prog α → Prop
  | .done x => ∃ e, x = .error e
  | .load _ n => ∀ v, Blind (n v)
  | .save _ _ n => Blind n
  | .root _ => False
  | .setRoot _ n => ∃ a, n = .done (.ok a)

theorem Inner.bindBlind {E : Env} {α β : Type} {p : Prog α} {f : α → Prog β} (h : Inner E p)
    (hf : ∀ a, Blind (f a)) : Blind (p >>= f) := by
  show Blind (p.bind f)
  induction p with
  | done r => cases r with
    | ok a => exact hf a
    | error e => exact ⟨e, rfl⟩
  | load k n ih => exact fun v => ih v (h v)
  | save k v n ih => exact ih h.2.2
  | root n ih => exact h.elim
  | setRoot r n ih => exact h.elim

theorem Blind.map {α β : Type} {p : Prog α} {g : α → β} (h : Blind p) :
    Blind (p >>= fun a => Prog.done (.ok (g a))) := by
  show Blind (p.bind _)
  induction p with
  | done r => obtain ⟨e, rfl⟩ := h; exact ⟨e, rfl⟩
  | load k n ih => exact fun v => ih v (h v)
  | save k v n ih => exact ih h
  | root n ih => exact h.elim
  | setRoot r n ih =>
    obtain ⟨x, rfl⟩ := h
    exact ⟨_, rfl⟩

end Prog

/-- `update` after it has read the root. -/
def Call.upd (E : Env) (sec : Bool) (k v : Bytes) (r : Option Bytes) : Prog Ans := do
  (do
    let result ← MPT.updateP E E.limit (r.getD []) { data := if sec then E.keccak k else k } v
    .setRoot (some result) (.done (.ok ())))
  return .none

/-- `delete` after it has read the root for the last time. -/
def Call.del (E : Env) (sec : Bool) (k : Bytes) (r : Option Bytes) : Prog Ans := do
  (do
    let action ← MPT.deleteP E E.limit r { data := if sec then E.keccak k else k }
    MPT.finishP action)
  return .none

/-- `delete` after it has read the root once. -/
def Call.del' (E : Env) (sec : Bool) (k : Bytes) (r : Option Bytes) : Prog Ans :=
  if r = some (emptyHash E) then .done (.error .valueError) else .root (Call.del E sec k)

theorem Call.prog_update (E : Env) (sec : Bool) (k v : Bytes) :
    (Call.update k v).prog E sec = .root (Call.upd E sec k v) := rfl

theorem Call.prog_delete (E : Env) (sec : Bool) (k : Bytes) :
    (Call.delete k).prog E sec =
      .root fun r => if r = none then .done (.error .valueError) else .root (Call.del' E sec k) := by
  show Prog.root _ = _
  congr 1
  funext r
  cases r with
  | none => rfl
  | some r =>
    have c : ¬ (some r = none) := by simp
    rw [if_neg c]
    show Prog.root _ = _
    congr 1
    funext r
    unfold Call.del'
    by_cases h : r = some (emptyHash E)
    · subst h
      rw [if_pos rfl]
      simp [Prog.bind, bind, Pure.pure]
      rfl
    · rw [if_neg h]
      have : (r == some (emptyHash E)) = false := beq_eq_false_iff_ne.2 h
      simp only [bind, Prog.bind, Pure.pure, this]
      rfl

theorem Call.blind_upd (E : Env) (sec : Bool) (k v : Bytes) (r : Option Bytes) : (Call.upd E sec k v r).Blind :=
  Prog.Blind.map ((Prog.Inner.update (E := E) _ _ _ _).bindBlind fun _ => ⟨_, rfl⟩)

theorem Call.blind_del (E : Env) (sec : Bool) (k : Bytes) (r : Option Bytes) : (Call.del E sec k r).Blind := by
  refine Prog.Blind.map ((Prog.Inner.delete (E := E) _ _ _).bindBlind fun x => ?_)
  cases x <;> exact ⟨_, rfl⟩

theorem Call.del_none {E : Env} {sec : Bool} {k : Bytes} (hlim : 0 < E.limit) :
    Call.del E sec k none = .done (.error .typeError) := by
  obtain ⟨f, hf⟩ : ∃ f, E.limit = f + 1 := ⟨E.limit - 1, by omega⟩
  unfold Call.del
  rw [hf]
  rfl

theorem Call.del_empty {E : Env} {sec : Bool} {k : Bytes} (hlim : 0 < E.limit) :
    ∃ g, Call.del E sec k (some (emptyHash E)) = .load (emptyHash E) g := by
  obtain ⟨f, hf⟩ : ∃ f, E.limit = f + 1 := ⟨E.limit - 1, by omega⟩
  unfold Call.del
  rw [hf]
  unfold MPT.deleteP
  have e32 : (emptyHash E).length = 32 := E.keccak_len _
  simp only [bind, Prog.bind, Pure.pure, MPT.getNodeP, MPT.rawP, e32, if_true, Prog.loadItem]
  exact ⟨_, rfl⟩

/-- The outcomes a call that changes the trie may have when the trie was in the states `st q`, for all `q` in `G`, while
it ran. -/
def Effect (E : Env) (st : Nat → MPT) (c : Call) (G : Nat → Prop) (x : Py Ans) : Prop :=
  (∃ q, G q ∧ x = (c.seq E (st q)).1 ∧
    (x = .ok .none → ∃ q', G q' ∧ q < q' ∧ (st q').root = (c.seq E (st q)).2.root)) ∨
  (x = .error .typeError ∧ (∃ k, c = .delete k) ∧ ∃ q q', G q ∧ G q' ∧ q ≤ q' ∧ (st q).root ≠ none ∧ (st q').root = none) ∨
  (x = .error .keyError ∧ (∃ k, c = .delete k) ∧ ∃ q q', G q ∧ G q' ∧ q ≤ q' ∧
    (st q).root ≠ some (emptyHash E) ∧ (st q').root = some (emptyHash E))

theorem Effect.mono {E : Env} {st : Nat → MPT} {c : Call} {G G' : Nat → Prop} {x : Py Ans}
    (h : Effect E st c G x) (hh : ∀ q, G q → G' q) : Effect E st c G' x := by
  rcases h with ⟨q, h1, h2, h3⟩ | ⟨hx, hc, q, q', h1, h2, h4⟩ | ⟨hx, hc, q, q', h1, h2, h4⟩
  · refine .inl ⟨q, hh q h1, h2, fun e => ?_⟩
    obtain ⟨q', h4, h5⟩ := h3 e
    exact ⟨q', hh q' h4, h5⟩
  · exact .inr (.inl ⟨hx, hc, q, q', hh q h1, hh q' h2, h4⟩)
  · exact .inr (.inr ⟨hx, hc, q, q', hh q h1, hh q' h2, h4⟩)

/-- What a call may return. -/
def Outcome (E : Env) (st : Nat → MPT) (c : Call) (G : Nat → Prop) (x : Py Ans) : Prop :=
  if c.op? = none then Answer E st c G x else Effect E st c G x

theorem Outcome.mono {E : Env} {st : Nat → MPT} {c : Call} {G G' : Nat → Prop} {x : Py Ans}
    (h : Outcome E st c G x) (hh : ∀ q, G q → G' q) : Outcome E st c G' x := by
  unfold Outcome at h ⊢
  split
  · rename_i e; rw [if_pos e] at h; exact h.mono hh
  · rename_i e; rw [if_neg e] at h; exact h.mono hh

/-- A trie made by some of the calls. -/
def Made (E : Env) (calls : Nat → List (Nat × Call)) (i : Nat) (t : MPT) : Prop :=
  ∃ ops, FromCalls calls i ops ∧ Bears E t (T.grow .empty (ops.map (Op.mapKey (effective E t.secure))))

section
variable {E : Env} {c : Call}

/-! ### A trie never looks new again -/

theorem T.Holds.delete_last {t : MPT} {a : T} (h : T.Holds E t a) (hne : a ≠ .empty) {key : Bytes}
    (hk : (toNibs (t.keyOf E key)).length < E.limit) (hl : LogOk E (MPT.delete E key t).2.store.written)
    (hrem : T.remove a (toNibs (t.keyOf E key)) = .ok .deleted) : (MPT.delete E key t).2.root = none := by
  have hstep := step_replay h.good hl (T.delete_writes E key t)
  have hi : a.isEmpty = false := by cases a <;> simp_all [T.isEmpty]
  rw [T.delete_eq, h.noRoot hstep.log, hi, if_neg (by simp), h.getD hne] at hl ⊢
  cases hr : MPT.deleteAux E E.limit (T.ref E a) ⟨t.keyOf E key, 0⟩ t.store with
  | mk r' st' =>
    rw [hr] at hl
    have hst : LogOk E st'.written := by cases r' <;> exact hl
    have hnib := NibblePath.nibs_bytes (t.keyOf E key)
    have hlim : (NibblePath.mk (t.keyOf E key) 0).nibs.length < E.limit := by rwa [hnib]
    have hspec := T.deleteAux_run E.limit h.shape hne (NibblePath.WF_bytes _) hlim h.good h.stored hr hst
    rw [hnib, hrem] at hspec
    obtain ⟨act, rfl, hact, hstored⟩ := hspec
    cases act <;> simp only [T.ActRep] at hact
    rfl

theorem seq_ok_none {t : MPT} (hc : c.op? ≠ none) {a : Ans} (h : (c.seq E t).1 = .ok a) :
    (Except.ok a : Py Ans) = .ok .none := by
  cases c with
  | get => exact absurd rfl hc
  | contains => exact absurd rfl hc
  | update k v =>
    change (MPT.update E k v t).1.map _ = _ at h
    cases e : (MPT.update E k v t).1 with
    | error e' => rw [e] at h; exact (nomatch h)
    | ok u => rw [e] at h; exact h.symm
  | delete k =>
    change (MPT.delete E k t).1.map _ = _ at h
    cases e : (MPT.delete E k t).1 with
    | error e' => rw [e] at h; exact (nomatch h)
    | ok u => rw [e] at h; exact h.symm

/-- A call that changes the trie leaves a root that is not that of a new trie. -/
theorem seq_root {t : MPT} {a : T} (h : Bears E t a) (hc : c.op? ≠ none) (hf : Fits E t.secure c.key)
    (hl : LogOk E (c.seq E t).2.store.written) (hok : ∃ a, (c.seq E t).1 = .ok a) :
    (c.seq E t).2.root ≠ some (emptyHash E) := by
  have key : ∀ (t' : MPT) (a : T), T.Holds E t' a → a ≠ .empty → LogOk E t'.store.written →
      t'.root ≠ some (emptyHash E) := by
    intro t' a h1 h2 h3 e
    rcases h1.root with ⟨e1, _⟩ | ⟨_, e2⟩
    · exact h2 e1
    · rw [e2] at e
      injection e with e
      exact T.ref_ne_emptyHash h1.good h3 h1.stored h2 e
  cases c with
  | get => exact absurd rfl hc
  | contains => exact absurd rfl hc
  | update k v =>
    change Fits E t.secure k at hf
    exact key _ _ (h.holds.update (fits_nibs hf) rfl hl).2 (T.insert_ne_empty _ _ _) hl
  | delete k =>
    change Fits E t.secure k at hf
    change LogOk E (MPT.delete E k t).2.store.written at hl
    change (MPT.delete E k t).2.root ≠ _
    obtain ⟨x, hok⟩ := hok
    change (MPT.delete E k t).1.map _ = _ at hok
    have h1 := h.holds
    by_cases hne : a = .empty
    · subst hne
      rw [h1.delete_empty (log_of_replay (exec_writes E (.delete k) t) hl) k] at hok
      exact (nomatch hok)
    cases hm : T.lookup a (toNibs (t.keyOf E k)) with
    | none =>
      obtain ⟨e, he, _⟩ := h.full.remove_none hne hm
      rw [h1.delete_fail (key := k) hne (log_of_replay (exec_writes E (.delete k) t) hl) (fits_nibs hf) he] at hok
      exact (nomatch hok)
    | some w =>
      have hd := h1.delete hne (fits_nibs hf) rfl hl
      obtain ⟨d, hr, _, hok', _, hnd, _⟩ := h.full.remove_some hm
      cases d with
      | deleted =>
        rw [h1.delete_last hne (fits_nibs hf) hl hr]
        exact fun e => (nomatch e)
      | updated t' =>
        rw [hr] at hd
        exact key _ _ (hd.2 (.inl (hnd t' rfl))) (hnd t' rfl) hl
      | useless p t' =>
        have hne' : t' ≠ .empty := by rcases hok' with ⟨v, rfl⟩ | ⟨c, rfl⟩ <;> simp
        rw [hr] at hd
        exact key _ _ (hd.2 (.inl hne')) hne' hl

end

/-- Where a call may be. -/
inductive CStage (E : Env) (log : List Bytes) (calls : Nat → List (Nat × Call)) (i : Nat) (sec : Bool) (st : Nat → MPT)
    (c : Call) (G : Nat → Prop) (S : Store) : Prog Ans → Prop
  | read (hc : c.op? = none) (p : Prog Ans) (h : Stage E sec st c G S p) : CStage E log calls i sec st c G S p
  | begin (hc : c.op? ≠ none) : CStage E log calls i sec st c G S (c.prog E sec)
  | del2 (k : Bytes) (hc : c = .delete k) (q : Nat) (hq : G q) (hr : (st q).root ≠ none) :
      CStage E log calls i sec st c G S (.root (Call.del' E sec k))
  | del3 (k : Bytes) (hc : c = .delete k) (q q' : Nat) (hq : G q) (hr : (st q).root ≠ none) (hq' : G q')
      (hr' : (st q').root ≠ some (emptyHash E)) :
      CStage E log calls i sec st c G S (.root (Call.del E sec k))
  | fin (hc : c.op? ≠ none) (x : Py Ans) (h : Effect E st c G x) (hu : x = .ok .none ∨ ∃ k, c = .delete k) :
      CStage E log calls i sec st c G S (.done x)
  | doomed (hc : ∃ k, c = .delete k) (g : Bytes → Prog Ans) (h : Effect E st c G (.error .keyError)) :
      CStage E log calls i sec st c G S (.load (emptyHash E) g)
  | go (hc : c.op? ≠ none) (p : Prog Ans) (q : Nat) (hq : G q) (hb : p.Blind)
      (hn : (∃ a, (c.seq E (st q)).1 = .ok a) → (c.seq E (st q)).2.root ≠ some (emptyHash E))
      (ha : Prog.Ahead E log p { store := S, root := (st q).root, secure := sec } (c.seq E (st q)).1
        (c.seq E (st q)).2)
      (hm : Made E calls i (c.seq E (st q)).2) (hw : ∀ x ∈ (c.seq E (st q)).2.store.written, x ∈ log) :
      CStage E log calls i sec st c G S p

section
variable {E : Env} {secure : Nat → Bool} {calls : Nat → List (Nat × Call)} {log : List Bytes} {i : Nat} {c : Call}
  {hi : Nat} {G : Nat → Prop} {S : Store} {sec : Bool} {st : Nat → MPT}

theorem CStage.grow {p : Prog Ans} {G' : Nat → Prop} {S' : Store} (hL : LogOk E log)
    (h : CStage E log calls i sec st c G S p) (hs : Sub S S') (hg : GS E log S') (hh : ∀ q, G q → G' q) :
    CStage E log calls i sec st c G' S' p := by
  cases h with
  | read hc _ h => exact .read hc _ (h.grow hL hs hg hh)
  | begin hc => exact .begin hc
  | del2 k hc q hq hr => exact .del2 k hc q (hh q hq) hr
  | del3 k hc q q' hq hr hq' hr' => exact .del3 k hc q q' (hh q hq) hr (hh q' hq') hr'
  | fin hc x h hu => exact .fin hc x (h.mono hh) hu
  | doomed hc g h => exact .doomed hc g (h.mono hh)
  | go hc _ q hq hb hn ha hm hw => exact .go hc _ q (hh q hq) hb hn (ha.mono hL rfl rfl hs hg) hm hw

theorem CStage.ofDone {x : Py Ans} (h : CStage E log calls i sec st c G S (.done x)) : Outcome E st c G x := by
  unfold Outcome
  generalize hp : Prog.done x = p at h
  cases h with
  | read hc _ h => subst hp; rw [if_pos hc]; exact h.ofDone hc
  | begin hc =>
    cases c with
    | update k v => exact (nomatch hp)
    | delete k => rw [Call.prog_delete] at hp; exact (nomatch hp)
    | get => exact absurd rfl hc
    | contains => exact absurd rfl hc
  | del2 => exact (nomatch hp)
  | del3 => exact (nomatch hp)
  | fin hc x h _ => injection hp with hp; subst hp; rw [if_neg hc]; exact h
  | doomed => exact (nomatch hp)
  | go hc _ q hq hb hn ha hm hw =>
    subst hp
    rw [if_neg hc]
    obtain ⟨e, rfl⟩ := hb
    exact .inl ⟨q, hq, ha.of_done.1, fun e => (nomatch e)⟩

/-- An `update` has no reason to fail. -/
theorem CStage.update_ok {k v : Bytes} {x : Py Ans} (hL : LogOk E log) (hf : Fits E sec k)
    (hst : ∀ q, G q → (st q).secure = sec ∧ ∃ a, Bears E (st q) a)
    (h : CStage E log calls i sec st (.update k v) G S (.done x)) : x = .ok .none := by
  generalize hp : Prog.done x = p at h
  cases h with
  | read hc _ h => exact (nomatch hc)
  | begin hc => exact (nomatch hp)
  | del2 => exact (nomatch hp)
  | del3 => exact (nomatch hp)
  | fin hc x h hu =>
    injection hp with hp
    subst hp
    rcases hu with h | ⟨_, h⟩
    · exact h
    · exact (nomatch h)
  | doomed => exact (nomatch hp)
  | go hc _ q hq hb hn ha hm hw =>
    subst hp
    obtain ⟨hs, a, hb'⟩ := hst q hq
    have h1 : (MPT.update E k v (st q)).1 = .ok () :=
      (hb'.holds.update (fits_nibs (hs ▸ hf)) rfl (hL.mono hw)).1
    have h2 : ((Call.update k v).seq E (st q)).1 = .ok .none := by
      change (MPT.update E k v (st q)).1.map _ = _
      rw [h1]; rfl
    rw [← h2]
    exact ha.of_done.1

theorem CStage.ofLoad {k : Bytes} {n : Bytes → Prog Ans} (hL : LogOk E log) (hg : GS E log S)
    (h : CStage E log calls i sec st c G S (.load k n)) :
    (∀ v, dget S.kv k = some v → CStage E log calls i sec st c G S (n v)) ∧
      (dget S.kv k = none → CStage E log calls i sec st c G S (.done (.error .keyError))) := by
  generalize hp : Prog.load k n = p at h
  cases h with
  | read hc _ h =>
    subst hp
    exact ⟨fun v e => .read hc _ ((h.ofLoad hc).1 v e), fun e => .read hc _ ((h.ofLoad hc).2 e)⟩
  | begin hc =>
    cases c with
    | update k v => exact (nomatch hp)
    | delete k => rw [Call.prog_delete] at hp; exact (nomatch hp)
    | get => exact absurd rfl hc
    | contains => exact absurd rfl hc
  | del2 => exact (nomatch hp)
  | del3 => exact (nomatch hp)
  | fin hc x h => exact (nomatch hp)
  | doomed hc g h =>
    injection hp with h1 h2
    subst h1
    rw [hg.noEmpty hL]
    exact ⟨fun v e => (nomatch e), fun _ => .fin (by obtain ⟨k, rfl⟩ := hc; simp [Call.op?]) _ h (.inr hc)⟩
  | go hc _ q hq hb hn ha hm hw =>
    subst hp
    exact ⟨fun v e => .go hc _ q hq (hb v) hn (ha.of_load e) hm hw,
      fun e => .go hc _ q hq ⟨_, rfl⟩ hn (ha.of_load_none e) hm hw⟩

theorem CStage.ofSave {k v : Bytes} {n : Prog Ans}
    (h : CStage E log calls i sec st c G S (.save k v n)) :
    k = E.keccak v ∧ v ∈ log ∧ 32 ≤ v.length ∧ CStage E log calls i sec st c G (S.set k v) n := by
  generalize hp : Prog.save k v n = p at h
  cases h with
  | read hc _ h => subst hp; exact absurd h (Stage.noSave hc)
  | begin hc =>
    cases c with
    | update k v => exact (nomatch hp)
    | delete k => rw [Call.prog_delete] at hp; exact (nomatch hp)
    | get => exact absurd rfl hc
    | contains => exact absurd rfl hc
  | del2 => exact (nomatch hp)
  | del3 => exact (nomatch hp)
  | fin hc x h => exact (nomatch hp)
  | doomed hc g h => exact (nomatch hp)
  | go hc _ q hq hb hn ha hm hw =>
    subst hp
    obtain ⟨a1, a2, a3, a4⟩ := ha.of_save
    exact ⟨a2, a3, a4, .go hc _ q hq hb hn a1 hm hw⟩

/-- Setting the root publishes the trie computed from the one whose root was read. -/
theorem CStage.ofSet {r : Option Bytes} {n : Prog Ans}
    (h : CStage E log calls i sec st c G S (.setRoot r n)) :
    c.op? ≠ none ∧ ∃ q, G q ∧ r = (c.seq E (st q)).2.root ∧ Made E calls i (c.seq E (st q)).2 ∧
      Sub (c.seq E (st q)).2.store S ∧ n = .done (c.seq E (st q)).1 ∧ r ≠ some (emptyHash E) ∧
      (c.seq E (st q)).1 = .ok .none ∧ ∀ x ∈ (c.seq E (st q)).2.store.written, x ∈ log := by
  generalize hp : Prog.setRoot r n = p at h
  cases h with
  | read hc _ h => subst hp; exact absurd h (Stage.noSet hc)
  | begin hc =>
    cases c with
    | update k v => exact (nomatch hp)
    | delete k => rw [Call.prog_delete] at hp; exact (nomatch hp)
    | get => exact absurd rfl hc
    | contains => exact absurd rfl hc
  | del2 => exact (nomatch hp)
  | del3 => exact (nomatch hp)
  | fin hc x h => exact (nomatch hp)
  | doomed hc g h => exact (nomatch hp)
  | go hc _ q hq hb hn ha hm hw =>
    subst hp
    obtain ⟨x, rfl⟩ := hb
    have a1 := ha.of_setRoot.1
    refine ⟨hc, q, hq, ha.root, hm, ha.sub, by rw [a1.of_done.1], ?_, ?_, hw⟩
    rotate_left
    · rw [← a1.of_done.1]; exact seq_ok_none hc a1.of_done.1.symm
    have e : r = (c.seq E (st q)).2.root := ha.root
    rw [e]
    exact hn ⟨x, a1.of_done.1.symm⟩

/-- Reading the root, when the trie is `st hi`.  `hgo`: what is known of the call if it goes on with this root. -/
theorem CStage.ofRoot {n : Option Bytes → Prog Ans} (hL : LogOk E log) (hst : StOk E log sec (st hi))
    (hf : Fits E sec c.key) (hG : G hi) (hle : ∀ q, G q → q ≤ hi)
    (hgo : c.op? ≠ none → (Prog.root n).alone (st hi) = c.seq E (st hi) →
      (∀ x ∈ (c.seq E (st hi)).2.store.written, x ∈ log) ∧ Made E calls i (c.seq E (st hi)).2)
    (h : CStage E log calls i sec st c G (st hi).store (.root n)) :
    CStage E log calls i sec st c G (st hi).store (n (st hi).root) := by
  have hlim : 0 < E.limit := by unfold Fits at hf; omega
  have hg := hst.gs
  have hlog : LogOk E (st hi).store.written := hL.mono hst.written
  have hf' : Fits E (st hi).secure c.key := by rw [hst.sec]; exact hf
  have hobj : ({ store := (st hi).store, root := (st hi).root, secure := sec } : MPT) = st hi := by
    rw [← hst.sec]
  have hal := Call.prog_alone E c (st hi)
  rw [hst.sec] at hal
  -- everything a call needs to go on from the present trie
  have ahead : c.op? ≠ none → (∀ x ∈ (c.seq E (st hi)).2.store.written, x ∈ log) →
      Prog.Ahead E log (c.prog E sec) (st hi) (c.seq E (st hi)).1 (c.seq E (st hi)).2 := by
    intro hc hw
    obtain ⟨m, hinv⟩ := hst.bears
    have hfine := fine_call hinv hL hg hf' (hL.mono hw)
    rw [hst.sec] at hfine
    refine ⟨hfine, Prog.plain_call E _ c, by rw [hal], by rw [hal], by rw [hal]; exact Sub.refl _, ?_⟩
    intro x hx
    apply hw
    rw [← hal, Prog.alone_written]
    exact List.mem_append_right _ hx
  have fresh : c.op? ≠ none → (∀ x ∈ (c.seq E (st hi)).2.store.written, x ∈ log) →
      (∃ a, (c.seq E (st hi)).1 = .ok a) → (c.seq E (st hi)).2.root ≠ some (emptyHash E) := by
    intro hc hw hok
    obtain ⟨m, hinv⟩ := hst.bears
    exact seq_root hinv hc hf' (hL.mono hw) hok
  generalize hpr : Prog.root n = p at h
  cases h with
  | read hc _ h => subst hpr; exact .read hc _ (h.ofRoot hL hst hc hf hG hle (Sub.refl _) hg)
  | begin hc =>
    cases c with
    | get => exact absurd rfl hc
    | contains => exact absurd rfl hc
    | update k v =>
      have h1 := hgo hc (by rw [hpr]; exact hal)
      rw [Call.prog_update] at hpr
      injection hpr with hpr
      subst hpr
      refine .go hc _ hi hG (Call.blind_upd _ _ _ _ _) (fresh hc h1.1) ?_ h1.2 h1.1
      rw [hobj]
      exact (ahead hc h1.1).of_root
    | delete k =>
      rw [Call.prog_delete] at hpr
      injection hpr with hpr
      subst hpr
      simp only
      split
      · rename_i hr
        refine .fin hc _ (.inl ⟨hi, hG, ?_, fun e => (nomatch e)⟩) (.inr ⟨k, rfl⟩)
        rw [← hal, Call.prog_delete]
        simp only [Prog.alone, hr, if_true]
      · rename_i hr
        exact .del2 k rfl hi hG hr
  | del2 k hc q hq hr =>
    subst hc
    injection hpr with hpr
    subst hpr
    unfold Call.del'
    split
    · rename_i hr'
      refine .fin (by simp [Call.op?]) _ (.inl ⟨hi, hG, ?_, fun e => (nomatch e)⟩) (.inr ⟨k, rfl⟩)
      rw [← hal, Call.prog_delete]
      simp [Prog.alone, hr', Call.del']
    · rename_i hr'
      exact .del3 k rfl q hi hq hr hG hr'
  | del3 k hc q q' hq hr hq' hr' =>
    subst hc
    have hop : (Call.delete k).op? ≠ none := by simp [Call.op?]
    injection hpr with hpr
    subst hpr
    by_cases h0 : (st hi).root = none
    · rw [h0, Call.del_none hlim]
      exact .fin hop _ (.inr (.inl ⟨rfl, ⟨k, rfl⟩, q, hi, hq, hG, hle q hq, hr, h0⟩)) (.inr ⟨k, rfl⟩)
    · by_cases h1 : (st hi).root = some (emptyHash E)
      · obtain ⟨g, e⟩ := Call.del_empty (E := E) (sec := sec) (k := k) hlim
        rw [h1, e]
        exact .doomed ⟨k, rfl⟩ g (.inr (.inr ⟨rfl, ⟨k, rfl⟩, q', hi, hq', hG, hle q' hq', hr', h1⟩))
      · have e : (Call.delete k).prog E sec = .root fun r =>
            if r = none then .done (.error .valueError) else .root (Call.del' E sec k) := Call.prog_delete _ _ _
        have h2 := hgo hop (by
          rw [← hal, e]
          simp [Prog.alone, h0, h1, Call.del'])
        refine .go hop _ hi hG (Call.blind_del _ _ _ _) (fresh hop h2.1) ?_ h2.2 h2.1
        rw [hobj]
        have h3 := ahead hop h2.1
        rw [e] at h3
        have h4 := h3.of_root
        rw [if_neg h0] at h4
        have h5 := h4.of_root
        unfold Call.del' at h5
        rw [if_neg h1] at h5
        exact h5.of_root
  | fin => exact (nomatch hpr)
  | doomed => exact (nomatch hpr)
  | go hc _ q hq hb hn ha hm hw => subst hpr; exact hb.elim

/-! ### The state of affairs -/

theorem Bears.lift {t : MPT} {a : T} (h : Bears E t a) {S : Store} (hs : Sub t.store S) (hg : Good E S) :
    Bears E { t with store := S } a := ⟨⟨h.holds.shape, h.holds.stored.mono hs, hg, h.holds.root⟩, h.full⟩

theorem Made.lift {t : MPT} (h : Made E calls i t) {S : Store} (hs : Sub t.store S) (hg : Good E S) :
    Made E calls i { t with store := S } := by
  obtain ⟨ops, h1, h2⟩ := h
  exact ⟨ops, h1, h2.lift hs hg⟩

theorem World.run_append (E : Env) (w : World) (a b : List Nat) : w.run E (a ++ b) = (w.run E a).run E b := by
  unfold World.run; rw [List.foldl_append]

/-- Left alone, a thread carries its call to the end. -/
theorem World.run_alone (E : Env) (j i : Nat) (p : Prog Ans) (w : World) (h : (w.threads j).cur = some (i, p)) :
    ∃ n, (w.run E (List.replicate n j)).store = (p.alone (w.obj i)).2.store := by
  induction p generalizing w with
  | done r => exact ⟨0, rfl⟩
  | load k n ih =>
    simp only [Prog.alone]
    cases hv : dget w.store.kv k with
    | none => refine ⟨0, ?_⟩; rw [show dget (w.obj i).store.kv k = none from hv]; rfl
    | some v =>
      rw [show dget (w.obj i).store.kv k = some v from hv]
      have hs : w.step E j = w.setThread j { w.threads j with cur := some (i, n v) } := by
        unfold World.step; simp only [h, hv]
      obtain ⟨m, hm⟩ := ih v (w.step E j) (by rw [hs, World.setThread_same])
      refine ⟨m + 1, ?_⟩
      rw [List.replicate_succ]
      refine Eq.trans hm ?_
      rw [hs]; rfl
  | save k v n ih =>
    have hs : w.step E j = { w.setThread j { w.threads j with cur := some (i, n) } with store := w.store.set k v } := by
      unfold World.step; simp only [h]
    obtain ⟨m, hm⟩ := ih (w.step E j) (by rw [hs]; exact congrArg Thread.cur (World.setThread_same _ _ _))
    refine ⟨m + 1, ?_⟩
    rw [List.replicate_succ]
    refine Eq.trans hm ?_
    rw [hs]; rfl
  | root n ih =>
    have hs : w.step E j = w.setThread j { w.threads j with cur := some (i, n (w.roots i)) } := by
      unfold World.step; simp only [h]
    obtain ⟨m, hm⟩ := ih (w.roots i) (w.step E j) (by rw [hs, World.setThread_same])
    refine ⟨m + 1, ?_⟩
    rw [List.replicate_succ]
    refine Eq.trans hm ?_
    rw [hs]; rfl
  | setRoot r n ih =>
    have hs : w.step E j = { w.setThread j { w.threads j with cur := some (i, n) } with
        roots := fun i' => if i' = i then r else w.roots i' } := by
      unfold World.step; simp only [h]
    obtain ⟨m, hm⟩ := ih (w.step E j) (by rw [hs]; exact congrArg Thread.cur (World.setThread_same _ _ _))
    refine ⟨m + 1, ?_⟩
    rw [List.replicate_succ]
    refine Eq.trans hm ?_
    rw [hs]
    have : (({ w.setThread j { w.threads j with cur := some (i, n) } with
        roots := fun i' => if i' = i then r else w.roots i' } : World).obj i) = { w.obj i with root := r } := by
      simp [World.obj, World.setThread]
    rw [this]; rfl

/-- Everything in the storage is in the list, and so is everything a thread writes that finishes its call alone. -/
def World.Bounded (log : List Bytes) (w : World) : Prop :=
  (∀ x ∈ w.store.written, x ∈ log) ∧
  ∀ j i p, (w.threads j).cur = some (i, p) → ∀ x ∈ (p.alone (w.obj i)).2.store.written, x ∈ log

/-- What `Crowd` says about one interleaving: the nodes in the storage, and those that the thread writes which moves next if it
finishes its call alone, are in the list. -/
structure CrowdOn (E : Env) (secure : Nat → Bool) (calls : Nat → List (Nat × Call)) (log : List Bytes)
    (sched : List Nat) : Prop where
  fits : ∀ j, ∀ c ∈ calls j, Fits E (secure c.1) c.2.key
  stored : ∀ q, ∀ x ∈ (worldAt E secure calls sched q).store.written, x ∈ log
  next : ∀ q j, sched[q]? = some j → ∀ i p, ((worldAt E secure calls sched q).threads j).cur = some (i, p) →
    ∀ x ∈ (p.alone ((worldAt E secure calls sched q).obj i)).2.store.written, x ∈ log
  log : LogOk E log

theorem Crowd.on (h : Crowd E secure calls log) (sched : List Nat) : CrowdOn E secure calls log sched where
  fits := h.fits
  stored q := h.all _
  next := by
    intro q j _ i p hp x hx
    obtain ⟨m, hm⟩ := World.run_alone E j i p _ hp
    rw [← hm] at hx
    unfold worldAt at hx
    rw [← World.run_append] at hx
    exact h.all _ x hx
  log := h.log

/-- What one more call does to a trie made by the calls. -/
theorem Made.exec {t : MPT} {sched : List Nat} (hcr : CrowdOn E secure calls log sched) {j : Nat} (hc : (i, c) ∈ calls j) (hsec : t.secure = secure i)
    (h : Made E calls i t) (hop : c.op? ≠ none) (hl : LogOk E (c.seq E t).2.store.written) :
    Made E calls i (c.seq E t).2 := by
  obtain ⟨ops, h1, h2⟩ := h
  cases hop' : c.op? with
  | none => exact absurd hop' hop
  | some op =>
    have hseq : (c.seq E t).2 = (MPT.exec E op t).2 := by
      cases c with
      | update k v => injection hop' with e; subst e; rfl
      | delete k => injection hop' with e; subst e; rfl
      | get => exact (nomatch hop')
      | contains => exact (nomatch hop')
    have hkey : c.key = op.key := by
      cases c with
      | update k v => injection hop' with e; subst e; rfl
      | delete k => injection hop' with e; subst e; rfl
      | get => exact (nomatch hop')
      | contains => exact (nomatch hop')
    have hfrom : FromCalls calls i (ops ++ [op]) := by
      intro o ho
      rcases List.mem_append.1 ho with ho | ho
      · exact h1 o ho
      · rw [List.mem_singleton.1 ho]; exact ⟨j, c, hc, hop'⟩
    have hsec' : (c.seq E t).2.secure = t.secure := by rw [hseq, exec_secure]
    refine ⟨ops ++ [op], hfrom, ?_⟩
    have e : T.grow .empty ((ops ++ [op]).map (Op.mapKey (effective E t.secure))) =
        (T.grow .empty (ops.map (Op.mapKey (effective E t.secure)))).act (op.mapKey (effective E t.secure)) := by
      unfold T.grow
      rw [List.map_append, List.foldl_append]; rfl
    rw [hsec', hseq, e]
    rw [hseq] at hl
    exact h2.exec (by rw [← hkey, hsec]; exact hcr.fits j _ hc) hl

theorem World.step_secure (E : Env) (w : World) (j : Nat) : (w.step E j).secure = w.secure := by
  unfold World.step
  cases hcur : (w.threads j).cur with
  | none =>
    simp only [hcur]
    cases hrest : (w.threads j).rest with
    | nil => rfl
    | cons x rest => rfl
  | some x =>
    obtain ⟨i', p⟩ := x
    cases p with
    | load k n =>
      simp only [hcur]
      cases dget w.store.kv k <;> rfl
    | done | save | root | setRoot => simp only [hcur]; rfl

theorem World.run_secure (E : Env) (w : World) (sched : List Nat) : (w.run E sched).secure = w.secure := by
  induction sched generalizing w with
  | nil => rfl
  | cons j sched ih => exact (ih _).trans (w.step_secure E j)

theorem worldAt_secure (sched : List Nat) (q : Nat) : (worldAt E secure calls sched q).secure = secure :=
  World.run_secure _ _ _

theorem worldAt_zero (sched : List Nat) : worldAt E secure calls sched 0 = World.new E secure calls := by
  unfold worldAt; rw [List.take_zero]; rfl

theorem worldAt_succ {sched : List Nat} {q j : Nat} (h : sched[q]? = some j) :
    worldAt E secure calls sched (q + 1) = (worldAt E secure calls sched q).step E j := by
  unfold worldAt
  rw [List.take_add_one, h, World.run_append]; rfl

/-- The moments up to `hi` at which call `n` of thread `j` was running. -/
def During (E : Env) (secure : Nat → Bool) (calls : Nat → List (Nat × Call)) (sched : List Nat) (j n hi : Nat)
    (q : Nat) : Prop := q ≤ hi ∧ (worldAt E secure calls sched q).Running j n

/-- Threads, tries and dict after `hi` steps of a schedule. -/
structure CrowdOk (E : Env) (secure : Nat → Bool) (calls : Nat → List (Nat × Call)) (log : List Bytes) (sched : List Nat)
    (hi : Nat) : Prop where
  sec : (worldAt E secure calls sched hi).secure = secure
  gs : GS E log (worldAt E secure calls sched hi).store
  good : Good E (worldAt E secure calls sched hi).store
  made : ∀ i, Made E calls i ((worldAt E secure calls sched hi).obj i)
  idle : ∀ j, ((worldAt E secure calls sched hi).threads j).cur = none →
    (calls j).drop ((worldAt E secure calls sched hi).threads j).outs.length =
      ((worldAt E secure calls sched hi).threads j).rest
  busy : ∀ j i p, ((worldAt E secure calls sched hi).threads j).cur = some (i, p) → ∃ c,
    (calls j).drop ((worldAt E secure calls sched hi).threads j).outs.length =
      (i, c) :: ((worldAt E secure calls sched hi).threads j).rest ∧
    CStage E log calls i (secure i) (fun q => (worldAt E secure calls sched q).obj i) c
      (During E secure calls sched j ((worldAt E secure calls sched hi).threads j).outs.length hi)
      (worldAt E secure calls sched hi).store p
  past : ∀ j n i c, (calls j)[n]? = some (i, c) →
    ∀ x, ((worldAt E secure calls sched hi).threads j).outs[n]? = some x →
    Outcome E (fun q => (worldAt E secure calls sched q).obj i) c (During E secure calls sched j n hi) x

theorem CrowdOk.zero (sched : List Nat) : CrowdOk E secure calls log sched 0 := by
  refine ⟨?_, ?_, ?_, ?_, ?_, ?_, ?_⟩ <;> rw [worldAt_zero]
  · rfl
  · exact GS.empty E log
  · exact Good.empty E
  · intro i
    exact ⟨[], fun _ h => (nomatch h), Bears.new E (secure i)⟩
  · intro j _; rfl
  · intro j i p h; exact (nomatch h)
  · intro j n i c _ x h; exact (nomatch h)

/-- What changes in a step, and what has to be shown. -/
theorem CrowdOk.next {sched : List Nat} (hcr : CrowdOn E secure calls log sched) {j : Nat} {W : World}
    (hW : worldAt E secure calls sched hi = W)
    (h : CrowdOk E secure calls log sched hi) {w' : World} (hw : worldAt E secure calls sched (hi + 1) = w')
    (hsec : w'.secure = W.secure) (hoth : ∀ j', j' ≠ j → w'.threads j' = W.threads j')
    (hsub : Sub W.store w'.store) (hgs : GS E log w'.store)
    (hgood : Good E w'.store) (hmade : ∀ i, Made E calls i (w'.obj i))
    (hidle : (w'.threads j).cur = none → (calls j).drop (w'.threads j).outs.length = (w'.threads j).rest)
    (hbusy : ∀ i p, (w'.threads j).cur = some (i, p) → ∃ c,
      (calls j).drop (w'.threads j).outs.length = (i, c) :: (w'.threads j).rest ∧
      CStage E log calls i (secure i) (fun q => (worldAt E secure calls sched q).obj i) c
        (During E secure calls sched j (w'.threads j).outs.length (hi + 1)) w'.store p)
    (hpast : ∀ n i c, (calls j)[n]? = some (i, c) → ∀ x, (w'.threads j).outs[n]? = some x →
      (W.threads j).outs[n]? ≠ some x →
      Outcome E (fun q => (worldAt E secure calls sched q).obj i) c (During E secure calls sched j n (hi + 1)) x) :
    CrowdOk E secure calls log sched (hi + 1) := by
  subst hW
  have hup : ∀ j n q, During E secure calls sched j n hi q → During E secure calls sched j n (hi + 1) q :=
    fun _ _ _ h => ⟨Nat.le_succ_of_le h.1, h.2⟩
  refine ⟨?_, ?_, ?_, ?_, ?_, ?_, ?_⟩ <;> rw [hw]
  · exact hsec.trans h.sec
  · exact hgs
  · exact hgood
  · exact hmade
  · intro j'
    by_cases hj : j' = j
    · subst hj; exact hidle
    · rw [hoth j' hj]; exact h.idle j'
  · intro j'
    by_cases hj : j' = j
    · subst hj; exact hbusy
    · rw [hoth j' hj]
      intro i p hp
      obtain ⟨c, h1, h2⟩ := h.busy j' i p hp
      exact ⟨c, h1, h2.grow hcr.log hsub hgs (hup _ _)⟩
  · intro j' n i c hc x hx
    by_cases hj : j' = j
    · subst hj
      by_cases hold : ((worldAt E secure calls sched hi).threads j').outs[n]? = some x
      · exact (h.past j' n i c hc x hold).mono (hup _ _)
      · exact hpast n i c hc x hx hold
    · rw [hoth j' hj] at hx
      exact (h.past j' n i c hc x hx).mono (hup _ _)

theorem CrowdOk.stOk {sched : List Nat} (hcr : CrowdOn E secure calls log sched) (h : CrowdOk E secure calls log sched hi)
    (i : Nat) : StOk E log (secure i) ((worldAt E secure calls sched hi).obj i) := by
  obtain ⟨ops, _, h2⟩ := h.made i
  exact ⟨⟨_, h2⟩, hcr.stored _, congrFun h.sec i, h.gs⟩

theorem CrowdOk.step {sched : List Nat} (hcr : CrowdOn E secure calls log sched) {j : Nat} (hj : sched[hi]? = some j)
    (h : CrowdOk E secure calls log sched hi) : CrowdOk E secure calls log sched (hi + 1) := by
  have hL := hcr.log
  have hw := worldAt_succ (E := E) (secure := secure) (calls := calls) hj
  generalize hW : worldAt E secure calls sched hi = W at hw
  have hgs : GS E log W.store := hW ▸ h.gs
  have hgood : Good E W.store := hW ▸ h.good
  have hmade : ∀ i, Made E calls i (W.obj i) := hW ▸ h.made
  have hst : ∀ i, (worldAt E secure calls sched hi).obj i = W.obj i := fun i => by rw [hW]
  have hup : ∀ n q, During E secure calls sched j n hi q → During E secure calls sched j n (hi + 1) q :=
    fun _ _ h => ⟨Nat.le_succ_of_le h.1, h.2⟩
  -- a thread that goes on with its call
  have move : ∀ (w' : World) (i : Nat) (p' : Prog Ans) (c : Call) (rest : List (Nat × Call)),
      worldAt E secure calls sched (hi + 1) = w' → w'.secure = W.secure →
      (∀ j', j' ≠ j → w'.threads j' = W.threads j') → Sub W.store w'.store → GS E log w'.store → Good E w'.store →
      (∀ i, Made E calls i (w'.obj i)) →
      w'.threads j = { cur := some (i, p'), rest := rest, outs := (W.threads j).outs } →
      (calls j).drop (W.threads j).outs.length = (i, c) :: rest →
      CStage E log calls i (secure i) (fun q => (worldAt E secure calls sched q).obj i) c
        (During E secure calls sched j (W.threads j).outs.length (hi + 1)) w'.store p' →
      CrowdOk E secure calls log sched (hi + 1) := by
    intro w' i p' c rest h1 h2 h3 h4 h5 h6 h7 h8 h9 h10
    refine h.next hcr hW h1 h2 h3 h4 h5 h6 h7 ?_ ?_ ?_
    · rw [h8]; intro e; exact (nomatch e)
    · rw [h8]
      intro i' p e
      injection e with e
      injection e with e1 e2
      subst e1 e2
      exact ⟨c, h9, h10⟩
    · rw [h8]
      intro n i c _ x hx hne
      exact absurd hx hne
  unfold World.step at hw
  cases hcur : (W.threads j).cur with
  | none =>
    simp only [hcur] at hw
    cases hrest : (W.threads j).rest with
    | nil =>
      simp only [hrest] at hw
      refine h.next (j := j) hcr hW hw rfl (fun _ _ => rfl) (Sub.refl _) hgs hgood hmade ?_ ?_ ?_
      · intro e; have := h.idle j; rw [hW] at this; exact this e
      · intro i p e; rw [hcur] at e; exact (nomatch e)
      · intro n i c _ x hx hne; exact absurd hx hne
    | cons x rest =>
      obtain ⟨i, c⟩ := x
      simp only [hrest] at hw
      have hd : (calls j).drop (W.threads j).outs.length = (i, c) :: rest := by
        have := h.idle j
        rw [hW] at this
        exact (this hcur).trans hrest
      refine move _ i (c.prog E (W.secure i)) c rest hw rfl (fun j' hj' => World.setThread_other W _ hj') (Sub.refl _)
        hgs hgood hmade (World.setThread_same _ _ _) hd ?_
      have : W.secure = secure := hW ▸ h.sec
      rw [this]
      by_cases hop : c.op? = none
      · exact .read hop _ .begin
      · exact .begin hop
  | some x =>
    obtain ⟨i, p⟩ := x
    obtain ⟨c, hd, hstage⟩ : ∃ c, (calls j).drop (W.threads j).outs.length = (i, c) :: (W.threads j).rest ∧
        CStage E log calls i (secure i) (fun q => (worldAt E secure calls sched q).obj i) c
          (During E secure calls sched j (W.threads j).outs.length hi) W.store p := by
      have := h.busy j i p
      rw [hW] at this
      exact this hcur
    have hmem : (i, c) ∈ calls j := List.mem_of_getElem? (drop_get hd)
    have hnow : During E secure calls sched j (W.threads j).outs.length hi hi :=
      ⟨Nat.le_refl _, by rw [hW]; exact ⟨rfl, by rw [hcur]; rfl⟩⟩
    cases p with
    | done r =>
      simp only [hcur] at hw
      refine h.next hcr hW hw rfl (fun j' hj' => World.setThread_other W _ hj') (Sub.refl _) hgs hgood hmade ?_ ?_ ?_
      · rw [World.setThread_same]
        intro _
        show (calls j).drop ((W.threads j).outs ++ [r]).length = (W.threads j).rest
        rw [List.length_append, ← List.drop_drop, hd]; rfl
      · rw [World.setThread_same]; intro i p e; exact (nomatch e)
      · rw [World.setThread_same]
        intro n i' c' hc' x hx hne
        change ((W.threads j).outs ++ [r])[n]? = some x at hx
        by_cases hlt : n < (W.threads j).outs.length
        · rw [List.getElem?_append_left hlt] at hx; exact absurd hx hne
        · have hn : n = (W.threads j).outs.length := by
            have := (List.getElem?_eq_some_iff.1 hx).1
            simp at this; omega
          subst hn
          rw [List.getElem?_concat_length] at hx
          injection hx with hx
          subst hx
          rw [drop_get hd] at hc'
          injection hc' with hc'
          injection hc' with e1 e2
          subst e1 e2
          exact hstage.ofDone.mono (hup _)
    | load k n =>
      simp only [hcur] at hw
      have hld := hstage.ofLoad hL hgs
      cases hv : dget W.store.kv k with
      | none =>
        simp only [hv] at hw
        exact move _ i _ c _ hw rfl (fun j' hj' => World.setThread_other W _ hj') (Sub.refl _) hgs hgood hmade
          (World.setThread_same _ _ _) hd ((hld.2 hv).grow hL (Sub.refl _) hgs (hup _))
      | some v =>
        simp only [hv] at hw
        exact move _ i _ c _ hw rfl (fun j' hj' => World.setThread_other W _ hj') (Sub.refl _) hgs hgood hmade
          (World.setThread_same _ _ _) hd ((hld.1 v hv).grow hL (Sub.refl _) hgs (hup _))
    | save k v n =>
      simp only [hcur] at hw
      obtain ⟨a1, a2, a3, a4⟩ := hstage.ofSave
      subst a1
      have hs := hgs.sub_set hL a2
      have hg' := hgs.set a2 a3
      exact move _ i _ c _ hw rfl (fun j' hj' => World.setThread_other W _ hj') hs hg' (hgood.set _)
        (fun i' => (hmade i').lift hs (hgood.set _)) (World.setThread_same _ _ _) hd
        (a4.grow hL (Sub.refl _) hg' (hup _))
    | root n =>
      simp only [hcur] at hw
      refine move _ i _ c _ hw rfl (fun j' hj' => World.setThread_other W _ hj') (Sub.refl _) hgs hgood hmade
        (World.setThread_same _ _ _) hd ?_
      have h1 := CStage.ofRoot (st := fun q => (worldAt E secure calls sched q).obj i) (hi := hi) (sec := secure i)
        (n := n) (calls := calls) (i := i) hL (h.stOk hcr i) (hcr.fits j _ hmem) hnow (fun q hq => hq.1) ?_
        (by rw [hst]; exact hstage)
      · simp only [hst] at h1
        exact h1.grow hL (Sub.refl _) hgs (hup _)
      · intro hop hal
        simp only [hst] at hal ⊢
        have hwr : ∀ x ∈ (c.seq E (W.obj i)).2.store.written, x ∈ log := by
          intro x hx
          rw [← hal] at hx
          exact hcr.next hi j hj i _ (by rw [hW]; exact hcur) x (by rw [hW]; exact hx)
        exact ⟨hwr, (hmade i).exec hcr hmem (congrFun (hW ▸ h.sec) i) hop (hL.mono hwr)⟩
    | setRoot r n =>
      simp only [hcur] at hw
      obtain ⟨hop, q, hq, hr, hmd, hsb, hn, _, hxok, _⟩ := hstage.ofSet
      have hth : ({ W.setThread j { W.threads j with cur := some (i, n) } with
          roots := fun i' => if i' = i then r else W.roots i' } : World).threads j =
          { W.threads j with cur := some (i, n) } := World.setThread_same _ _ _
      refine move _ i _ c _ hw rfl (fun j' hj' => World.setThread_other W _ hj') (Sub.refl _) hgs hgood (fun i' => ?_)
        hth hd ?_
      · by_cases hi' : i' = i
        · subst hi'
          have := hmd.lift hsb hgood
          have e : ({ (c.seq E ((worldAt E secure calls sched q).obj i')).2 with store := W.store } : MPT) =
              { store := W.store, root := r, secure := W.secure i' } := by
            rw [hr]
            have : (c.seq E ((worldAt E secure calls sched q).obj i')).2.secure = W.secure i' := by
              rw [← Call.prog_alone, Prog.alone_secure, ← hW, h.sec]
              exact congrFun (worldAt_secure _ _) i'
            simp [this]
          rw [e] at this
          simpa [World.obj, World.setThread] using this
        · have := hmade i'
          simpa [World.obj, World.setThread, hi'] using this
      · rw [hn]
        refine .fin hop _ (.inl ⟨q, hup _ _ hq, rfl, fun _ => ⟨hi + 1, ⟨Nat.le_refl _, ?_⟩, ?_, ?_⟩⟩) (.inl hxok)
        · rw [hw]
          unfold World.Running
          rw [hth]
          exact ⟨rfl, rfl⟩
        · have := hq.1; omega
        · simp only
          rw [hw, ← hr]
          simp [World.obj]

theorem CrowdOk.all {sched : List Nat} (hcr : CrowdOn E secure calls log sched) (q : Nat) (hq : q ≤ sched.length) :
    CrowdOk E secure calls log sched q := by
  induction q with
  | zero => exact .zero sched
  | succ q ih =>
    have hlt : q < sched.length := hq
    exact (ih (Nat.le_of_lt hlt)).step hcr (List.getElem?_eq_getElem hlt)

/-- How a step may add an outcome. -/
theorem World.step_outs (E : Env) (w : World) (j j' n : Nat) (x : Py Ans)
    (h : ((w.step E j).threads j').outs[n]? = some x) :
    (w.threads j').outs[n]? = some x ∨
      (j' = j ∧ n = (w.threads j).outs.length ∧ ∃ i, (w.threads j).cur = some (i, .done x)) := by
  by_cases hj : j' = j
  · subst hj
    unfold World.step at h
    cases hcur : (w.threads j').cur with
    | none =>
      simp only [hcur] at h
      cases hr : (w.threads j').rest with
      | nil => simp only [hr] at h; exact .inl h
      | cons c rest => simp only [hr, World.setThread_same] at h; exact .inl h
    | some y =>
      obtain ⟨i, p⟩ := y
      cases p with
      | done r =>
        simp only [hcur, World.setThread_same] at h
        rw [List.getElem?_append] at h
        split at h
        · exact .inl h
        · rename_i hlt
          have hn : n - (w.threads j').outs.length = 0 := by
            cases e : n - (w.threads j').outs.length with
            | zero => rfl
            | succ m => rw [e] at h; exact (nomatch h)
          rw [hn] at h
          injection h with h
          subst h
          exact .inr ⟨rfl, by omega, i, rfl⟩
      | load k n =>
        simp only [hcur] at h
        cases hv : dget w.store.kv k with
        | none => simp only [hv, World.setThread_same] at h; exact .inl h
        | some v => simp only [hv, World.setThread_same] at h; exact .inl h
      | save => simp only [hcur, World.setThread_same] at h; exact .inl h
      | root => simp only [hcur, World.setThread_same] at h; exact .inl h
      | setRoot => simp only [hcur, World.setThread_same] at h; exact .inl h
  · rw [w.step_other E hj] at h
    exact .inl h

/-- No `update` fails. -/
theorem CrowdOk.update_ok {sched : List Nat} (hcr : CrowdOn E secure calls log sched) (q : Nat) (hq : q ≤ sched.length)
    (j n i : Nat) (k v : Bytes) (x : Py Ans) (hc : (calls j)[n]? = some (i, .update k v))
    (hx : ((worldAt E secure calls sched q).threads j).outs[n]? = some x) : x = .ok .none := by
  induction q with
  | zero => rw [worldAt_zero] at hx; exact (nomatch hx)
  | succ q ih =>
    rw [worldAt_succ (List.getElem?_eq_getElem hq)] at hx
    rcases World.step_outs _ _ _ _ _ _ hx with h | ⟨rfl, rfl, i', hcur⟩
    · exact ih (Nat.le_of_lt hq) h
    · obtain ⟨c, hd, hst⟩ := (CrowdOk.all hcr q (Nat.le_of_lt hq)).busy _ i' _ hcur
      have := drop_get hd
      rw [hc] at this
      injection this with this
      injection this with e1 e2
      subst e1 e2
      refine hst.update_ok hcr.log (hcr.fits _ _ (List.mem_of_getElem? hc)) ?_
      intro q' hq'
      have ok' := CrowdOk.all hcr q' (Nat.le_trans hq'.1 (Nat.le_of_lt hq))
      obtain ⟨_, _, h2⟩ := ok'.made i
      exact ⟨congrFun ok'.sec i, _, h2⟩

/-- The root changes only when a call publishes the trie it made from the one whose root it read. -/
theorem CrowdOk.change {sched : List Nat} (h : CrowdOk E secure calls log sched hi)
    {j : Nat} (hj : sched[hi]? = some j) (i : Nat)
    (hne : (worldAt E secure calls sched (hi + 1)).roots i ≠ (worldAt E secure calls sched hi).roots i) :
    ∃ n c q, (calls j)[n]? = some (i, c) ∧ c.op? ≠ none ∧ q ≤ hi ∧ (worldAt E secure calls sched q).Running j n ∧
      (worldAt E secure calls sched hi).Running j n ∧
      (worldAt E secure calls sched (hi + 1)).roots i = (c.seq E ((worldAt E secure calls sched q).obj i)).2.root ∧
      (c.seq E ((worldAt E secure calls sched q).obj i)).1 = .ok .none ∧
      (worldAt E secure calls sched (hi + 1)).roots i ≠ some (emptyHash E) := by
  rw [worldAt_succ hj] at hne ⊢
  generalize hW : worldAt E secure calls sched hi = W at hne ⊢
  revert hne
  unfold World.step
  cases hcur : (W.threads j).cur with
  | none =>
    simp only [hcur]
    cases hrest : (W.threads j).rest with
    | nil => intro e; exact absurd rfl e
    | cons x rest => intro e; exact absurd rfl e
  | some x =>
    obtain ⟨i', p⟩ := x
    have hb := h.busy j i' p
    rw [hW] at hb
    obtain ⟨c, hd, hstage⟩ := hb hcur
    cases p with
    | load k n =>
      simp only [hcur]
      cases dget W.store.kv k <;> (intro e; exact absurd rfl e)
    | done | save | root => simp only [hcur]; intro e; exact absurd rfl e
    | setRoot r n =>
      simp only [hcur]
      by_cases hi' : i = i'
      · subst hi'
        intro _
        obtain ⟨hop, q, hq, hr, _, _, _, hne, hok, _⟩ := hstage.ofSet
        refine ⟨_, c, q, drop_get hd, hop, hq.1, hq.2, ⟨rfl, by rw [hcur]; rfl⟩, ?_⟩
        rw [if_pos rfl]; exact ⟨hr, hok, hne⟩
      · rw [if_neg hi']
        intro e; exact absurd rfl e

/-- A trie that no longer looks new never does again. -/
theorem CrowdOn.used {sched : List Nat} (hcr : CrowdOn E secure calls log sched) {i q q' : Nat} (hle : q ≤ q')
    (hq' : q' ≤ sched.length) (h : (worldAt E secure calls sched q).roots i ≠ some (emptyHash E)) :
    (worldAt E secure calls sched q').roots i ≠ some (emptyHash E) := by
  induction q' with
  | zero => rw [Nat.le_zero.1 hle] at h; exact h
  | succ p ih =>
    rcases Nat.lt_or_eq_of_le hle with hlt | rfl
    · have hp : p < sched.length := hq'
      have h1 := ih (Nat.le_of_lt_succ hlt) (Nat.le_of_lt hp)
      by_cases e : (worldAt E secure calls sched (p + 1)).roots i = (worldAt E secure calls sched p).roots i
      · rw [e]; exact h1
      · obtain ⟨n, c, q, h2⟩ := (CrowdOk.all hcr p (Nat.le_of_lt hp)).change (List.getElem?_eq_getElem hp) i e
        exact h2.2.2.2.2.2.2.2
    · exact h

theorem Bears.reads {t : MPT} {ops : List Op}
    (h : Bears E t (T.grow .empty (ops.map (Op.mapKey (effective E t.secure))))) (hl : LogOk E t.store.written) :
    ReadsAs E t ops := by
  intro k hf hcoll
  have hkeep := T.Keeps.after (ops.map (Op.mapKey (effective E t.secure)))
  have hkey : t.keyOf E k = effective E t.secure k := keyOf_eq ..
  -- what the trie has under the path of the key
  have hat : ∀ v, T.lookup (T.grow .empty (ops.map (Op.mapKey (effective E t.secure)))) (toNibs (t.keyOf E k)) = some v ↔
      Stored t.secure ops k v := by
    intro v
    rw [hkeep.pairs, hkey]
    unfold Stored
    cases hs : t.secure with
    | false =>
      have hm := map_effective_false E ops
      rw [hm]
      refine ⟨fun h => ⟨?_, fun _ => h⟩, fun h => h.2 rfl⟩
      exact kept_sub (m := fun _ => none) (by simp) _ _ h
    | true =>
      rw [hs] at hcoll
      have he : eff E true ops (effective E true k) = contents ops k := eff_eq (ks := [k]) hcoll (by simp)
      rw [← he]
      refine ⟨fun h => ⟨kept_sub (m := fun _ => none) (by simp) _ _ h, fun e => (nomatch e)⟩, fun h => ?_⟩
      refine kept_all (l := []) (m := fun _ => none) (by simp) (by simp) ?_ _ h.1
      intro k' v' hm hb
      obtain ⟨o, _, ho⟩ := List.mem_map.1 hm
      cases o with
      | delete k0 => exact (nomatch ho)
      | update k0 v0 =>
        simp only [Op.mapKey, Op.update.injEq] at ho
        rw [← ho.1] at hb
        refine hb.1 (hb.2.eq_of_length ?_).symm
        simp [effective, E.keccak_len]
  refine ⟨fun v hv => ?_, fun hn hpre => ?_⟩
  · have hlk := (hat v).2 hv
    have hne : T.grow .empty (ops.map (Op.mapKey (effective E t.secure))) ≠ .empty := by
      intro e; rw [e] at hlk; simp [T.lookup] at hlk
    rw [h.holds.get hne (fits_nibs hf), h.holds.contains hl (fits_nibs hf)]
    exact ⟨T.getT_of_lookup h.full.shape hlk, by rw [T.has_of_lookup h.full.shape hlk]⟩
  · rw [h.holds.contains hl (fits_nibs hf), T.has_of_none]
    · cases hq : T.lookup (T.grow .empty (ops.map (Op.mapKey (effective E t.secure)))) (toNibs (t.keyOf E k)) with
      | none => rfl
      | some v => exact absurd ((hat v).1 hq) (hn v)
    · intro q r he hr
      cases hq : T.lookup (T.grow .empty (ops.map (Op.mapKey (effective E t.secure)))) q with
      | none => rfl
      | some v =>
        exfalso
        obtain ⟨k', _, rfl⟩ := T.grow_sub hq
        have hp : effective E t.secure k' <+: t.keyOf E k := toNibs_prefix.1 ⟨r, he.symm⟩
        have hn' : effective E t.secure k' ≠ t.keyOf E k := by
          intro e
          rw [e] at he
          exact hr (List.append_cancel_left ((List.append_nil _).trans he)).symm
        rw [hkey] at hp hn'
        cases hs : t.secure with
        | true =>
          rw [hs] at hp hn'
          exact hn' (hp.eq_of_length (by simp [effective, E.keccak_len]))
        | false =>
          rw [hkeep.pairs] at hq
          rw [hs] at hp hn' hq hpre
          have hm := map_effective_false E ops
          rw [hm] at hq
          exact (hpre.resolve_left (by simp)) k' hp hn' v
            ⟨kept_sub (m := fun _ => none) (by simp) _ _ hq, fun _ => hq⟩

end
/-- What the outcome of a finished call can be. -/
theorem CrowdOn.outcome {E : Env} {secure : Nat → Bool} {calls : Nat → List (Nat × Call)} {log : List Bytes} {sched : List Nat}
    (h : CrowdOn E secure calls log sched) {j n i : Nat} {c : Call} {x : Py Ans}
    (hc : (calls j)[n]? = some (i, c)) (hx : ((worldAt E secure calls sched sched.length).threads j).outs[n]? = some x) :
    let W := worldAt E secure calls sched
    (∃ q, q ≤ sched.length ∧ (W q).Running j n ∧ x = (c.seq E ((W q).obj i)).1 ∧
      (c.op? ≠ none → x = .ok .none → ∃ q', q < q' ∧ q' ≤ sched.length ∧ (W q').Running j n ∧
        (W q').roots i = (c.seq E ((W q).obj i)).2.root)) ∨
    (x = .error .typeError ∧ (∀ k v, c ≠ .update k v) ∧ ∃ q q', q ≤ q' ∧ q' ≤ sched.length ∧ (W q).Running j n ∧
      (W q').Running j n ∧ (W q).roots i ≠ none ∧ (W q').roots i = none) ∨
    (x = .error .keyError ∧ (∃ k, c = .contains k) ∧ ∃ q q', q ≤ q' ∧ q' ≤ sched.length ∧ (W q).Running j n ∧
      (W q').Running j n ∧ (W q).roots i = some (emptyHash E) ∧ (W q').roots i ≠ some (emptyHash E)) := by
  intro W
  have hok := CrowdOk.all h sched.length (Nat.le_refl _)
  have := hok.past j n i c hc x hx
  unfold Outcome at this
  split at this
  · rename_i hop
    have hu : ∀ k v, c ≠ .update k v := by rintro k v rfl; exact (nomatch hop)
    rcases this with ⟨q, h1, h2⟩ | ⟨h1, q, q', h2, h3, h4, h5, h6⟩ | ⟨h1, hk, q, q', h2, h3, h4, h5, h6⟩
    · exact .inl ⟨q, h1.1, h1.2, h2, fun e => absurd hop e⟩
    · exact .inr (.inl ⟨h1, hu, q, q', h4, h3.1, h2.2, h3.2, h5, h6⟩)
    · exact .inr (.inr ⟨h1, hk, q, q', h4, h3.1, h2.2, h3.2, h5, h6⟩)
  · rename_i hop
    rcases this with ⟨q, h1, h2, h3⟩ | ⟨h1, ⟨k, hk⟩, q, q', h2, h3, h4, h5, h6⟩ | ⟨h1, hk, q, q', h2, h3, h4, h5, h6⟩
    · refine .inl ⟨q, h1.1, h1.2, h2, fun _ e => ?_⟩
      obtain ⟨q', a1, a2, a3⟩ := h3 e
      exact ⟨q', a2, a1.1, a1.2, a3⟩
    · exact .inr (.inl ⟨h1, by rintro k' v rfl; exact (nomatch hk), q, q', h4, h3.1, h2.2, h3.2, h5, h6⟩)
    · exact absurd h6 (h.used h4 h3.1 h5)

end Pymt
