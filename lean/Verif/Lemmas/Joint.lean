import Verif.Lemmas.Interleave
import Verif.Lemmas.Lookup

/-!
# A program run alone does the same over a larger storage
-/

namespace Pymt

/-- Every entry of the smaller storage is in the larger one. -/
def Sub (s S : Store) : Prop := ∀ k v, dget s.kv k = some v → dget S.kv k = some v

theorem Sub.refl (s : Store) : Sub s s := fun _ _ h => h
theorem Sub.trans {a b c : Store} (h : Sub a b) (h' : Sub b c) : Sub a c := fun k v e => h' k v (h k v e)

theorem Store.dget_set (s : Store) (k v k' : Bytes) :
    dget (s.set k v).kv k' = if k' = k then some v else dget s.kv k' := by
  rw [Store.set, dget_dset]
  by_cases h : k = k'
  · rw [if_pos h, if_pos h.symm]
  · rw [if_neg h, if_neg fun e => h e.symm]

theorem Sub.set {s S : Store} (h : Sub s S) (k v : Bytes) : Sub (s.set k v) (S.set k v) := by
  intro k' v' e
  rw [Store.dget_set] at e ⊢
  split
  · rename_i hk; rwa [if_pos hk] at e
  · rename_i hk; rw [if_neg hk] at e; exact h _ _ e

/-- Entries are nodes of the log, of 32 bytes and more, under their hash. -/
def GS (E : Env) (L : List Bytes) (S : Store) : Prop :=
  ∀ k v, dget S.kv k = some v → k = E.keccak v ∧ v ∈ L ∧ 32 ≤ v.length

theorem GS.empty (E : Env) (L : List Bytes) : GS E L Store.empty := by
  intro k v h; simp [Store.empty, dget] at h

theorem GS.set {E : Env} {L : List Bytes} {S : Store} (h : GS E L S) {v : Bytes} (hv : v ∈ L) (hl : 32 ≤ v.length) :
    GS E L (S.set (E.keccak v) v) := by
  intro k' v' e
  rw [Store.dget_set] at e
  split at e
  · rename_i hk; injection e with e; subst e; exact ⟨hk, hv, hl⟩
  · exact h _ _ e

theorem GS.sub_set {E : Env} {L : List Bytes} {S : Store} (h : GS E L S) (hL : LogOk E L) {v : Bytes} (hv : v ∈ L) :
    Sub S (S.set (E.keccak v) v) := by
  intro k' v' e
  rw [Store.dget_set]
  split
  · rename_i hk
    obtain ⟨e1, e2, _⟩ := h _ _ e
    rw [hL.coll v' (List.mem_cons_of_mem _ e2) v (List.mem_cons_of_mem _ hv) (e1.symm.trans hk)]
  · exact e

theorem GS.noEmpty {E : Env} {L : List Bytes} {S : Store} (h : GS E L S) (hL : LogOk E L) :
    dget S.kv (emptyHash E) = none := by
  cases e : dget S.kv (emptyHash E) with
  | none => rfl
  | some v =>
    obtain ⟨e1, e2, e3⟩ := h _ _ e
    have := hL.coll _ List.mem_cons_self v (List.mem_cons_of_mem _ e2) e1
    rw [← this] at e3
    exact absurd e3 (by decide)

namespace Prog

/-- Run alone, every entry the program asks for is there; only the hash of the empty node may be missing. -/
def Fine (E : Env) {α : Type} : Prog α → MPT → Prop
  | .done _, _ => True
  | .load k n, t =>
    match dget t.store.kv k with
    | some v => (n v).Fine E t
    | none => k = emptyHash E
  | .save k v n, t => n.Fine E { t with store := t.store.set k v }
  | .root n, t => (n t.root).Fine E t
  | .setRoot r n, t => n.Fine E { t with root := r }

/-- What the program saves when run alone. -/
def writes {α : Type} : Prog α → MPT → List Bytes
  | .done _, _ => []
  | .load k n, t =>
    match dget t.store.kv k with
    | some v => (n v).writes t
    | none => []
  | .save k v n, t => v :: n.writes { t with store := t.store.set k v }
  | .root n, t => (n t.root).writes t
  | .setRoot r n, t => n.writes { t with root := r }

section
variable {E : Env} {α : Type}

theorem fine_of_alone (p : Prog α) (t : MPT) (h : (p.alone t).1 ≠ .error .keyError) : p.Fine E t := by
  induction p generalizing t with
  | done r => trivial
  | load k n ih =>
    simp only [alone, Fine] at h ⊢
    cases e : dget t.store.kv k with
    | none => rw [e] at h; exact absurd rfl h
    | some v => rw [e] at h; exact ih v t h
  | save k v n ih => exact ih _ h
  | root n ih => exact ih _ _ h
  | setRoot r n ih => exact ih _ h

theorem alone_written (p : Prog α) (t : MPT) : (p.alone t).2.store.written = t.store.written ++ p.writes t := by
  induction p generalizing t with
  | done r => simp [alone, writes]
  | load k n ih =>
    simp only [alone, writes]
    cases e : dget t.store.kv k with
    | none => simp
    | some v => exact ih v t
  | save k v n ih =>
    simp only [alone, writes]
    rw [ih]; simp [Store.set]
  | root n ih => exact ih _ _
  | setRoot r n ih => exact ih _

theorem alone_secure (p : Prog α) (t : MPT) : (p.alone t).2.secure = t.secure := by
  induction p generalizing t with
  | done r => rfl
  | load k n ih =>
    simp only [alone]
    cases e : dget t.store.kv k with
    | none => rfl
    | some v => exact ih v t
  | save k v n ih => exact ih _
  | root n ih => exact ih _ _
  | setRoot r n ih => exact ih _

theorem alone_gs {L : List Bytes} (p : Prog α) (t : MPT) (hp : Plain E p) (hg : GS E L t.store)
    (hw : ∀ w ∈ p.writes t, w ∈ L) : GS E L (p.alone t).2.store := by
  induction p generalizing t with
  | done r => exact hg
  | load k n ih =>
    simp only [alone, writes] at hw ⊢
    cases e : dget t.store.kv k with
    | none => exact hg
    | some v => rw [e] at hw; exact ih v t (hp v) hg hw
  | save k v n ih =>
    refine ih _ hp.2.2 ?_ fun w h => hw w (List.mem_cons_of_mem _ h)
    show GS E L (t.store.set k v)
    rw [hp.1]
    exact hg.set (hw v List.mem_cons_self) hp.2.1
  | root n ih => exact ih _ _ (hp _) hg hw
  | setRoot r n ih =>
    obtain ⟨x, rfl⟩ := hp
    exact hg

/-- If the first part ends with an exception, the rest is not reached. -/
theorem Fine.bind {β : Type} {p : Prog α} {f : α → Prog β} {t : MPT}
    (h : p.Fine E t ∧ ∀ a, (p.alone t).1 ≠ .ok a) :
    (p >>= f).Fine E t ∧ ∀ b, ((p >>= f).alone t).1 ≠ .ok b := by
  show (p.bind f).Fine E t ∧ ∀ b, ((p.bind f).alone t).1 ≠ .ok b
  obtain ⟨h1, h2⟩ := h
  induction p generalizing t with
  | done r =>
    cases r with
    | ok a => exact absurd rfl (h2 a)
    | error e => exact ⟨trivial, fun b h => (nomatch h)⟩
  | load k n ih =>
    simp only [alone, Fine, Prog.bind] at h1 h2 ⊢
    cases e : dget t.store.kv k with
    | none => rw [e] at h1; exact ⟨h1, fun b h => (nomatch h)⟩
    | some v => rw [e] at h1 h2; exact ih v h1 h2
  | save k v n ih => exact ih h1 h2
  | root n ih => exact ih _ h1 h2
  | setRoot r n ih => exact ih h1 h2

/-- Over a larger storage the program does the same. -/
theorem mono {L : List Bytes} (hL : LogOk E L) (p : Prog α) (t : MPT) (S : Store) (hf : p.Fine E t)
    (hp : Plain E p) (hs : Sub t.store S) (hg : GS E L S) (hw : ∀ w ∈ p.writes t, w ∈ L) :
    p.Fine E { t with store := S } ∧ (p.alone { t with store := S }).1 = (p.alone t).1 ∧
      (p.alone { t with store := S }).2.root = (p.alone t).2.root ∧
      Sub (p.alone t).2.store (p.alone { t with store := S }).2.store ∧
      p.writes { t with store := S } = p.writes t := by
  induction p generalizing t S with
  | done r => exact ⟨trivial, rfl, rfl, hs, rfl⟩
  | load k n ih =>
    simp only [alone, Fine, writes] at hf hw ⊢
    cases e : dget t.store.kv k with
    | none =>
      rw [e] at hf
      simp only at hf
      subst hf
      rw [hg.noEmpty hL]
      exact ⟨rfl, rfl, rfl, hs, rfl⟩
    | some v =>
      rw [hs _ _ e]
      rw [e] at hf hw
      exact ih v t S hf (hp v) hs hg hw
  | save k v n ih =>
    have hv := hw v List.mem_cons_self
    have hg' : GS E L (S.set k v) := by rw [hp.1]; exact hg.set hv hp.2.1
    obtain ⟨h1, h2, h3, h4, h5⟩ := ih { t with store := t.store.set k v } (S.set k v) hf hp.2.2 (hs.set k v) hg'
      fun w h => hw w (List.mem_cons_of_mem _ h)
    exact ⟨h1, h2, h3, h4, congrArg (v :: ·) h5⟩
  | root n ih => exact ih _ t S hf (hp _) hs hg hw
  | setRoot r n ih =>
    obtain ⟨x, rfl⟩ := hp
    exact ⟨trivial, rfl, rfl, hs, rfl⟩

end

/-- What is left of a call will, run alone, end like this. -/
structure Ahead (E : Env) (L : List Bytes) {α : Type} (p : Prog α) (t : MPT) (r : Py α) (t' : MPT) : Prop where
  fine : p.Fine E t
  plain : Plain E p
  out : (p.alone t).1 = r
  root : (p.alone t).2.root = t'.root
  sub : Sub t'.store (p.alone t).2.store
  log : ∀ w ∈ p.writes t, w ∈ L

namespace Ahead
variable {E : Env} {L : List Bytes} {α : Type} {t t' : MPT} {r : Py α}

theorem mono {p : Prog α} (h : Ahead E L p t r t') (hL : LogOk E L) {u : MPT} (hr : u.root = t.root)
    (hsec : u.secure = t.secure) (hs : Sub t.store u.store) (hg : GS E L u.store) : Ahead E L p u r t' := by
  obtain ⟨S, r', se⟩ := u
  simp only at hr hsec hs hg
  subst hr hsec
  obtain ⟨h1, h2, h3, h4, h5⟩ := Prog.mono hL p t S h.fine h.plain hs hg h.log
  exact ⟨h1, h.plain, h2.trans h.out, h3.trans h.root, h.sub.trans h4, fun w hw => h.log w (h5 ▸ hw)⟩

theorem of_done {x : Py α} (h : Ahead E L (.done x) t r t') : x = r ∧ t.root = t'.root ∧ Sub t'.store t.store :=
  ⟨h.out, h.root, h.sub⟩

theorem of_load {k v : Bytes} {n : Bytes → Prog α} (h : Ahead E L (.load k n) t r t')
    (e : dget t.store.kv k = some v) : Ahead E L (n v) t r t' := by
  obtain ⟨h1, h2, h3, h4, h5, h6⟩ := h
  simp only [Fine, alone, writes, e] at h1 h3 h4 h5 h6
  exact ⟨h1, h2 v, h3, h4, h5, h6⟩

theorem of_load_none {k : Bytes} {n : Bytes → Prog α} (h : Ahead E L (.load k n) t r t')
    (e : dget t.store.kv k = none) : Ahead E L (.done (.error .keyError)) t r t' := by
  obtain ⟨h1, h2, h3, h4, h5, h6⟩ := h
  simp only [Fine, alone, writes, e] at h1 h3 h4 h5 h6
  exact ⟨trivial, trivial, h3, h4, h5, fun w hw => h6 w hw⟩

theorem of_save {k v : Bytes} {n : Prog α} (h : Ahead E L (.save k v n) t r t') :
    Ahead E L n { t with store := t.store.set k v } r t' ∧ k = E.keccak v ∧ v ∈ L ∧ 32 ≤ v.length :=
  ⟨⟨h.fine, h.plain.2.2, h.out, h.root, h.sub, fun w hw => h.log w (List.mem_cons_of_mem _ hw)⟩, h.plain.1,
    h.log v List.mem_cons_self, h.plain.2.1⟩

theorem of_root {n : Option Bytes → Prog α} (h : Ahead E L (.root n) t r t') : Ahead E L (n t.root) t r t' :=
  ⟨h.fine, h.plain _, h.out, h.root, h.sub, h.log⟩

theorem of_setRoot {q : Option Bytes} {n : Prog α} (h : Ahead E L (.setRoot q n) t r t') :
    Ahead E L n { t with root := q } r t' ∧ ∃ x, n = .done x := by
  obtain ⟨x, rfl⟩ := h.plain
  exact ⟨⟨trivial, trivial, h.out, h.root, h.sub, fun w hw => h.log w hw⟩, x, rfl⟩

end Ahead
end Prog

/-- Storage of a trie and another with a larger storage: calls end the same way. -/
theorem Call.seq_mono {E : Env} {L : List Bytes} (hL : LogOk E L) (c : Call) (t : MPT) (S : Store)
    (hf : (c.prog E t.secure).Fine E t) (hs : Sub t.store S) (hg : GS E L S)
    (hw : ∀ w ∈ (c.prog E t.secure).writes t, w ∈ L) :
    (c.seq E { t with store := S }).1 = (c.seq E t).1 := by
  rw [← Call.prog_alone, ← Call.prog_alone]
  exact (Prog.mono hL _ t S hf (Prog.plain_call E _ c) hs hg hw).2.1

end Pymt
