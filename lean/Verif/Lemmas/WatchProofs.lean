import Verif.Lemmas.Watching
import Verif.Lemmas.ProofObj

/-!
# Lemmas: proofs made while others write
-/

namespace Pymt
namespace Prog
variable {E : Env} {α β : Type} {t : MPT}

/-- A walk along references: it reads entries of the dict and does nothing else. -/
def Loads {α : Type} : Prog α → Prop
  | .done _ => True
  | .load _ n => ∀ v, Loads (n v)
  | .save _ _ _ => False
  | .root _ => False
  | .setRoot _ _ => False

namespace Loads

theorem quiet {p : Prog α} (h : Loads p) : p.Quiet := by
  induction p with
  | done r => trivial
  | load k n ih => exact fun v => ih v (h v)
  | save k v n ih => exact h.elim
  | root n ih => exact h.elim
  | setRoot r n ih => exact h.elim

theorem inner {p : Prog α} (h : Loads p) : p.Inner E := by
  induction p with
  | done r => trivial
  | load k n ih => exact fun v => ih v (h v)
  | save k v n ih => exact h.elim
  | root n ih => exact h.elim
  | setRoot r n ih => exact h.elim

theorem bind {p : Prog α} {f : α → Prog β} (h : Loads p) (hf : ∀ a, Loads (f a)) : Loads (p >>= f) := by
  show Loads (p.bind f)
  induction p with
  | done r =>
    cases r with
    | ok a => exact hf a
    | error e => trivial
  | load k n ih => exact fun v => ih v (h v)
  | save k v n ih => exact h.elim
  | root n ih => exact h.elim
  | setRoot r n ih => exact h.elim

theorem lift (m : Py α) : Loads (Prog.lift m) := trivial
theorem raise (e : Err) : Loads (Prog.raise e : Prog α) := trivial
theorem pure (a : α) : Loads (Pure.pure a : Prog α) := trivial

theorem getNode (ref : Option Bytes) : Loads (MPT.getNodeP ref) := by
  cases ref with
  | none => exact raise _
  | some ref =>
    refine bind (p := MPT.rawP ref) ?_ fun raw => lift _
    unfold MPT.rawP
    split
    · exact fun _ => trivial
    · exact lift _

theorem poi (f : Nat) (ref : Option Bytes) (path : NibblePath) (l : List Bytes) : Loads (MPT.poiP f ref path l) := by
  induction f generalizing ref path l with
  | zero => exact raise _
  | succ f ih =>
    unfold MPT.poiP
    refine (getNode _).bind fun node => (lift _).bind fun n => ?_
    split
    · exact (lift _).bind fun _ => pure _
    · cases node with
      | leaf p d =>
        refine (lift _).bind fun same => ?_
        split
        · exact (lift _).bind fun _ => pure _
        · exact raise _
      | ext p r =>
        refine (lift _).bind fun pre => ?_
        split
        · exact (lift _).bind fun m => (lift _).bind fun _ => ih _ _ _
        · exact raise _
      | branch bs d =>
        refine (lift _).bind fun i => (lift _).bind fun b => ?_
        split
        · exact (lift _).bind fun _ => ih _ _ _
        · exact raise _

theorem poe (f : Nat) (ref : Option Bytes) (path : NibblePath) (l : List Bytes) : Loads (MPT.poeP f ref path l) := by
  induction f generalizing ref path l with
  | zero => exact raise _
  | succ f ih =>
    unfold MPT.poeP
    refine (getNode _).bind fun node => (lift _).bind fun n => ?_
    split
    · exact (lift _).bind fun _ => pure _
    · cases node with
      | leaf p d => exact (lift _).bind fun _ => pure _
      | ext p r =>
        refine (lift _).bind fun pre => ?_
        split
        · exact (lift _).bind fun m => (lift _).bind fun _ => ih _ _ _
        · exact pure _
      | branch bs d =>
        refine (lift _).bind fun i => (lift _).bind fun b => (lift _).bind fun _ => ?_
        split
        · exact ih _ _ _
        · exact pure _

end Loads

namespace Reads

theorem poi (f : Nat) (ref : Bytes) (path : NibblePath) (l : List Bytes) :
    Reads t (MPT.poiP f (some ref) path l) (MPT.getPoiAux t.store.kv f ref path l) := by
  induction f generalizing ref path l with
  | zero => exact raise _
  | succ f ih =>
    unfold MPT.poiP MPT.getPoiAux
    refine (getNode _).bind fun node => (lift _).bind fun n => ?_
    split
    · exact (lift _).bind fun _ => pure _
    · cases node with
      | leaf p d =>
        refine (lift _).bind fun same => ?_
        split
        · exact (lift _).bind fun _ => pure _
        · exact raise _
      | ext p r =>
        refine (lift _).bind fun pre => ?_
        split
        · exact (lift _).bind fun m => (lift _).bind fun _ => ih _ _ _
        · exact raise _
      | branch bs d =>
        refine (lift _).bind fun i => (lift _).bind fun b => ?_
        split
        · exact (lift _).bind fun _ => ih _ _ _
        · exact raise _

theorem poe (f : Nat) (ref : Bytes) (path : NibblePath) (l : List Bytes) :
    Reads t (MPT.poeP f (some ref) path l) (MPT.getPoeAux t.store.kv f ref path l) := by
  induction f generalizing ref path l with
  | zero => exact raise _
  | succ f ih =>
    unfold MPT.poeP MPT.getPoeAux
    refine (getNode _).bind fun node => (lift _).bind fun n => ?_
    split
    · exact (lift _).bind fun _ => pure _
    · cases node with
      | leaf p d => exact (lift _).bind fun _ => pure _
      | ext p r =>
        refine (lift _).bind fun pre => ?_
        split
        · exact (lift _).bind fun m => (lift _).bind fun _ => ih _ _ _
        · exact pure _
      | branch bs d =>
        refine (lift _).bind fun i => (lift _).bind fun b => (lift _).bind fun _ => ?_
        split
        · exact ih _ _ _
        · exact pure _

/-- Alone, the call is the call of the sequential model. -/
theorem poiCall (E : Env) (now k : Bytes) :
    Reads t (MPT.getPoiCallP E now (t.keyOf E k)) (t.getPoi E now k) := by
  unfold MPT.getPoiCallP MPT.getPoi Reads
  rw [alone_bind, show (MPT.noRootP E).alone t = (.ok (t.noRoot E), t) from Reads.noRoot E]
  simp only
  cases hn : t.noRoot E with
  | true => rfl
  | false =>
    obtain ⟨r, hr⟩ : ∃ r, t.root = some r := by
      cases h : t.root with
      | none => simp [MPT.noRoot, h] at hn
      | some r => exact ⟨r, rfl⟩
    simp only [Bool.false_eq_true, if_false]
    rw [alone_bind, show Prog.getRoot.alone t = (.ok t.root, t) from rfl, hr]
    simp only [Option.getD_some]
    rw [alone_bind, show (MPT.poiP E.limit (some r) _ []).alone t = (_, t) from poi _ _ _ _]
    cases MPT.getPoiAux t.store.kv E.limit r ⟨t.keyOf E k, 0⟩ [] with
    | error e => rfl
    | ok l =>
      simp only
      rw [alone_bind, show Prog.getRoot.alone t = (.ok t.root, t) from rfl, hr]
      rfl

end Reads
end Prog

namespace Views
variable {E : Env} {log : List Bytes} {sec : Bool} {st : Nat → MPT} {e : Nat → Nat} {V : Nat → MPT}

open Prog

/-- The check for a trie without a root. -/
theorem noRoot (h : Views E log sec st e V) (m : Nat) :
    (∃ n, m ≤ n ∧ ((MPT.noRootP E).along V m).1 = .ok true ∧ (st (e n)).noRoot E = true) ∨
    ((MPT.noRootP E).along V m = (.ok false, m + 2) ∧ (st (e m)).root ≠ none ∧
      (st (e (m + 1))).root ≠ some (emptyHash E)) := by
  unfold MPT.noRootP
  rw [along_bind, show Prog.getRoot.along V m = (.ok (V m).root, m + 1) from rfl, h.root]
  simp only
  by_cases h1 : (st (e m)).root = none
  · rw [if_pos h1]
    exact .inl ⟨m, Nat.le_refl _, rfl, by simp [MPT.noRoot, h1]⟩
  · rw [if_neg h1, along_bind, show Prog.getRoot.along V (m + 1) = (.ok (V (m + 1)).root, m + 2) from rfl, h.root]
    simp only
    by_cases h2 : (st (e (m + 1))).root = some (emptyHash E)
    · refine .inl ⟨m + 1, Nat.le_succ _, ?_, by simp [MPT.noRoot, h2]⟩
      rw [h2]
      show (Except.ok _ : Py Bool) = _
      simp
    · refine .inr ⟨?_, h1, h2⟩
      have : ((st (e (m + 1))).root == some (emptyHash E)) = false := by simpa using h2
      rw [this]
      rfl

/-- Proofs of inclusion. -/
theorem poi (h : Views E log sec st e V) {k : Bytes} (hf : Fits E sec k) (now : Bytes) {lo hi : Nat}
    (hb : ∀ n, lo ≤ e n ∧ e n ≤ hi) :
    (∃ q, lo ≤ q ∧ q ≤ hi ∧ watch V (MPT.getPoiCallP E now (storedKey E sec k)) = (st q).getPoi E now k) ∨
    (watch V (MPT.getPoiCallP E now (storedKey E sec k)) = .error .typeError ∧ ∃ q q', lo ≤ q ∧ q ≤ q' ∧ q' ≤ hi ∧
      (st q).root ≠ none ∧ (st q').root = none) ∨
    (∃ q q' p r, lo ≤ q ∧ q ≤ q' ∧ q' ≤ hi ∧ (st q).getPoi E now k = .ok p ∧ (st q').root = some r ∧
      watch V (MPT.getPoiCallP E now (storedKey E sec k)) = .ok { p with trieRoot := r }) := by
  unfold watch MPT.getPoiCallP
  rw [along_bind]
  rcases h.noRoot 0 with ⟨n, _, h1, h2⟩ | ⟨h1, h2, h3⟩
  · generalize (MPT.noRootP E).along V 0 = z at h1
    obtain ⟨z, m⟩ := z
    simp only at h1
    subst h1
    refine .inl ⟨e n, (hb n).1, (hb n).2, ?_⟩
    unfold MPT.getPoi
    rw [if_pos h2]
    rfl
  rw [h1]
  simp only [Bool.false_eq_true, if_false]
  rw [along_bind, show Prog.getRoot.along V (0 + 2) = (.ok (V 2).root, 3) from rfl, h.root]
  simp only
  have hlim : 0 < E.limit := by unfold Fits at hf; omega
  cases hr : (st (e 2)).root with
  | none =>
    refine .inr (.inl ⟨?_, e 0, e 2, (hb 0).1, h.e_le (by omega), (hb 2).2, h2, hr⟩)
    obtain ⟨f, hl⟩ : ∃ f, E.limit = f + 1 := ⟨E.limit - 1, by omega⟩
    rw [hl]
    rfl
  | some r =>
    have hne : (st (e 2)).root ≠ some (emptyHash E) := h.stays _ _ (h.e_le (by omega)) h3
    have hno : (st (e 2)).noRoot E = false := by
      unfold MPT.noRoot
      rw [hr]
      simpa [hr] using hne
    obtain ⟨⟨aa, hinv⟩, hwr, hsec, hgs⟩ := h.ok (e 2)
    have hl : LogOk E (st (e 2)).store.written := h.log.mono hwr
    have hkey : storedKey E sec k = (st (e 2)).keyOf E k := by
      rw [keyOf_eq, hsec]; rfl
    have hpoi := (hinv.holds.never_key hl (fits_nibs (by rw [hsec]; exact hf))).2.2.1 now
    have hrd := Reads.poi (t := st (e 2)) E.limit r ⟨(st (e 2)).keyOf E k, 0⟩ []
    have hfin : (MPT.poiP E.limit (some r) ⟨(st (e 2)).keyOf E k, 0⟩ []).Fine E (st (e 2)) := by
      apply fine_of_alone
      rw [hrd]
      intro hx
      apply hpoi
      unfold MPT.getPoi
      rw [hno, hr]
      simp only [Bool.false_eq_true, if_false, Option.getD_some]
      simp only at hx
      rw [hx]; rfl
    have hwalk := h.walk (m := 3) (Loads.poi _ _ _ _).quiet (Loads.poi _ _ _ _).inner hfin
      ((h.sub 2).trans (h.mono 2))
    have hle := along_le V (MPT.poiP E.limit (some r) ⟨(st (e 2)).keyOf E k, 0⟩ []) 3
    rw [hkey, along_bind]
    rw [hrd] at hwalk
    generalize (MPT.poiP E.limit (some r) ⟨(st (e 2)).keyOf E k, 0⟩ []).along V 3 = z at hwalk hle
    obtain ⟨z, m⟩ := z
    simp only at hwalk hle
    subst hwalk
    have hdef : (st (e 2)).getPoi E now k =
        (MPT.getPoiAux (st (e 2)).store.kv E.limit r ⟨(st (e 2)).keyOf E k, 0⟩ [] >>= fun l =>
          pure { type := mptPoi, timestamp := now, targetKey := (st (e 2)).keyOf E k, trieRoot := r, proof := l }) := by
      unfold MPT.getPoi
      rw [hno, hr]
      rfl
    cases hx : MPT.getPoiAux (st (e 2)).store.kv E.limit r ⟨(st (e 2)).keyOf E k, 0⟩ [] with
    | error er =>
      refine .inl ⟨e 2, (hb 2).1, (hb 2).2, ?_⟩
      rw [hdef, hx]
      rfl
    | ok l =>
      rw [hx] at hdef
      simp only
      rw [along_bind, show Prog.getRoot.along V m = (.ok (V m).root, m + 1) from rfl, h.root]
      simp only
      cases hr' : (st (e m)).root with
      | none =>
        refine .inr (.inl ⟨rfl, e 2, e m, (hb 2).1, h.e_le (by omega), (hb m).2, by rw [hr]; simp, hr'⟩)
      | some r' =>
        exact .inr (.inr ⟨e 2, e m, _, r', (hb 2).1, h.e_le (by omega), (hb m).2, hdef, hr', rfl⟩)

/-- `root_hash` while others write. -/
theorem rootHash (h : Views E log sec st e V) (m : Nat) :
    (∃ n, m ≤ n ∧ ((MPT.rootHashP E).along V m).1 = .ok (some ((st (e n)).rootHash E))) ∨
    ((((MPT.rootHashP E).along V m).1 = .error .typeError ∨ ((MPT.rootHashP E).along V m).1 = .ok none) ∧
      ∃ n n', m ≤ n ∧ n ≤ n' ∧ (st (e n)).root ≠ none ∧ (st (e n')).root = none) ∨
    (∃ n n' b c r, m ≤ n ∧ n ≤ n' ∧ ((MPT.rootHashP E).along V m).1 = .ok (some r) ∧ (st (e n)).root = some b ∧
      (st (e n')).root = some c ∧
      (b.length = 32 ∧ c.length ≠ 32 ∧ r = c ∨ b.length ≠ 32 ∧ c.length = 32 ∧ r = E.keccak c)) := by
  have hnil : ∀ q, (st q).root ≠ some [] := by
    intro q hq
    obtain ⟨⟨a, h1, _⟩, _⟩ := h.ok q
    rcases h1.root with ⟨_, h2 | h2⟩ | ⟨h2, h3⟩
    · rw [hq] at h2; exact (nomatch h2)
    · rw [hq] at h2
      have e32 : (emptyHash E).length = 32 := E.keccak_len _
      injection h2 with h2
      rw [← h2] at e32
      simp at e32
    · rw [hq] at h3
      injection h3 with h3
      have := (T.ref_length_pos (E := E)).2 (T.Holds.isEmpty_false h2)
      rw [← h3] at this
      simp at this
  unfold MPT.rootHashP
  rw [along_bind, show Prog.getRoot.along V m = (.ok (V m).root, m + 1) from rfl, h.root]
  simp only
  by_cases h1 : (st (e m)).root.getD [] = []
  · rw [if_pos h1]
    refine .inl ⟨m, Nat.le_refl _, ?_⟩
    unfold MPT.rootHash
    simp only [h1, if_true]
    rfl
  rw [if_neg h1, along_bind, show Prog.getRoot.along V (m + 1) = (.ok (V (m + 1)).root, m + 2) from rfl, h.root]
  simp only
  have h1' : (st (e m)).root ≠ none := by intro h2; rw [h2] at h1; exact h1 rfl
  cases hb : (st (e (m + 1))).root with
  | none => exact .inr (.inl ⟨.inl rfl, m, m + 1, Nat.le_refl _, Nat.le_succ _, h1', hb⟩)
  | some b =>
    simp only
    rw [along_bind, show Prog.getRoot.along V (m + 2) = (.ok (V (m + 2)).root, m + 3) from rfl, h.root]
    simp only
    have hhash : ∀ c, (st (e (m + 2))).root = some c →
        (st (e (m + 2))).rootHash E = if c.length = 32 then c else E.keccak c := by
      intro c hc
      unfold MPT.rootHash
      rw [hc]
      have : c ≠ [] := by rintro rfl; exact hnil _ hc
      simp [this]
    by_cases hl : b.length = 32
    · rw [if_pos hl]
      cases hc : (st (e (m + 2))).root with
      | none => exact .inr (.inl ⟨.inr rfl, m, m + 2, Nat.le_refl _, by omega, h1', hc⟩)
      | some c =>
        by_cases hl' : c.length = 32
        · refine .inl ⟨m + 2, by omega, ?_⟩
          rw [hhash c hc, if_pos hl']
          rfl
        · exact .inr (.inr ⟨m + 1, m + 2, b, c, c, by omega, by omega, rfl, hb, hc, .inl ⟨hl, hl', rfl⟩⟩)
    · rw [if_neg hl]
      cases hc : (st (e (m + 2))).root with
      | none => exact .inr (.inl ⟨.inl rfl, m, m + 2, Nat.le_refl _, by omega, h1', hc⟩)
      | some c =>
        by_cases hl' : c.length = 32
        · exact .inr (.inr ⟨m + 1, m + 2, b, c, _, by omega, by omega, rfl, hb, hc, .inr ⟨hl, hl', rfl⟩⟩)
        · refine .inl ⟨m + 2, by omega, ?_⟩
          rw [hhash c hc, if_neg hl']
          rfl

/-- Proofs of exclusion. -/
theorem poe (h : Views E log sec st e V) {k : Bytes} (hf : Fits E sec k) (now : Bytes) {lo hi : Nat}
    (hb : ∀ n, lo ≤ e n ∧ e n ≤ hi) :
    (∃ q, lo ≤ q ∧ q ≤ hi ∧ watch V (MPT.getPoeCallP E now (storedKey E sec k)) = (st q).getPoe E now k) ∨
    (watch V (MPT.getPoeCallP E now (storedKey E sec k)) = .error .typeError ∧ ∃ q q', lo ≤ q ∧ q ≤ q' ∧ q' ≤ hi ∧
      (st q).root ≠ none ∧ (st q').root = none) ∨
    (∃ q q' p, lo ≤ q ∧ q ≤ q' ∧ q' ≤ hi ∧ (st q).getPoe E now k = .ok p ∧
      watch V (MPT.getPoeCallP E now (storedKey E sec k)) = .ok { p with trieRoot := (st q').rootHash E }) ∨
    (∃ q q'' q' p b c r, lo ≤ q ∧ q ≤ q'' ∧ q'' ≤ q' ∧ q' ≤ hi ∧ (st q).getPoe E now k = .ok p ∧
      (st q'').root = some b ∧ (st q').root = some c ∧
      (b.length = 32 ∧ c.length ≠ 32 ∧ r = c ∨ b.length ≠ 32 ∧ c.length = 32 ∧ r = E.keccak c) ∧
      watch V (MPT.getPoeCallP E now (storedKey E sec k)) = .ok { p with trieRoot := r }) := by
  unfold watch MPT.getPoeCallP
  rw [along_bind]
  rcases h.noRoot 0 with ⟨n, _, h1, h2⟩ | ⟨h1, h2, h3⟩
  · generalize (MPT.noRootP E).along V 0 = z at h1
    obtain ⟨z, m⟩ := z
    simp only at h1
    subst h1
    refine .inl ⟨e n, (hb n).1, (hb n).2, ?_⟩
    unfold MPT.getPoe
    rw [if_pos h2]
    rfl
  rw [h1]
  simp only [Bool.false_eq_true, if_false]
  -- `contains`
  rw [along_bind]
  have hst := h.stage (c := .contains k) rfl hf (p := (Call.contains k).prog E sec) (lo := e 2) (m := 2)
    (Nat.le_refl _) .begin
  have hle := along_le V (MPT.containsCallP E (storedKey E sec k)) 2
  rw [show (Call.contains k).prog E sec = (MPT.containsCallP E (storedKey E sec k) >>= fun b => pure (.bool b))
    from rfl, along_bind] at hst
  generalize (MPT.containsCallP E (storedKey E sec k)).along V (0 + 2) = z at hst hle
  obtain ⟨z, m⟩ := z
  simp only at hle
  have hbk : ∀ q, e 2 ≤ q → (st q).root ≠ some (emptyHash E) := fun q hq =>
    h.stays (e 1) q (Nat.le_trans (h.emono 1) hq) h3
  have hcont : ∀ q, ∃ b, (st q).contains E k = .ok b := by
    intro q
    obtain ⟨⟨a, ha, _⟩, hwr, hsec, _⟩ := h.ok q
    exact ⟨_, ha.contains (h.log.mono hwr) (fits_nibs (by rw [hsec]; exact hf))⟩
  cases z with
  | error er =>
    simp only at hst
    rcases hst with ⟨q, _, hq⟩ | ⟨hx, q, q', ⟨g1, g2⟩, ⟨g3, g4⟩, g5, g6, g7⟩ | ⟨hx, _, q, q', ⟨g1, g2⟩, _, _, g6, _⟩
    · obtain ⟨b, hb'⟩ := hcont q
      simp only [Call.seq, hb', Except.map] at hq
      exact (nomatch hq)
    · injection hx with hx
      subst hx
      exact .inr (.inl ⟨rfl, q, q', Nat.le_trans (hb 2).1 g1, g5, Nat.le_trans g4 (hb m).2, g6, g7⟩)
    · exact absurd g6 (hbk q g1)
  | ok b =>
    simp only
    change Answer E st (.contains k) (fun q => e 2 ≤ q ∧ q ≤ e m) (.ok (.bool b)) at hst
    cases b with
    | true =>
      rcases hst with ⟨q, ⟨g1, g2⟩, hq⟩ | ⟨hx, _⟩ | ⟨hx, _⟩
      · obtain ⟨b, hb'⟩ := hcont q
        simp only [Call.seq, hb', Except.map, Except.ok.injEq, Ans.bool.injEq] at hq
        subst hq
        refine .inl ⟨q, Nat.le_trans (hb 2).1 g1, Nat.le_trans g2 (hb m).2, ?_⟩
        obtain ⟨⟨a, ha, _⟩, hwr, hsec, _⟩ := h.ok q
        have hf' := fits_nibs (E := E) (t := st q) (k := k) (by rw [hsec]; exact hf)
        have hl := h.log.mono hwr
        rw [ha.contains hl hf'] at hb'
        injection hb' with hb'
        have hne : a ≠ .empty := by
          rintro rfl
          simp [T.has, T.seek] at hb'
        rw [ha.getPoe hl hne hf', if_pos hb']
        rfl
      · exact (nomatch hx)
      · exact (nomatch hx)
    | false =>
      simp only [Bool.false_eq_true, if_false]
      rw [along_bind, show Prog.getRoot.along V m = (.ok (V m).root, m + 1) from rfl, h.root]
      simp only
      have hlim : 0 < E.limit := by unfold Fits at hf; omega
      cases hr : (st (e m)).root with
      | none =>
        refine .inr (.inl ⟨?_, e 0, e m, (hb 0).1, h.e_le (by omega), (hb m).2, h2, hr⟩)
        obtain ⟨f, hl⟩ : ∃ f, E.limit = f + 1 := ⟨E.limit - 1, by omega⟩
        rw [hl]
        rfl
      | some r =>
        have hne := hbk (e m) (h.e_le hle)
        obtain ⟨⟨a, ha, _⟩, hwr, hsec, hgs⟩ := h.ok (e m)
        have hl : LogOk E (st (e m)).store.written := h.log.mono hwr
        have hf' := fits_nibs (E := E) (t := st (e m)) (k := k) (by rw [hsec]; exact hf)
        have hane : a ≠ .empty := by
          rintro rfl
          rcases ha.root with ⟨_, g | g⟩ | ⟨g, _⟩
          · rw [hr] at g; exact (nomatch g)
          · exact hne g
          · exact g rfl
        have hrr : r = T.ref E a := by
          have := ha.getD hane
          rwa [hr] at this
        subst hrr
        have hkey : storedKey E sec k = (st (e m)).keyOf E k := by
          rw [keyOf_eq, hsec]; rfl
        obtain ⟨n, path, w1, w2, w3, w4⟩ := T.getPoeAux_run E.limit ha.shape hane ha.stored
          (NibblePath.WF_bytes ((st (e m)).keyOf E k)) (by rwa [NibblePath.nibs_bytes]) []
        rw [NibblePath.nibs_bytes] at w1 w2 w4
        have hrd := Reads.poe (t := st (e m)) E.limit (T.ref E a) ⟨(st (e m)).keyOf E k, 0⟩ []
        rw [w1] at hrd
        have hfin : (MPT.poeP E.limit (some (T.ref E a)) ⟨(st (e m)).keyOf E k, 0⟩ []).Fine E (st (e m)) := by
          apply fine_of_alone
          rw [hrd]
          simp
        have hwalk := h.walk (m := m + 1) (Loads.poe _ _ _ _).quiet (Loads.poe _ _ _ _).inner hfin
          ((h.sub m).trans (h.mono m))
        have hle' := along_le V (MPT.poeP E.limit (some (T.ref E a)) ⟨(st (e m)).keyOf E k, 0⟩ []) (m + 1)
        rw [hkey, along_bind]
        rw [hrd] at hwalk
        generalize (MPT.poeP E.limit (some (T.ref E a)) ⟨(st (e m)).keyOf E k, 0⟩ []).along V (m + 1) = z at hwalk hle'
        obtain ⟨z, m'⟩ := z
        simp only at hwalk hle'
        subst hwalk
        simp only
        have hnull : Node.encode (.leaf path MPT.nullBytes) =
            .ok (T.enc E (.leaf (T.seek a (toNibs ((st (e m)).keyOf E k))).2 MPT.nullBytes)) := by
          refine T.Rep.encode (t := .leaf _ _) (n := .leaf path MPT.nullBytes) ?_
          exact ⟨w3, w4, rfl⟩
        rw [hnull]
        have hthere : MPT.notThere n path = if T.has a (toNibs ((st (e m)).keyOf E k)) then .error .poe else .ok () := by
          have hsn := T.seek_ne_empty ha.shape hane (toNibs ((st (e m)).keyOf E k))
          unfold T.has
          generalize hs : T.seek a (toNibs ((st (e m)).keyOf E k)) = s at *
          obtain ⟨x, r⟩ := s
          cases x with
          | empty => exact absurd rfl hsn
          | leaf q v =>
            cases n <;> simp only [T.Rep] at w2
            rename_i np d
            obtain ⟨g1, rfl, rfl⟩ := w2
            simp only [MPT.notThere, NibblePath.eq_spec g1 w3, w4, Except.bind_ok']
          | ext q c =>
            cases n <;> simp only [T.Rep] at w2
            rfl
          | branch cs v =>
            cases n <;> simp only [T.Rep] at w2
            obtain ⟨_, rfl⟩ := w2
            simp only [MPT.notThere, decide_eq_true_eq]
        have hpoe := ha.getPoe hl hane (now := now) hf'
        generalize T.enc E (.leaf (T.seek a (toNibs ((st (e m)).keyOf E k))).2 MPT.nullBytes) = nl at hnull hpoe
        rw [along_bind, show (Prog.lift (.ok nl)).along V m' = (.ok nl, m') from rfl]
        simp only
        rw [along_bind, hthere]
        by_cases hh : T.has a (toNibs ((st (e m)).keyOf E k)) = true
        · refine .inl ⟨e m, (hb m).1, (hb m).2, ?_⟩
          rw [if_pos hh] at hpoe ⊢
          rw [hpoe]
          rfl
        · rw [if_neg hh] at hpoe ⊢
          rw [show (Prog.lift (.ok ())).along V m' = (.ok (), m') from rfl]
          simp only [List.nil_append]
          rw [along_bind]
          generalize (T.shown a (toNibs ((st (e m)).keyOf E k))).map (T.enc E) ++ [nl] = pf at hpoe
          have hm' : m ≤ m' := by omega
          rcases h.rootHash m' with ⟨n, g1, g2⟩ | ⟨g1, n, n', g2, g3, g4, g5⟩ | ⟨n, n', b, c, r, g1, g2, g3, g4, g5, g6⟩
          · generalize (MPT.rootHashP E).along V m' = z at g2
            obtain ⟨z, m''⟩ := z
            simp only at g2
            subst g2
            exact .inr (.inr (.inl ⟨e m, e n, _, (hb m).1, h.e_le (by omega), (hb n).2, hpoe, rfl⟩))
          · refine .inr (.inl ⟨?_, e n, e n', (hb n).1, h.e_le g3, (hb n').2, g4, g5⟩)
            generalize (MPT.rootHashP E).along V m' = z at g1
            obtain ⟨z, m''⟩ := z
            simp only at g1
            rcases g1 with rfl | rfl <;> rfl
          · generalize (MPT.rootHashP E).along V m' = z at g3
            obtain ⟨z, m''⟩ := z
            simp only at g3
            subst g3
            exact .inr (.inr (.inr ⟨e m, e n, e n', _, b, c, r, (hb m).1, h.e_le (by omega), h.e_le g2, (hb n').2,
              hpoe, g4, g5, g6, rfl⟩))

end Views

namespace Prog.Reads
variable {E : Env} {t : MPT}

theorem rootHash (hnil : t.root ≠ some []) : Reads t (MPT.rootHashP E) (.ok (some (t.rootHash E))) := by
  unfold MPT.rootHashP Reads MPT.rootHash
  rw [alone_bind, show Prog.getRoot.alone t = (.ok t.root, t) from rfl]
  simp only
  cases hr : t.root with
  | none => rfl
  | some r =>
    have h0 : r ≠ [] := by rintro rfl; exact hnil hr
    simp only [Option.getD_some, h0, if_false]
    rw [alone_bind, show Prog.getRoot.alone t = (.ok t.root, t) from rfl, hr]
    simp only
    rw [alone_bind, show Prog.getRoot.alone t = (.ok t.root, t) from rfl, hr]
    simp only
    split <;> rfl

theorem root_some (hn : t.noRoot E = false) : ∃ r, t.root = some r := by
  cases h : t.root with
  | none => simp [MPT.noRoot, h] at hn
  | some r => exact ⟨r, rfl⟩

theorem verifyPoiCall (hnil : t.root ≠ some []) (p : Proof Bytes) :
    Reads t (MPT.verifyPoiCallP E p) (t.verifyPoi E p) := by
  unfold MPT.verifyPoiCallP MPT.verifyPoi
  by_cases ht : p.type ≠ mptPoi
  · rw [if_pos ht, if_pos ht]; exact raise _
  rw [if_neg ht, if_neg ht]
  unfold Reads
  rw [alone_bind, show (MPT.noRootP E).alone t = (.ok (t.noRoot E), t) from Reads.noRoot E]
  simp only
  cases hn : t.noRoot E with
  | true => rfl
  | false =>
    obtain ⟨r, hr⟩ := root_some hn
    simp only [Bool.false_eq_true, if_false]
    rw [alone_bind, show (MPT.rootHashP E).alone t = (.ok (some (t.rootHash E)), t) from rootHash hnil]
    simp only
    rw [alone_bind]
    cases hfi : pyIndex p.proof 0 with
    | error er => rfl
    | ok first =>
      simp only [Prog.lift, alone, Except.bind_ok', ne_eq, Option.some.injEq]
      by_cases hh : t.rootHash E = E.keccak first
      · simp only [hh, not_true, if_false]
        cases hps : MPT.proofStorage E p.proof [] with
        | error er => cases er <;> rfl
        | ok ps =>
          simp only
          rw [alone_bind, show Prog.getRoot.alone t = (.ok t.root, t) from rfl, hr]
          simp only [Option.getD_some]
          rw [alone_bind]
          cases hv : MPT.verifyPoiAux ps E.limit r ⟨p.targetKey, 0⟩ with
          | error er => rfl
          | ok b =>
            cases b with
            | false => rfl
            | true =>
              simp only [alone, if_true]
              rw [alone_bind, show (MPT.rootHashP E).alone t = (.ok (some (t.rootHash E)), t) from rootHash hnil]
              simp only [hh, Except.bind_ok', Bool.true_and]
              rfl
      · simp only [hh, not_false_eq_true, if_true]
        rfl

theorem verifyPoeCall (hnil : t.root ≠ some []) (p : Proof Bytes) :
    Reads t (MPT.verifyPoeCallP E p) (t.verifyPoe E p) := by
  unfold MPT.verifyPoeCallP MPT.verifyPoe
  by_cases ht : p.type ≠ mptPoe
  · rw [if_pos ht, if_pos ht]; exact raise _
  rw [if_neg ht, if_neg ht]
  unfold Reads
  rw [alone_bind, show (MPT.noRootP E).alone t = (.ok (t.noRoot E), t) from Reads.noRoot E]
  simp only
  cases hn : t.noRoot E with
  | true => rfl
  | false =>
    obtain ⟨r, hr⟩ := root_some hn
    simp only [Bool.false_eq_true, if_false]
    rw [alone_bind, show (MPT.rootHashP E).alone t = (.ok (some (t.rootHash E)), t) from rootHash hnil]
    simp only
    refine (lift (pyIndex p.proof 0)).bind fun first => ?_
    by_cases hh : t.rootHash E = E.keccak first
    · simp only [hh, ne_eq, not_true, if_false]
      refine (lift _).bind fun last => (lift _).bind fun ln => (lift _).bind fun d => ?_
      split
      · exact pure _
      · refine (lift _).bind fun ps => ?_
        unfold Reads
        rw [alone_bind, show Prog.getRoot.alone t = (.ok t.root, t) from rfl, hr]
        simp only [Option.getD_some]
        refine (lift _).bind fun z => ?_
        exact lift _
    · have hh' : some (t.rootHash E) ≠ some (E.keccak first) := fun h => hh (Option.some.inj h)
      rw [if_pos hh, if_pos hh']
      exact pure _

end Prog.Reads

namespace Prog
variable {α : Type}

/-- A reader whom nobody disturbs. -/
theorem still {E : Env} {V : Nat → MPT} {t : MPT} {log : List Bytes} (hL : LogOk E log) {p : Prog α} (hq : p.Quiet)
    (hf : p.Fine E t) (hr : ∀ n, (V n).root = t.root) (hs : ∀ n, Sub t.store (V n).store)
    (hg : ∀ n, GS E log (V n).store) (m : Nat) : (p.along V m).1 = (p.alone t).1 := by
  induction p generalizing m with
  | done r => rfl
  | load k n ih =>
    simp only [along, alone, Fine] at hf ⊢
    cases hk : dget t.store.kv k with
    | none =>
      rw [hk] at hf
      simp only at hf
      subst hf
      rw [(hg m).noEmpty hL]
    | some v =>
      rw [hk] at hf
      rw [hs m _ _ hk]
      exact ih v (hq v) hf _
  | save k v n ih => exact hq.elim
  | root n ih =>
    simp only [along, alone, hr]
    exact ih _ (hq _) hf _
  | setRoot r n ih => exact hq.elim

/-- A program that reads nothing but the root. -/
def Roots {α : Type} : Prog α → Prop
  | .done _ => True
  | .load _ _ => False
  | .save _ _ _ => False
  | .root n => ∀ r, Roots (n r)
  | .setRoot _ _ => False

namespace Roots
variable {β : Type}

theorem quiet {p : Prog α} (h : Roots p) : p.Quiet := by
  induction p with
  | done r => trivial
  | load k n ih => exact h.elim
  | save k v n ih => exact h.elim
  | root n ih => exact fun r => ih r (h r)
  | setRoot r n ih => exact h.elim

theorem fine {E : Env} {t : MPT} {p : Prog α} (h : Roots p) : p.Fine E t := by
  induction p with
  | done r => trivial
  | load k n ih => exact h.elim
  | save k v n ih => exact h.elim
  | root n ih => exact ih _ (h _)
  | setRoot r n ih => exact h.elim

theorem bind {p : Prog α} {f : α → Prog β} (h : Roots p) (hf : ∀ a, Roots (f a)) : Roots (p >>= f) := by
  show Roots (p.bind f)
  induction p with
  | done r =>
    cases r with
    | ok a => exact hf a
    | error e => trivial
  | load k n ih => exact h.elim
  | save k v n ih => exact h.elim
  | root n ih => exact fun r => ih r (h r)
  | setRoot r n ih => exact h.elim

theorem lift (m : Py α) : Roots (Prog.lift m) := trivial
theorem raise (e : Err) : Roots (Prog.raise e : Prog α) := trivial
theorem pure (a : α) : Roots (Pure.pure a : Prog α) := trivial
theorem getRoot : Roots Prog.getRoot := fun _ => trivial

theorem noRoot (E : Env) : Roots (MPT.noRootP E) := by
  unfold MPT.noRootP
  refine getRoot.bind fun r => ?_
  split
  · exact pure _
  · exact getRoot.bind fun r => pure _

theorem rootHash (E : Env) : Roots (MPT.rootHashP E) := by
  unfold MPT.rootHashP
  refine getRoot.bind fun r => ?_
  split
  · exact pure _
  · refine getRoot.bind fun r => ?_
    cases r with
    | none => exact raise _
    | some b =>
      refine getRoot.bind fun r => ?_
      split
      · exact pure _
      · cases r with
        | none => exact raise _
        | some c => exact pure _

theorem verifyPoiCall (E : Env) (p : Proof Bytes) : Roots (MPT.verifyPoiCallP E p) := by
  unfold MPT.verifyPoiCallP
  split
  · exact raise _
  refine (noRoot E).bind fun no => ?_
  split
  · exact raise _
  refine (rootHash E).bind fun h => (lift _).bind fun first => ?_
  split
  · exact pure _
  split
  · exact pure _
  · exact raise _
  · refine getRoot.bind fun r => ?_
    cases r with
    | none => exact raise _
    | some ref =>
      refine (lift _).bind fun valid => ?_
      split
      · exact (rootHash E).bind fun h => pure _
      · exact pure _

theorem verifyPoeCall (E : Env) (p : Proof Bytes) : Roots (MPT.verifyPoeCallP E p) := by
  unfold MPT.verifyPoeCallP
  split
  · exact raise _
  refine (noRoot E).bind fun no => ?_
  split
  · exact raise _
  refine (rootHash E).bind fun h => (lift _).bind fun first => ?_
  split
  · exact pure _
  refine (lift _).bind fun last => (lift _).bind fun ln => (lift _).bind fun d => ?_
  split
  · exact pure _
  refine (lift _).bind fun ps => getRoot.bind fun r => ?_
  cases r with
  | none => exact raise _
  | some ref => exact (lift _).bind fun z => lift _

end Roots
end Prog

/-- What is known about a state in which a reader found a root. -/
theorem Views.rooted {E : Env} {log : List Bytes} {sec : Bool} {st : Nat → MPT} {e : Nat → Nat} {V : Nat → MPT}
    (h : Views E log sec st e V) {q q' : Nat} (hq : q ≤ q') (hr : (st q).root ≠ some (emptyHash E)) {r : Bytes}
    (hr' : (st q').root = some r) {a : T} (ha : T.Holds E (st q') a) : a ≠ .empty ∧ r = T.ref E a := by
  have hne := h.stays q q' hq hr
  have hane : a ≠ .empty := by
    rintro rfl
    rcases ha.root with ⟨_, g | g⟩ | ⟨g, _⟩
    · rw [hr'] at g; exact (nomatch g)
    · exact hne g
    · exact g rfl
  refine ⟨hane, ?_⟩
  have := ha.getD hane
  rwa [hr'] at this

open Prog in
/-- A proof of inclusion accepted while others write: the walk is one in the trie of some moment. -/
theorem Views.verifyPoi_sound {E : Env} {log : List Bytes} {sec : Bool} {st : Nat → MPT} {e : Nat → Nat}
    {V : Nat → MPT} (h : Views E log sec st e V) {p : Proof Bytes} (hc : CollFree E (log ++ checked p))
    (hv : watch V (MPT.verifyPoiCallP E p) = .ok true) :
    ∃ n, ∀ a, T.Holds E (st (e n)) a →
      a ≠ .empty ∧ T.Accepts (T.seek a (toNibs p.targetKey)).1 (T.seek a (toNibs p.targetKey)).2 := by
  unfold watch MPT.verifyPoiCallP at hv
  split at hv
  · exact (nomatch hv)
  rw [along_bind] at hv
  rcases h.noRoot 0 with ⟨n, _, h1, h2⟩ | ⟨h1, h2, h3⟩
  · generalize (MPT.noRootP E).along V 0 = z at h1 hv
    obtain ⟨z, m⟩ := z
    simp only at h1
    subst h1
    exact (nomatch hv)
  rw [h1] at hv
  simp only [Bool.false_eq_true, if_false] at hv
  rw [along_bind] at hv
  have hle := along_le V (MPT.rootHashP E) (0 + 2)
  generalize (MPT.rootHashP E).along V (0 + 2) = z at hv hle
  obtain ⟨z, m⟩ := z
  cases z with
  | error er => exact (nomatch hv)
  | ok z =>
    simp only at hv hle
    rw [along_bind] at hv
    cases hfi : pyIndex p.proof 0 with
    | error er => rw [hfi] at hv; exact (nomatch hv)
    | ok first =>
      rw [hfi] at hv
      simp only [Prog.lift, along] at hv
      split at hv
      · exact (nomatch hv)
      cases hps : MPT.proofStorage E p.proof [] with
      | error er => rw [hps] at hv; cases er <;> exact (nomatch hv)
      | ok ps =>
        rw [hps] at hv
        simp only at hv
        rw [along_bind, show Prog.getRoot.along V m = (.ok (V m).root, m + 1) from rfl, h.root] at hv
        simp only at hv
        cases hr : (st (e m)).root with
        | none => rw [hr] at hv; exact (nomatch hv)
        | some r =>
          rw [hr] at hv
          simp only at hv
          rw [along_bind] at hv
          cases hw : MPT.verifyPoiAux ps E.limit r ⟨p.targetKey, 0⟩ with
          | error er => rw [hw] at hv; exact (nomatch hv)
          | ok b =>
            cases b with
            | false => rw [hw] at hv; exact (nomatch hv)
            | true =>
              refine ⟨m, fun a ha => ?_⟩
              obtain ⟨hne, rfl⟩ := h.rooted (h.e_le (by omega)) h3 hr ha
              refine ⟨hne, ?_⟩
              have hg : T.Genuine E (log ++ checked p) ps := by
                refine T.proofStorage_genuine (l := p.proof) (acc := []) ?_ ?_ hps
                · intro v hv e he
                  refine List.mem_append_right _ (List.mem_append_right _ ?_)
                  exact List.mem_filterMap.2 ⟨v, hv, he⟩
                · intro k v hk; simp [dget] at hk
              have hlog : T.Logged E (log ++ checked p) a := by
                refine T.Logged.mono ?_ (ha.stored.logged ha.good)
                intro x hx; exact List.mem_append_left _ ((h.ok (e m)).written x hx)
              have := T.verifyPoiAux_sound hc hg E.limit ha.shape hne ha.stored hlog (NibblePath.WF_bytes _) hw
              rwa [NibblePath.nibs_bytes] at this

/-- What an accepted walk says about the keys. -/
theorem accepts_present {E : Env} {secure : Bool} {ops : List Op} (hf : ∀ op ∈ ops, Fits E secure op.key)
    (hl : LogOk E (MPT.after E secure ops).store.written) {k : Bytes}
    (hacc : ∀ a, T.Holds E (MPT.after E secure ops) a →
      a ≠ .empty ∧ T.Accepts (T.seek a (toNibs k)).1 (T.seek a (toNibs k)).2) :
    ∃ e, Present E secure ops e ∧ k <+: e := by
  have hb := Bears.after hf hl
  obtain ⟨hne, hacc⟩ := hacc _ hb.holds
  obtain ⟨q, w, h1, h2⟩ := T.Full.accepts_prefix hb.full hne hacc
  obtain ⟨e, he, rfl⟩ := T.grow_sub h1
  exact ⟨_, ⟨e, by rw [he]; simp, rfl⟩, toNibs_prefix.1 h2⟩

/-- The root is never the empty string. -/
theorem StOk.root_ne_nil {E : Env} {log : List Bytes} {sec : Bool} {t : MPT} (h : StOk E log sec t) :
    t.root ≠ some [] := by
  intro hq
  obtain ⟨⟨a, h1, _⟩, _⟩ := h
  rcases h1.root with ⟨_, h2 | h2⟩ | ⟨h2, h3⟩
  · rw [hq] at h2; exact (nomatch h2)
  · rw [hq] at h2
    have e32 : (emptyHash E).length = 32 := E.keccak_len _
    injection h2 with h2
    rw [← h2] at e32
    simp at e32
  · rw [hq] at h3
    injection h3 with h3
    have := (T.ref_length_pos (E := E)).2 (T.Holds.isEmpty_false h2)
    rw [← h3] at this
    simp at this

theorem getPoe_root {E : Env} {t : MPT} {now k : Bytes} {p : Proof Bytes} (h : t.getPoe E now k = .ok p) :
    p.trieRoot = t.rootHash E := by
  unfold MPT.getPoe at h
  split at h
  · exact (nomatch h)
  cases hc : t.contains E k with
  | error e => rw [hc] at h; exact (nomatch h)
  | ok b =>
    rw [hc] at h
    simp only [Except.bind_ok'] at h
    split at h
    · exact (nomatch h)
    cases ha : MPT.getPoeAux t.store.kv E.limit (t.root.getD []) { data := t.keyOf E k } [] with
    | error e => rw [ha] at h; exact (nomatch h)
    | ok z =>
      obtain ⟨node, l, path⟩ := z
      rw [ha] at h
      simp only [Except.bind_ok'] at h
      cases hn : Node.encode (.leaf path MPT.nullBytes) with
      | error e => rw [hn] at h; exact (nomatch h)
      | ok nl =>
        rw [hn] at h
        simp only [Except.bind_ok'] at h
        cases node with
        | branch bs d =>
          simp only at h
          split at h
          · exact (nomatch h)
          · injection h with h; rw [← h]
        | leaf q d =>
          simp only at h
          cases hq : q.eq path with
          | error e => rw [hq] at h; exact (nomatch h)
          | ok same =>
            rw [hq] at h
            simp only [Except.bind_ok'] at h
            split at h
            · exact (nomatch h)
            · injection h with h; rw [← h]
        | ext q r => injection h with h; rw [← h]

end Pymt
