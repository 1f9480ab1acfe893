import Verif.Spec.OnDemand
import Verif.Lemmas.WatchProofs
import Verif.Lemmas.Cost

/-!
# How much a call reads
-/

namespace Pymt
namespace Prog
variable {α β : Type} {t : MPT}

theorem loads_bind (p : Prog α) (f : α → Prog β) (t : MPT) :
    (p >>= f).loads t = p.loads t ++ (match p.alone t with
      | (.ok a, t') => (f a).loads t'
      | (.error _, _) => []) := by
  show (p.bind f).loads t = _
  induction p generalizing t with
  | done r => cases r <;> simp [Prog.bind, loads, alone]
  | load k n ih =>
    simp only [Prog.bind, loads, alone]
    cases dget t.store.kv k with
    | none => rfl
    | some v => simp only [ih, List.cons_append]
  | save k v n ih => simp only [Prog.bind, loads, alone, ih]
  | root n ih => simp only [Prog.bind, loads, alone, ih]
  | setRoot r n ih => simp only [Prog.bind, loads, alone, ih]

/-- At most so many reads of the storage from this state, depending on the outcome. -/
def Pulls (p : Prog α) (t : MPT) (b : Py α → Nat) : Prop := (p.loads t).length ≤ b (p.alone t).1

namespace Pulls

theorem mono {p : Prog α} {b b' : Py α → Nat} (h : Pulls p t b) (hb : ∀ r, b r ≤ b' r) : Pulls p t b' :=
  Nat.le_trans h (hb _)

theorem lift (m : Py α) (b : Py α → Nat) : Pulls (Prog.lift m) t b := by simp [Pulls, Prog.lift, loads]
theorem raise (e : Err) (b : Py α → Nat) : Pulls (Prog.raise e : Prog α) t b := by simp [Pulls, Prog.raise, loads]
theorem pure (a : α) (b : Py α → Nat) : Pulls (Pure.pure a : Prog α) t b := by
  show ([] : List Bytes).length ≤ _
  simp

/-- A first part with a known outcome. -/
theorem run {p : Prog α} {f : α → Prog β} {x : α} {t' : MPT} {n : Nat} {b : Py β → Nat} (h : p.alone t = (.ok x, t'))
    (hn : (p.loads t).length ≤ n) (hf : Pulls (f x) t' b) : Pulls (p >>= f) t fun r => n + b r := by
  unfold Pulls at *
  rw [loads_bind, h]
  have e : (p >>= f).alone t = (f x).alone t' := by
    rw [alone_bind, h]
  rw [e, List.length_append]
  simp only
  omega

theorem step {m : Py α} {f : α → Prog β} {x : α} {b : Py β → Nat} (h : m = .ok x) (hf : Pulls (f x) t b) :
    Pulls (Prog.lift m >>= f) t b := by
  subst h
  exact (run (p := Prog.lift (.ok x)) (n := 0) rfl (by simp [Prog.lift, loads]) hf).mono fun r => by omega

/-- Two parts. -/
theorem bind {p : Prog α} {f : α → Prog β} {a : Py α → Nat} {b : Py β → Nat} (h : Pulls p t a)
    (he : ∀ e, a (.error e) ≤ b (.error e))
    (hf : ∀ x t', a (.ok x) + ((f x).loads t').length ≤ b ((f x).alone t').1) : Pulls (p >>= f) t b := by
  unfold Pulls at *
  rw [loads_bind, alone_bind]
  cases e : p.alone t with
  | mk r t' =>
    rw [e] at h
    cases r with
    | error x => simp only [List.append_nil] at h ⊢; exact Nat.le_trans h (he x)
    | ok x =>
      have h1 := hf x t'
      rw [List.length_append]
      simp only at h h1 ⊢
      omega

/-- Two parts, with fixed numbers. -/
theorem both {p : Prog α} {f : α → Prog β} {a b : Nat} (h : Pulls p t fun _ => a)
    (hf : ∀ x t', Pulls (f x) t' fun _ => b) : Pulls (p >>= f) t fun _ => a + b :=
  bind h (fun _ => by omega) fun x t' => Nat.add_le_add_left (hf x t') _

/-- A first part that fails. -/
theorem fail {p : Prog α} {f : α → Prog β} {e : Err} {t' : MPT} {b : Py β → Nat} (h : p.alone t = (.error e, t'))
    (hn : (p.loads t).length ≤ b (.error e)) : Pulls (p >>= f) t b := by
  unfold Pulls
  rw [loads_bind, alone_bind, h]
  simpa using hn

theorem next {m : Py α} {f : α → Prog β} {b : Py β → Nat} (hf : ∀ x, Pulls (f x) t b) :
    Pulls (Prog.lift m >>= f) t b := by
  cases m with
  | error e => exact raise e b
  | ok x => exact step rfl (hf x)

end Pulls

/-- Reads nothing. -/
def Idle (p : Prog α) : Prop := ∀ t, p.loads t = []

namespace Idle
theorem lift (m : Py α) : Idle (Prog.lift m) := fun _ => rfl
theorem raise (e : Err) : Idle (Prog.raise e : Prog α) := fun _ => rfl
theorem pure (a : α) : Idle (Pure.pure a : Prog α) := fun _ => rfl
theorem root : Idle Prog.getRoot := fun _ => rfl
theorem bind {p : Prog α} {f : α → Prog β} (h : Idle p) (hf : ∀ a, Idle (f a)) : Idle (p >>= f) := by
  intro t
  rw [loads_bind, h t, List.nil_append]
  cases p.alone t with
  | mk r t' => cases r with
    | error e => rfl
    | ok x => exact hf x t'
theorem pulls {p : Prog α} (h : Idle p) (t : MPT) (b : Py α → Nat) : Pulls p t b := by simp [Pulls, h t]

theorem storeNode (E : Env) (n : Node) : Idle (MPT.storeNodeP E n) := by
  unfold MPT.storeNodeP
  refine (lift _).bind fun r => ?_
  split
  · exact (lift _).bind fun e _ => rfl
  · exact pure _

theorem createBranchLeaf (E : Env) (path : NibblePath) (v : Bytes) (bs : List Bytes) :
    Idle (MPT.createBranchLeafP E path v bs) := by
  unfold MPT.createBranchLeafP
  refine (lift _).bind fun n => ?_
  split
  · exact (lift _).bind fun _ => (storeNode E _).bind fun _ => lift _
  · exact pure _

theorem createBranchExtension (E : Env) (path : NibblePath) (r : Bytes) (bs : List Bytes) :
    Idle (MPT.createBranchExtensionP E path r bs) := by
  unfold MPT.createBranchExtensionP
  refine (lift _).bind fun n => ?_
  split
  · exact raise _
  · split
    · exact (lift _).bind fun _ => lift _
    · exact (lift _).bind fun _ => (storeNode E _).bind fun _ => lift _

theorem createBranchNode (E : Env) (pa : NibblePath) (va : Bytes) (pb : NibblePath) (vb : Bytes) :
    Idle (MPT.createBranchNodeP E pa va pb vb) := by
  unfold MPT.createBranchNodeP
  refine (lift _).bind fun a => (lift _).bind fun b => ?_
  split
  · exact raise _
  · exact (createBranchLeaf E _ _ _).bind fun _ => (createBranchLeaf E _ _ _).bind fun _ => storeNode E _

theorem noRoot (E : Env) : Idle (MPT.noRootP E) := by
  unfold MPT.noRootP
  refine root.bind fun r => ?_
  split
  · exact pure _
  · exact root.bind fun _ => pure _

theorem rootHash (E : Env) : Idle (MPT.rootHashP E) := by
  unfold MPT.rootHashP
  refine root.bind fun r => ?_
  split
  · exact pure _
  · refine root.bind fun r => ?_
    split
    · exact raise _
    · refine root.bind fun r => ?_
      split
      · exact pure _
      · split
        · exact raise _
        · exact pure _
end Idle

/-! ### Walks -/

theorem getNode_loads (r : Option Bytes) (t : MPT) : ((MPT.getNodeP r).loads t).length ≤ 1 := by
  cases r with
  | none => simp [MPT.getNodeP, Prog.raise, loads]
  | some r =>
    unfold MPT.getNodeP MPT.rawP
    rw [loads_bind]
    split
    · simp only [Prog.loadItem, loads, alone]
      cases dget t.store.kv r <;> simp [Prog.lift, loads]
    · simp [Prog.lift, loads, alone]

theorem pulls_node (r : Option Bytes) (t : MPT) : Pulls (MPT.getNodeP r) t fun _ => 1 := getNode_loads r t

theorem getNode_alone {E : Env} {c : T} (hs : T.Stored E t.store.kv c) (hne : c ≠ .empty) :
    ∃ n, (MPT.getNodeP (some (c.ref E))).alone t = (.ok n, t) ∧ T.Rep E c n := by
  obtain ⟨n, h1, h2⟩ := T.getNode_ref hs hne
  refine ⟨n, ?_, h2⟩
  have := Reads.getNode (t := t) (c.ref E)
  rw [h1] at this
  exact this

open T in
theorem pulls_get {E : Env} (f : Nat) {c : T} (hsh : c.Shape) (hne : c ≠ .empty) {path : NibblePath} (hp : path.WF)
    (hs : T.Stored E t.store.kv c) :
    Pulls (MPT.getP f (some (c.ref E)) path) t fun _ => path.nibs.length + 1 := by
  induction f generalizing c path with
  | zero => exact Pulls.raise _ _
  | succ f ih =>
    unfold MPT.getP
    obtain ⟨n, hn, hrep⟩ := getNode_alone hs hne
    refine (Pulls.run hn (getNode_loads _ _) (b := fun _ => path.nibs.length) ?_).mono fun r => by omega
    refine Pulls.step (NibblePath.len_spec hp) ?_
    cases hpn : path.nibs with
    | nil => exact Pulls.pure _ _
    | cons i p =>
      rw [if_neg (by simp)]
      cases c with
      | empty => exact absurd rfl hne
      | leaf q w =>
        cases n <;> simp only [Rep] at hrep
        simp only
        refine Pulls.next fun same => ?_
        split
        · exact Pulls.pure _ _
        · exact Pulls.raise _ _
      | ext q c =>
        cases n <;> simp only [Rep] at hrep
        rename_i np nr
        obtain ⟨hnp, rfl, rfl⟩ := hrep
        simp only
        refine Pulls.step (NibblePath.startsWith_spec hp hnp) ?_
        by_cases hpre : np.nibs <+: path.nibs
        · simp only [hpre, decide_true, if_true]
          refine Pulls.step (NibblePath.len_spec hnp) ?_
          have := ih hsh.2.2 hsh.child_ne (NibblePath.consume_WF hp hpre.length_le) hs.2
          rw [NibblePath.consume_nibs, List.length_drop] at this
          have h0 : 0 < np.nibs.length := List.length_pos_iff.2 hsh.1
          have h1 := hpre.length_le
          rw [hpn] at this h1
          exact this.mono fun _ => by omega
        · simp only [hpre, decide_false, Bool.false_eq_true, if_false]
          exact Pulls.raise _ _
      | branch cs w =>
        cases n <;> simp only [Rep] at hrep
        rename_i bs d
        obtain ⟨rfl, rfl⟩ := hrep
        simp only
        obtain ⟨hw, hc⟩ := nibs_cons_consume hp hpn
        refine Pulls.step (NibblePath.at_zero hpn) (Pulls.step (refs_get E cs i) ?_)
        split
        · rename_i hemp
          have hne' : cs i ≠ empty := by
            intro h; rw [h] at hemp; simp [ref] at hemp
          have := ih (hsh i) hne' hw (hs.2 i)
          rw [hc] at this
          exact this.mono fun _ => by simp
        · exact Pulls.raise _ _

open T in
theorem pulls_contains {E : Env} (f : Nat) {c : T} (hsh : c.Shape) (hne : c ≠ .empty) {path : NibblePath} (hp : path.WF)
    (hs : T.Stored E t.store.kv c) :
    Pulls (MPT.containsP E f (some (c.ref E)) path) t fun _ => path.nibs.length + 1 := by
  induction f generalizing c path with
  | zero => exact Pulls.raise _ _
  | succ f ih =>
    unfold MPT.containsP
    have hno : (MPT.noRootP E).alone t = (.ok (t.noRoot E), t) := Reads.noRoot E
    refine (Pulls.run hno (n := 0) (by rw [Idle.noRoot]; simp) (b := fun _ => path.nibs.length + 1) ?_).mono fun r => by omega
    split
    · exact Pulls.pure _ _
    obtain ⟨n, hn, hrep⟩ := getNode_alone hs hne
    refine (Pulls.run hn (getNode_loads _ _) (b := fun _ => path.nibs.length) ?_).mono fun r => by omega
    refine Pulls.step (NibblePath.len_spec hp) ?_
    cases hpn : path.nibs with
    | nil => exact Pulls.pure _ _
    | cons i p =>
      rw [if_neg (by simp)]
      cases c with
      | empty => exact absurd rfl hne
      | leaf q w =>
        cases n <;> simp only [Rep] at hrep
        exact Pulls.pure _ _
      | ext q c =>
        cases n <;> simp only [Rep] at hrep
        rename_i np nr
        obtain ⟨hnp, rfl, rfl⟩ := hrep
        simp only
        refine Pulls.step (NibblePath.startsWith_spec hp hnp) ?_
        by_cases hpre : np.nibs <+: path.nibs
        · simp only [hpre, decide_true, if_true]
          refine Pulls.step (NibblePath.len_spec hnp) ?_
          have := ih hsh.2.2 hsh.child_ne (NibblePath.consume_WF hp hpre.length_le) hs.2
          rw [NibblePath.consume_nibs, List.length_drop] at this
          have h0 : 0 < np.nibs.length := List.length_pos_iff.2 hsh.1
          have h1 := hpre.length_le
          rw [hpn] at this h1
          exact this.mono fun _ => by omega
        · simp only [hpre, decide_false, Bool.false_eq_true, if_false]
          exact Pulls.pure _ _
      | branch cs w =>
        cases n <;> simp only [Rep] at hrep
        rename_i bs d
        obtain ⟨rfl, rfl⟩ := hrep
        simp only
        obtain ⟨hw, hc⟩ := nibs_cons_consume hp hpn
        refine Pulls.step (NibblePath.at_zero hpn) (Pulls.step (refs_get E cs i) ?_)
        split
        · rename_i hemp
          have hne' : cs i ≠ empty := by
            intro h; rw [h] at hemp; simp [ref] at hemp
          have := ih (hsh i) hne' hw (hs.2 i)
          rw [hc] at this
          exact this.mono fun _ => by simp
        · exact Pulls.pure _ _

open T in
theorem pulls_poi {E : Env} (f : Nat) {c : T} (hsh : c.Shape) (hne : c ≠ .empty) {path : NibblePath} (hp : path.WF)
    (hs : T.Stored E t.store.kv c) (l : List Bytes) :
    Pulls (MPT.poiP f (some (c.ref E)) path l) t fun _ => path.nibs.length + 1 := by
  induction f generalizing c path l with
  | zero => exact Pulls.raise _ _
  | succ f ih =>
    unfold MPT.poiP
    obtain ⟨n, hn, hrep⟩ := getNode_alone hs hne
    refine (Pulls.run hn (getNode_loads _ _) (b := fun _ => path.nibs.length) ?_).mono fun r => by omega
    refine Pulls.step (NibblePath.len_spec hp) ?_
    cases hpn : path.nibs with
    | nil => exact Pulls.next fun _ => Pulls.pure _ _
    | cons i p =>
      rw [if_neg (by simp)]
      cases c with
      | empty => exact absurd rfl hne
      | leaf q w =>
        cases n <;> simp only [Rep] at hrep
        simp only
        refine Pulls.next fun same => ?_
        split
        · exact Pulls.next fun _ => Pulls.pure _ _
        · exact Pulls.raise _ _
      | ext q c =>
        cases n <;> simp only [Rep] at hrep
        rename_i np nr
        obtain ⟨hnp, rfl, rfl⟩ := hrep
        simp only
        refine Pulls.step (NibblePath.startsWith_spec hp hnp) ?_
        by_cases hpre : np.nibs <+: path.nibs
        · simp only [hpre, decide_true, if_true]
          refine Pulls.step (NibblePath.len_spec hnp) (Pulls.next fun enc => ?_)
          have := ih hsh.2.2 hsh.child_ne (NibblePath.consume_WF hp hpre.length_le) hs.2 (l ++ [enc])
          rw [NibblePath.consume_nibs, List.length_drop] at this
          have h0 : 0 < np.nibs.length := List.length_pos_iff.2 hsh.1
          have h1 := hpre.length_le
          rw [hpn] at this h1
          exact this.mono fun _ => by omega
        · simp only [hpre, decide_false, Bool.false_eq_true, if_false]
          exact Pulls.raise _ _
      | branch cs w =>
        cases n <;> simp only [Rep] at hrep
        rename_i bs d
        obtain ⟨rfl, rfl⟩ := hrep
        simp only
        obtain ⟨hw, hc⟩ := nibs_cons_consume hp hpn
        refine Pulls.step (NibblePath.at_zero hpn) (Pulls.step (refs_get E cs i) ?_)
        split
        · rename_i hemp
          have hne' : cs i ≠ empty := by
            intro h; rw [h] at hemp; simp [ref] at hemp
          refine Pulls.next fun enc => ?_
          have := ih (hsh i) hne' hw (hs.2 i) (l ++ [enc])
          rw [hc] at this
          exact this.mono fun _ => by simp
        · exact Pulls.raise _ _

open T in
theorem pulls_poe {E : Env} (f : Nat) {c : T} (hsh : c.Shape) (hne : c ≠ .empty) {path : NibblePath} (hp : path.WF)
    (hs : T.Stored E t.store.kv c) (l : List Bytes) :
    Pulls (MPT.poeP f (some (c.ref E)) path l) t fun _ => path.nibs.length + 1 := by
  induction f generalizing c path l with
  | zero => exact Pulls.raise _ _
  | succ f ih =>
    unfold MPT.poeP
    obtain ⟨n, hn, hrep⟩ := getNode_alone hs hne
    refine (Pulls.run hn (getNode_loads _ _) (b := fun _ => path.nibs.length) ?_).mono fun r => by omega
    refine Pulls.step (NibblePath.len_spec hp) ?_
    cases hpn : path.nibs with
    | nil => exact Pulls.next fun _ => Pulls.pure _ _
    | cons i p =>
      rw [if_neg (by simp)]
      cases c with
      | empty => exact absurd rfl hne
      | leaf q w =>
        cases n <;> simp only [Rep] at hrep
        exact Pulls.next fun _ => Pulls.pure _ _
      | ext q c =>
        cases n <;> simp only [Rep] at hrep
        rename_i np nr
        obtain ⟨hnp, rfl, rfl⟩ := hrep
        simp only
        refine Pulls.step (NibblePath.startsWith_spec hp hnp) ?_
        by_cases hpre : np.nibs <+: path.nibs
        · simp only [hpre, decide_true, if_true]
          refine Pulls.step (NibblePath.len_spec hnp) (Pulls.next fun enc => ?_)
          have := ih hsh.2.2 hsh.child_ne (NibblePath.consume_WF hp hpre.length_le) hs.2 (l ++ [enc])
          rw [NibblePath.consume_nibs, List.length_drop] at this
          have h0 : 0 < np.nibs.length := List.length_pos_iff.2 hsh.1
          have h1 := hpre.length_le
          rw [hpn] at this h1
          exact this.mono fun _ => by omega
        · simp only [hpre, decide_false, Bool.false_eq_true, if_false]
          exact Pulls.pure _ _
      | branch cs w =>
        cases n <;> simp only [Rep] at hrep
        rename_i bs d
        obtain ⟨rfl, rfl⟩ := hrep
        simp only
        obtain ⟨hw, hc⟩ := nibs_cons_consume hp hpn
        refine Pulls.step (NibblePath.at_zero hpn) (Pulls.step (refs_get E cs i) (Pulls.next fun enc => ?_))
        split
        · rename_i hemp
          have hne' : cs i ≠ empty := by
            intro h; rw [h] at hemp; simp [ref] at hemp
          have := ih (hsh i) hne' hw (hs.2 i) (l ++ [enc])
          rw [hc] at this
          exact this.mono fun _ => by simp
        · exact Pulls.pure _ _

open T in
theorem pulls_update {E : Env} (f : Nat) {c : T} (hsh : c.Shape) {path : NibblePath} (hp : path.WF)
    (hs : T.Stored E t.store.kv c) (v : Bytes) :
    Pulls (MPT.updateP E f (c.ref E) path v) t fun _ => path.nibs.length + 1 := by
  induction f generalizing c path with
  | zero => exact Pulls.raise _ _
  | succ f ih =>
    unfold MPT.updateP
    split
    · exact (Idle.storeNode _ _).pulls _ _
    rename_i hne
    have hne : c ≠ empty := by rintro rfl; exact hne (.inl rfl)
    obtain ⟨n, hn, hrep⟩ := getNode_alone hs hne
    refine (Pulls.run hn (getNode_loads _ _) (b := fun _ => path.nibs.length) ?_).mono fun r => by omega
    cases c with
    | empty => exact absurd rfl hne
    | leaf q w =>
      cases n <;> simp only [Rep] at hrep
      rename_i np d
      simp only
      refine Pulls.next fun same => ?_
      split
      · exact (Idle.storeNode _ _).pulls _ _
      · refine Pulls.next fun cp => Pulls.next fun m => ?_
        refine ((Idle.createBranchNode E _ _ _ _).bind fun _ => ?_).pulls _ _
        split
        · exact Idle.storeNode _ _
        · exact Idle.pure _
    | ext q c =>
      cases n <;> simp only [Rep] at hrep
      rename_i np nr
      obtain ⟨hnp, rfl, rfl⟩ := hrep
      simp only
      refine Pulls.step (NibblePath.startsWith_spec hp hnp) ?_
      by_cases hpre : np.nibs <+: path.nibs
      · simp only [hpre, decide_true, if_true]
        refine Pulls.step (NibblePath.len_spec hnp) ?_
        have := ih hsh.2.2 (NibblePath.consume_WF hp hpre.length_le) hs.2
        rw [NibblePath.consume_nibs, List.length_drop] at this
        have h0 : 0 < np.nibs.length := List.length_pos_iff.2 hsh.1
        have h1 := hpre.length_le
        exact (this.both (b := 0) fun _ _ => (Idle.storeNode _ _).pulls _ _).mono fun _ => by omega
      · simp only [hpre, decide_false, Bool.false_eq_true, if_false]
        refine Pulls.next fun cp => Pulls.next fun m => Pulls.next fun k => ?_
        refine ((Idle.createBranchLeaf E _ _ _).bind fun _ => (Idle.createBranchExtension E _ _ _).bind fun _ =>
          (Idle.storeNode E _).bind fun _ => ?_).pulls _ _
        split
        · exact Idle.storeNode _ _
        · exact Idle.pure _
    | branch cs w =>
      cases n <;> simp only [Rep] at hrep
      rename_i bs d
      obtain ⟨rfl, rfl⟩ := hrep
      simp only
      refine Pulls.step (NibblePath.len_spec hp) ?_
      cases hpn : path.nibs with
      | nil => exact (Idle.storeNode _ _).pulls _ _
      | cons i p =>
        obtain ⟨hw, hc⟩ := nibs_cons_consume hp hpn
        rw [if_neg (by simp)]
        refine Pulls.step (NibblePath.at_zero hpn) (Pulls.step (refs_get E cs i) ?_)
        have := ih (hsh i) hw (hs.2 i)
        rw [hc] at this
        exact (this.both (b := 0) fun _ _ =>
          ((Idle.lift _).bind fun _ => Idle.storeNode _ _).pulls _ _).mono fun _ => by simp

/-- What a deletion reads, by its outcome. -/
def delReads (n : Nat) : Py MPT.DeleteAction → Nat
  | .ok .deleted => n + 1
  | .ok (.useless _ _) => n + 2
  | _ => n + 3

theorem idle_store1 (E : Env) (n : Node) (g : Bytes → MPT.DeleteAction) :
    Idle (MPT.storeNodeP E n >>= fun r => (Pure.pure (g r) : Prog _)) :=
  (Idle.storeNode E n).bind fun _ => Idle.pure _

theorem pulls_afterDeleted (E : Env) (bs : List Bytes) (d : Bytes) (t : MPT) :
    Pulls (MPT.afterDeletedP E bs d) t fun r => match r with
      | .ok .deleted => 0
      | _ => 1 := by
  unfold MPT.afterDeletedP
  simp only
  split
  · exact Pulls.pure _ _
  · split
    · exact (idle_store1 E _ _).pulls _ _
    · split
      · unfold MPT.buildFromLastBranchP
        simp only
        refine Pulls.next fun r => Pulls.bind (a := fun _ => 1) (pulls_node _ _) (fun _ => Nat.le_refl _) fun n t' => ?_
        have key : ∀ (m : Prog MPT.DeleteAction) (t : MPT), Idle m → (∀ a, (m.alone t).1 = .ok a → a ≠ .deleted) →
            1 + (m.loads t).length ≤ match (m.alone t).1 with
              | .ok .deleted => 0
              | _ => 1 := by
          intro m t h1 h2
          rw [h1 t]
          split
          · rename_i e; exact absurd rfl (h2 _ e)
          · simp
        have nd : ∀ (m : Prog Bytes) (g : Bytes → MPT.DeleteAction) (t : MPT), (∀ r, g r ≠ .deleted) →
            ∀ a, ((m >>= fun r => (Pure.pure (g r) : Prog _)).alone t).1 = .ok a → a ≠ .deleted := by
          intro m g t hg a h
          rw [alone_bind] at h
          cases e : m.alone t with
          | mk x t1 =>
            rw [e] at h
            cases x with
            | error _ => simp at h
            | ok x =>
              change Except.ok (g x) = Except.ok a at h
              injection h with h
              rw [← h]; exact hg x
        cases n with
        | leaf p d =>
          simp only
          refine key _ _ ((Idle.lift _).bind fun _ => idle_store1 E _ _) fun a => ?_
          rw [alone_bind]
          simp only [Prog.lift, alone]
          split
          · rename_i e; injection e with e1 e2; intro h; exact nd _ _ _ (fun _ => by simp) a h
          · intro h; simp at h
        | ext p d =>
          simp only
          refine key _ _ ((Idle.lift _).bind fun _ => idle_store1 E _ _) fun a => ?_
          rw [alone_bind]
          simp only [Prog.lift, alone]
          split
          · rename_i e; injection e with e1 e2; intro h; exact nd _ _ _ (fun _ => by simp) a h
          · intro h; simp at h
        | branch p d =>
          simp only
          exact key _ _ (idle_store1 E _ _) (nd _ _ _ fun _ => by simp)
      · exact (idle_store1 E _ _).pulls _ _

theorem alone_updated (m : Prog Bytes) (t : MPT) (a : MPT.DeleteAction)
    (h : ((m >>= fun r => (Pure.pure (.updated r) : Prog _)).alone t).1 = .ok a) : ∃ r, a = .updated r := by
  rw [alone_bind] at h
  cases e : m.alone t with
  | mk x t1 =>
    rw [e] at h
    cases x with
    | error _ => simp at h
    | ok x =>
      change Except.ok (MPT.DeleteAction.updated x) = Except.ok a at h
      injection h with h
      exact ⟨x, h.symm⟩

theorem reads_updated {m n : Nat} {x : Prog MPT.DeleteAction} {t : MPT} (h : m + (x.loads t).length ≤ n + 2)
    (hx : ∀ a, (x.alone t).1 = .ok a → ∃ r, a = .updated r) :
    m + (x.loads t).length ≤ delReads n (x.alone t).1 - 1 := by
  unfold delReads
  split
  · rename_i e; obtain ⟨r, hr⟩ := hx _ e; simp at hr
  · rename_i e; obtain ⟨r, hr⟩ := hx _ e; simp at hr
  · omega

open T in
theorem pulls_delete {E : Env} (f : Nat) {c : T} (hsh : c.Shape) (hne : c ≠ .empty) {path : NibblePath} (hp : path.WF)
    (hs : T.Stored E t.store.kv c) :
    Pulls (MPT.deleteP E f (some (c.ref E)) path) t (delReads path.nibs.length) := by
  induction f generalizing c path with
  | zero => exact Pulls.raise _ _
  | succ f ih =>
    unfold MPT.deleteP
    obtain ⟨n, hn, hrep⟩ := getNode_alone hs hne
    have le1 : ∀ (m : Nat) (r : Py MPT.DeleteAction), 1 + (delReads m r - 1) ≤ delReads m r := by
      intro m r
      have : 1 ≤ delReads m r := by unfold delReads; split <;> omega
      omega
    refine (Pulls.run hn (getNode_loads _ _) (b := fun r => delReads path.nibs.length r - 1) ?_).mono (le1 _)
    cases c with
    | empty => exact absurd rfl hne
    | leaf q w =>
      cases n <;> simp only [Rep] at hrep
      rename_i np d
      refine ((Idle.lift _).bind fun same => ?_).pulls _ _
      split
      · exact Idle.pure _
      · exact Idle.raise _
    | ext q c =>
      cases n <;> simp only [Rep] at hrep
      rename_i np nr
      obtain ⟨hnp, rfl, rfl⟩ := hrep
      simp only
      refine Pulls.step (NibblePath.startsWith_spec hp hnp) ?_
      by_cases hpre : np.nibs <+: path.nibs
      · simp only [hpre, decide_true, not_true, if_false]
        refine Pulls.step (NibblePath.len_spec hnp) ?_
        have := ih hsh.2.2 hsh.child_ne (NibblePath.consume_WF hp hpre.length_le) hs.2
        rw [NibblePath.consume_nibs, List.length_drop] at this
        have h0 : 0 < np.nibs.length := List.length_pos_iff.2 hsh.1
        have h1 := hpre.length_le
        refine Pulls.bind this (fun e => by simp only [delReads]; omega) fun act t' => ?_
        have up : ∀ (m : Nat) (x : Prog MPT.DeleteAction), m + (x.loads t').length ≤ path.nibs.length →
            m + (x.loads t').length ≤ delReads path.nibs.length (x.alone t').1 - 1 := by
          intro m x h
          unfold delReads; split <;> omega
        cases act with
        | deleted =>
          refine up _ _ ?_
          rw [Idle.pure]
          simp only [delReads, List.length_nil]
          omega
        | updated r =>
          refine reads_updated ?_ (alone_updated _ _)
          rw [idle_store1 E _ _]
          simp only [delReads, List.length_nil]
          omega
        | useless p r =>
          refine reads_updated ?_ ?_
          · have : Pulls (MPT.getNodeP (some r) >>= fun child => (match child with
              | .leaf p d => do
                let path ← Prog.lift (np.combine p)
                let newRef ← MPT.storeNodeP E (.leaf path d)
                return .updated newRef
              | .ext p r => do
                let path ← Prog.lift (np.combine p)
                let newRef ← MPT.storeNodeP E (.ext path r)
                return .updated newRef
              | .branch _ _ => do
                let path ← Prog.lift (np.combine p)
                let newRef ← MPT.storeNodeP E (.ext path r)
                return .updated newRef : Prog MPT.DeleteAction)) t' fun _ => 1 + 0 := by
              refine (pulls_node (some r) t').both fun n t'' => ?_
              cases n <;> exact ((Idle.lift _).bind fun _ => idle_store1 E _ _).pulls _ _
            have : (Prog.loads _ t').length ≤ 1 := this
            simp only [delReads]
            refine Nat.le_trans (Nat.add_le_add_left this _) ?_
            omega
          · intro a h
            rw [alone_bind] at h
            cases e : (MPT.getNodeP (some r)).alone t' with
            | mk x t1 =>
              rw [e] at h
              cases x with
              | error _ => simp at h
              | ok x =>
                simp only at h
                cases x <;>
                · simp only at h
                  rw [alone_bind] at h
                  simp only [Prog.lift, alone] at h
                  split at h
                  · exact alone_updated _ _ _ h
                  · simp at h
      · simp only [hpre, decide_false, Bool.false_eq_true, not_false_eq_true, if_true]
        exact Pulls.raise _ _
    | branch cs w =>
      cases n <;> simp only [Rep] at hrep
      rename_i bs d
      obtain ⟨rfl, rfl⟩ := hrep
      simp only
      refine Pulls.step (NibblePath.len_spec hp) ?_
      split
      · exact Pulls.raise _ _
      split
      · exact Pulls.raise _ _
      split
      · refine (pulls_afterDeleted E _ _ t).mono fun r => ?_
        unfold delReads
        split <;> split <;> first | omega | (rename_i h1 h2; simp_all)
      rename_i h1 h2 h3
      cases hpn : path.nibs with
      | nil => rw [hpn] at h1 h2 h3; simp at h1 h2 h3; exact absurd h3 h1
      | cons i p =>
        obtain ⟨hw, hc⟩ := nibs_cons_consume hp hpn
        refine Pulls.step (NibblePath.at_zero hpn) (Pulls.step (refs_get E cs i) ?_)
        split
        · exact Pulls.raise _ _
        · rename_i hemp
          have hne' : cs i ≠ empty := by
            intro h; rw [h] at hemp; simp [ref] at hemp
          have := ih (hsh i) hne' hw (hs.2 i)
          rw [hc] at this
          refine Pulls.bind this (fun e => by simp only [delReads, List.length_cons]; omega) fun act t' => ?_
          cases act with
          | deleted =>
            have h4 : Pulls (Prog.lift (pySet (refs E cs) i.val []) >>= fun branches => MPT.afterDeletedP E branches d) t' _ :=
              Pulls.next fun bs => pulls_afterDeleted E bs d t'
            refine Nat.le_trans (Nat.add_le_add_left h4 _) ?_
            simp only [delReads, List.length_cons]
            split <;> split <;> first | omega | simp_all
          | updated r =>
            refine reads_updated ?_ fun a h => ?_
            · rw [(Idle.lift _).bind fun _ => idle_store1 E _ _]
              simp only [delReads, List.length_nil, List.length_cons]; omega
            · rw [alone_bind] at h
              simp only [Prog.lift, alone] at h
              split at h
              · exact alone_updated _ _ _ h
              · simp at h
          | useless q r =>
            refine reads_updated ?_ fun a h => ?_
            · rw [(Idle.lift _).bind fun _ => idle_store1 E _ _]
              simp only [delReads, List.length_nil, List.length_cons]; omega
            · rw [alone_bind] at h
              simp only [Prog.lift, alone] at h
              split at h
              · exact alone_updated _ _ _ h
              · simp at h

/-! ### Calls -/

theorem node_empty {E : Env} {a : T} (h : T.Holds E t a) (hl : LogOk E t.store.written) :
    ∃ e, (MPT.getNodeP (some (emptyHash E))).alone t = (.error e, t) := by
  have hr : (MPT.getNodeP (some (emptyHash E))).alone t = (MPT.getNode t.store.kv (emptyHash E), t) :=
    Reads.getNode (t := t) (emptyHash E)
  have h32 : (emptyHash E).length = 32 := E.keccak_len _
  rw [hr]
  cases hd : dget t.store.kv (emptyHash E) with
  | none => exact ⟨.keyError, by simp [MPT.getNode, h32, dgetItem, hd]⟩
  | some v =>
    obtain ⟨h2, h3⟩ := h.good _ _ hd
    have : v = Item.encode (.str []) :=
      (hl.coll _ List.mem_cons_self _ (List.mem_cons_of_mem _ h3) h2).symm
    subst this
    have hdec : Node.decode (Item.encode (.str [])) = .error .assertion := by decide
    exact ⟨.assertion, by simp [MPT.getNode, h32, dgetItem, hd, hdec]⟩

theorem Pulls.after {p : Prog α} {f : α → Prog β} {x : α} {n : Nat} (h : p.alone t = (.ok x, t)) (hi : Idle p)
    (hf : Pulls (f x) t fun _ => n) : Pulls (p >>= f) t fun _ => n :=
  (Pulls.run h (n := 0) (by rw [hi]; simp) hf).mono fun _ => by omega

theorem root_alone (t : MPT) : Prog.getRoot.alone t = (.ok t.root, t) := rfl

theorem nibs_key (E : Env) (t : MPT) (k : Bytes) :
    (NibblePath.nibs ⟨t.keyOf E k, 0⟩).length = 2 * (t.keyOf E k).length := by
  rw [NibblePath.nibs_bytes, toNibs_length, Nat.mul_comm]

theorem pulls_getCall {E : Env} {a : T} (h : T.Holds E t a) (hl : LogOk E t.store.written) (k : Bytes) :
    Pulls (MPT.getCallP E (t.keyOf E k)) t fun _ => 2 * (t.keyOf E k).length + 1 := by
  unfold MPT.getCallP
  refine .after (root_alone t) .root ?_
  split
  · exact Pulls.raise _ _
  refine .after (root_alone t) .root ?_
  have hd : ∀ n, Idle (MPT.dataP n) := by
    intro n; cases n
    · exact Idle.lift _
    · exact Idle.raise _
    · exact Idle.lift _
  refine Pulls.both (b := 0) (a := 2 * (t.keyOf E k).length + 1) ?_ fun n t' => (hd n).pulls _ _
  rcases h.root with ⟨rfl, h1 | h1⟩ | ⟨h1, h2⟩
  · rename_i hno; rw [h1] at hno; simp at hno
  · rw [h1]
    cases E.limit with
    | zero => exact Pulls.raise _ _
    | succ f =>
      obtain ⟨e, he⟩ := node_empty h hl
      exact Pulls.fail he (Nat.le_trans (getNode_loads _ _) (by omega))
  · rw [h2, ← nibs_key E t k]
    exact pulls_get E.limit h.shape h1 (NibblePath.WF_bytes _) h.stored

theorem pulls_containsCall {E : Env} {a : T} (h : T.Holds E t a) (k : Bytes) :
    Pulls (MPT.containsCallP E (t.keyOf E k)) t fun _ => 2 * (t.keyOf E k).length + 1 := by
  unfold MPT.containsCallP
  refine .after (root_alone t) .root ?_
  split
  · exact Pulls.pure _ _
  refine .after (root_alone t) .root ?_
  have hd : ∀ n, Idle (MPT.hasP n) := by
    rintro ⟨n, q⟩
    cases n with
    | none => exact Idle.lift _
    | some n => cases n <;> exact Idle.lift _
  refine Pulls.both (b := 0) (a := 2 * (t.keyOf E k).length + 1) ?_ fun n t' => (hd n).pulls _ _
  rcases h.root with ⟨rfl, h1 | h1⟩ | ⟨h1, h2⟩
  · rename_i hno; rw [h1] at hno; simp at hno
  · rw [h1]
    cases E.limit with
    | zero => exact Pulls.raise _ _
    | succ f =>
      unfold MPT.containsP
      refine .after (Reads.noRoot E) (.noRoot E) ?_
      rw [if_pos (by simp [MPT.noRoot, h1])]
      exact Pulls.pure _ _
  · rw [h2, ← nibs_key E t k]
    exact pulls_contains E.limit h.shape h1 (NibblePath.WF_bytes _) h.stored

theorem pulls_updateCall {E : Env} {a : T} (h : T.Holds E t a) (k v : Bytes) :
    Pulls (MPT.updateCallP E (t.keyOf E k) v) t fun _ => 2 * (t.keyOf E k).length + 1 := by
  unfold MPT.updateCallP
  refine .after (root_alone t) .root ?_
  refine Pulls.both (b := 0) (a := 2 * (t.keyOf E k).length + 1) ?_ fun n t' => Nat.le_refl _
  rcases h.root with ⟨rfl, h1 | h1⟩ | ⟨h1, h2⟩
  · rw [h1, ← nibs_key E t k]
    exact pulls_update (c := .empty) _ trivial (NibblePath.WF_bytes _) trivial _
  · rw [h1]
    cases E.limit with
    | zero => exact Pulls.raise _ _
    | succ f =>
      unfold MPT.updateP
      simp only [Option.getD_some, or_true, if_true]
      exact (Idle.storeNode _ _).pulls _ _
  · rw [h2, ← nibs_key E t k]
    exact pulls_update _ h.shape (NibblePath.WF_bytes _) h.stored _

theorem pulls_deleteCall {E : Env} {a : T} (h : T.Holds E t a) (k : Bytes) :
    Pulls (MPT.deleteCallP E (t.keyOf E k)) t fun _ => 2 * (t.keyOf E k).length + 3 := by
  unfold MPT.deleteCallP
  refine .after (Reads.noRoot E) (.noRoot E) ?_
  split
  · exact Pulls.raise _ _
  rename_i hno
  refine .after (root_alone t) .root ?_
  have hd : ∀ n, Idle (MPT.finishP n) := by intro n; cases n <;> exact fun _ => rfl
  refine Pulls.both (b := 0) (a := 2 * (t.keyOf E k).length + 3) ?_ fun n t' => (hd n).pulls _ _
  rcases h.root with ⟨rfl, h1 | h1⟩ | ⟨h1, h2⟩
  · exact absurd (by simp [MPT.noRoot, h1]) hno
  · exact absurd (by simp [MPT.noRoot, h1]) hno
  · rw [h2, ← nibs_key E t k]
    refine (pulls_delete E.limit h.shape h1 (NibblePath.WF_bytes _) h.stored).mono fun r => ?_
    unfold delReads
    split <;> omega

theorem pulls_poiCall {E : Env} {a : T} (h : T.Holds E t a) (now k : Bytes) :
    Pulls (MPT.getPoiCallP E now (t.keyOf E k)) t fun _ => 2 * (t.keyOf E k).length + 1 := by
  unfold MPT.getPoiCallP
  refine .after (Reads.noRoot E) (.noRoot E) ?_
  split
  · exact Pulls.raise _ _
  rename_i hno
  refine .after (root_alone t) .root ?_
  refine Pulls.both (b := 0) (a := 2 * (t.keyOf E k).length + 1) ?_ fun n t' => (Idle.root.bind fun r => ?_).pulls _ _
  · rcases h.root with ⟨rfl, h1 | h1⟩ | ⟨h1, h2⟩
    · exact absurd (by simp [MPT.noRoot, h1]) hno
    · exact absurd (by simp [MPT.noRoot, h1]) hno
    · rw [h2, ← nibs_key E t k]
      exact pulls_poi E.limit h.shape h1 (NibblePath.WF_bytes _) h.stored _
  · cases r
    · exact Idle.raise _
    · exact Idle.pure _

theorem pulls_poeCall {E : Env} {a : T} (h : T.Holds E t a) (now k : Bytes) :
    Pulls (MPT.getPoeCallP E now (t.keyOf E k)) t fun _ => 4 * (t.keyOf E k).length + 2 := by
  unfold MPT.getPoeCallP
  refine .after (Reads.noRoot E) (.noRoot E) ?_
  split
  · exact Pulls.raise _ _
  rename_i hno
  have hc : (MPT.containsCallP E (t.keyOf E k)).alone t = (t.contains E k, t) := Reads.containsCall E k
  have hb : ((MPT.containsCallP E (t.keyOf E k)).loads t).length ≤ 2 * (t.keyOf E k).length + 1 :=
    pulls_containsCall h (E := E) k
  cases hcr : t.contains E k with
  | error e =>
    rw [hcr] at hc
    exact Pulls.fail hc (Nat.le_trans hb (by omega))
  | ok present =>
    rw [hcr] at hc
    refine (Pulls.run hc hb (b := fun _ => 2 * (t.keyOf E k).length + 1) ?_).mono fun _ => by omega
    split
    · exact Pulls.raise _ _
    refine .after (root_alone t) .root ?_
    refine Pulls.both (b := 0) (a := 2 * (t.keyOf E k).length + 1) ?_ fun n t' => ?_
    · rcases h.root with ⟨rfl, h1 | h1⟩ | ⟨h1, h2⟩
      · exact absurd (by simp [MPT.noRoot, h1]) hno
      · exact absurd (by simp [MPT.noRoot, h1]) hno
      · rw [h2, ← nibs_key E t k]
        exact pulls_poe E.limit h.shape h1 (NibblePath.WF_bytes _) h.stored _
    · refine ((Idle.lift _).bind fun x => (Idle.lift _).bind fun y => (Idle.rootHash E).bind fun z => ?_).pulls _ _
      cases z
      · exact Idle.raise _
      · exact Idle.pure _

theorem Roots.idle {p : Prog α} (h : Roots p) : Idle p := by
  intro t
  induction p generalizing t with
  | done r => rfl
  | load k n ih => exact h.elim
  | save k v n ih => exact h.elim
  | root n ih => exact ih _ (h _) t
  | setRoot r n ih => exact h.elim

end Prog
end Pymt
