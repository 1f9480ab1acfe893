import Verif.Lemmas.Threads
import Verif.Lemmas.History

/-!
# Programs between the steps of other threads
-/

namespace Pymt
namespace Prog

/-- Only nodes of 32 bytes and more are saved, under their hash; the root is neither read nor set. -/
def Inner (E : Env) {α : Type} : Prog α → Prop
  | .done _ => True
  | .load _ n => ∀ v, Inner E (n v)
  | .save k v n => k = E.keccak v ∧ 32 ≤ v.length ∧ Inner E n
  | .root _ => False
  | .setRoot _ _ => False

/-- The root may be read, and setting it is the last thing done. -/
def Plain (E : Env) {α : Type} : Prog α → Prop
  | .done _ => True
  | .load _ n => ∀ v, Plain E (n v)
  | .save k v n => k = E.keccak v ∧ 32 ≤ v.length ∧ Plain E n
  | .root n => ∀ r, Plain E (n r)
  | .setRoot _ n => ∃ x, n = .done x

/-- Nothing is changed. -/
def Quiet {α : Type} : Prog α → Prop
  | .done _ => True
  | .load _ n => ∀ v, Quiet (n v)
  | .save _ _ _ => False
  | .root n => ∀ r, Quiet (n r)
  | .setRoot _ _ => False

section
variable {E : Env} {α β : Type}

theorem Inner.plain {p : Prog α} (h : Inner E p) : Plain E p := by
  induction p with
  | done r => trivial
  | load k n ih => exact fun v => ih v (h v)
  | save k v n ih => exact ⟨h.1, h.2.1, ih h.2.2⟩
  | root n ih => exact h.elim
  | setRoot r n ih => exact h.elim

theorem Quiet.plain {p : Prog α} (h : Quiet p) : Plain E p := by
  induction p with
  | done r => trivial
  | load k n ih => exact fun v => ih v (h v)
  | save k v n ih => exact h.elim
  | root n ih => exact fun r => ih r (h r)
  | setRoot r n ih => exact h.elim

theorem Quiet.bindPlain {p : Prog α} {f : α → Prog β} (h : Quiet p) (hf : ∀ a, Plain E (f a)) :
    Plain E (p >>= f) := by
  show Plain E (p.bind f)
  induction p with
  | done r => cases r with
    | ok a => exact hf a
    | error e => trivial
  | load k n ih => exact fun v => ih v (h v)
  | save k v n ih => exact h.elim
  | root n ih => exact fun r => ih r (h r)
  | setRoot r n ih => exact h.elim

theorem Inner.bind {p : Prog α} {f : α → Prog β} (h : Inner E p) (hf : ∀ a, Inner E (f a)) : Inner E (p >>= f) := by
  show Inner E (p.bind f)
  induction p with
  | done r => cases r with
    | ok a => exact hf a
    | error e => trivial
  | load k n ih => exact fun v => ih v (h v)
  | save k v n ih => exact ⟨h.1, h.2.1, ih h.2.2⟩
  | root n ih => exact h.elim
  | setRoot r n ih => exact h.elim

theorem Inner.bindPlain {p : Prog α} {f : α → Prog β} (h : Inner E p) (hf : ∀ a, Plain E (f a)) :
    Plain E (p >>= f) := by
  show Plain E (p.bind f)
  induction p with
  | done r => cases r with
    | ok a => exact hf a
    | error e => trivial
  | load k n ih => exact fun v => ih v (h v)
  | save k v n ih => exact ⟨h.1, h.2.1, ih h.2.2⟩
  | root n ih => exact h.elim
  | setRoot r n ih => exact h.elim

theorem Plain.map {p : Prog α} {g : α → Py β} (h : Plain E p) : Plain E (p >>= fun a => Prog.done (g a)) := by
  show Plain E (p.bind _)
  induction p with
  | done r => cases r with
    | ok a => trivial
    | error e => trivial
  | load k n ih => exact fun v => ih v (h v)
  | save k v n ih => exact ⟨h.1, h.2.1, ih h.2.2⟩
  | root n ih => exact fun r => ih r (h r)
  | setRoot r n ih =>
    obtain ⟨x, rfl⟩ := h
    cases x with
    | ok a => exact ⟨_, rfl⟩
    | error e => exact ⟨_, rfl⟩

theorem Quiet.bind {p : Prog α} {f : α → Prog β} (h : Quiet p) (hf : ∀ a, Quiet (f a)) : Quiet (p >>= f) := by
  show Quiet (p.bind f)
  induction p with
  | done r => cases r with
    | ok a => exact hf a
    | error e => trivial
  | load k n ih => exact fun v => ih v (h v)
  | save k v n ih => exact h.elim
  | root n ih => exact fun r => ih r (h r)
  | setRoot r n ih => exact h.elim

theorem Inner.lift (m : Py α) : Inner E (Prog.lift m) := trivial
theorem Inner.raise (e : Err) : Inner E (Prog.raise e : Prog α) := trivial
theorem Inner.pure (a : α) : Inner E (Pure.pure a : Prog α) := trivial
theorem Quiet.lift (m : Py α) : Quiet (Prog.lift m) := trivial
theorem Quiet.raise (e : Err) : Quiet (Prog.raise e : Prog α) := trivial
theorem Quiet.pure (a : α) : Quiet (Pure.pure a : Prog α) := trivial
theorem Quiet.getRoot : Quiet Prog.getRoot := fun _ => trivial

theorem Quiet.getNode (ref : Option Bytes) : Quiet (MPT.getNodeP ref) := by
  cases ref with
  | none => exact Quiet.raise _
  | some ref =>
    refine Quiet.bind (p := MPT.rawP ref) ?_ fun raw => Quiet.lift _
    unfold MPT.rawP
    split
    · exact fun _ => trivial
    · exact Quiet.lift _

theorem Quiet.get (f : Nat) (ref : Option Bytes) (path : NibblePath) : Quiet (MPT.getP f ref path) := by
  induction f generalizing ref path with
  | zero => exact raise _
  | succ f ih =>
    unfold MPT.getP
    refine (getNode _).bind fun node => (lift _).bind fun n => ?_
    split
    · exact pure _
    · cases node with
      | leaf p d =>
        refine (lift _).bind fun same => ?_
        split
        · exact pure _
        · exact raise _
      | ext p r =>
        refine (lift _).bind fun pre => ?_
        split
        · exact (lift _).bind fun m => ih _ _
        · exact raise _
      | branch bs d =>
        refine (lift _).bind fun i => (lift _).bind fun b => ?_
        split
        · exact ih _ _
        · exact raise _

theorem Quiet.noRoot (E : Env) : Quiet (MPT.noRootP E) := by
  unfold MPT.noRootP
  refine getRoot.bind fun r => ?_
  split
  · exact pure _
  · exact getRoot.bind fun r => pure _

theorem Quiet.contains (E : Env) (f : Nat) (ref : Option Bytes) (path : NibblePath) :
    Quiet (MPT.containsP E f ref path) := by
  induction f generalizing ref path with
  | zero => exact raise _
  | succ f ih =>
    unfold MPT.containsP
    refine (noRoot E).bind fun no => ?_
    split
    · exact pure _
    refine (getNode _).bind fun node => (lift _).bind fun n => ?_
    split
    · exact pure _
    · cases node with
      | leaf p d => exact pure _
      | ext p r =>
        refine (lift _).bind fun pre => ?_
        split
        · exact (lift _).bind fun m => ih _ _
        · exact pure _
      | branch bs d =>
        refine (lift _).bind fun i => (lift _).bind fun b => ?_
        split
        · exact ih _ _
        · exact pure _

theorem Quiet.data (n : Node) : Quiet (MPT.dataP n) := by cases n <;> trivial

theorem Quiet.has (x : Option Node × NibblePath) : Quiet (MPT.hasP x) := by
  obtain ⟨n, p⟩ := x
  cases n with
  | none => trivial
  | some n => cases n <;> trivial

theorem Quiet.getCall (E : Env) (k : Bytes) : Quiet (MPT.getCallP E k) := by
  unfold MPT.getCallP
  refine getRoot.bind fun r => ?_
  split
  · exact raise _
  · exact getRoot.bind fun r => (get _ _ _).bind fun n => data n

theorem Quiet.containsCall (E : Env) (k : Bytes) : Quiet (MPT.containsCallP E k) := by
  unfold MPT.containsCallP
  refine getRoot.bind fun r => ?_
  split
  · exact pure _
  · exact getRoot.bind fun r => (contains E _ _ _).bind fun n => has n

theorem Inner.storeNode (n : Node) : Inner E (MPT.storeNodeP E n) := by
  unfold MPT.storeNodeP Node.intoReference
  cases h : n.encode with
  | error e => exact lift _
  | ok enc =>
    by_cases hl : enc.length < 32
    · have hne : enc.length ≠ 32 := by omega
      have e : (Prog.lift (α := Bytes) (do
          let encoded ← Except.ok enc
          if encoded.length < 32 then return encoded else return E.keccak encoded)) = .done (.ok enc) := by
        simp only [Except.bind_ok', hl, if_true, Except.pure_ok']; rfl
      rw [e]
      show Inner E (if enc.length = 32 then _ else _)
      rw [if_neg hne]
      exact pure _
    · have e : (Prog.lift (α := Bytes) (do
          let encoded ← Except.ok enc
          if encoded.length < 32 then return encoded else return E.keccak encoded)) = .done (.ok (E.keccak enc)) := by
        simp only [Except.bind_ok', hl, if_false, Except.pure_ok']; rfl
      rw [e]
      show Inner E (if (E.keccak enc).length = 32 then _ else _)
      split
      · exact ⟨rfl, by omega, trivial⟩
      · exact pure _

theorem Inner.getNode (ref : Option Bytes) : Inner E (MPT.getNodeP ref) := by
  cases ref with
  | none => exact raise _
  | some ref =>
    refine Inner.bind (p := MPT.rawP ref) ?_ fun raw => lift _
    unfold MPT.rawP
    split
    · exact fun _ => trivial
    · exact lift _

theorem Inner.createBranchLeaf (path : NibblePath) (v : Bytes) (bs : List Bytes) :
    Inner E (MPT.createBranchLeafP E path v bs) := by
  unfold MPT.createBranchLeafP
  refine (lift _).bind fun n => ?_
  split
  · exact (lift _).bind fun _ => (storeNode _).bind fun _ => lift _
  · exact pure _

theorem Inner.createBranchExtension (path : NibblePath) (r : Bytes) (bs : List Bytes) :
    Inner E (MPT.createBranchExtensionP E path r bs) := by
  unfold MPT.createBranchExtensionP
  refine (lift _).bind fun n => ?_
  split
  · exact raise _
  · split
    · exact (lift _).bind fun _ => lift _
    · exact (lift _).bind fun _ => (storeNode _).bind fun _ => lift _

theorem Inner.createBranchNode (pa : NibblePath) (va : Bytes) (pb : NibblePath) (vb : Bytes) :
    Inner E (MPT.createBranchNodeP E pa va pb vb) := by
  unfold MPT.createBranchNodeP
  refine (lift _).bind fun a => (lift _).bind fun b => ?_
  split
  · exact raise _
  · exact (createBranchLeaf _ _ _).bind fun _ => (createBranchLeaf _ _ _).bind fun _ => storeNode _

theorem Inner.update (f : Nat) (ref : Bytes) (path : NibblePath) (v : Bytes) :
    Inner E (MPT.updateP E f ref path v) := by
  induction f generalizing ref path with
  | zero => exact raise _
  | succ f ih =>
    unfold MPT.updateP
    split
    · exact storeNode _
    refine (getNode _).bind fun node => ?_
    cases node with
    | leaf np nd =>
      refine (lift _).bind fun same => ?_
      split
      · exact storeNode _
      · refine (lift _).bind fun c => (lift _).bind fun n => (createBranchNode _ _ _ _).bind fun r => ?_
        split
        · exact storeNode _
        · exact pure _
    | ext np nr =>
      refine (lift _).bind fun pre => ?_
      split
      · exact (lift _).bind fun _ => (ih _ _).bind fun _ => storeNode _
      · refine (lift _).bind fun c => (lift _).bind fun n => (lift _).bind fun m =>
          (createBranchLeaf _ _ _).bind fun _ => (createBranchExtension _ _ _).bind fun _ =>
          (storeNode _).bind fun r => ?_
        split
        · exact storeNode _
        · exact pure _
    | branch bs d =>
      refine (lift _).bind fun n => ?_
      split
      · exact storeNode _
      · exact (lift _).bind fun _ => (lift _).bind fun _ => (ih _ _).bind fun _ =>
          (lift _).bind fun _ => storeNode _

theorem Inner.buildFromLastBranch (bs : List Bytes) : Inner E (MPT.buildFromLastBranchP E bs) := by
  unfold MPT.buildFromLastBranchP
  refine (lift _).bind fun r => (getNode _).bind fun n => ?_
  cases n with
  | leaf p d => exact (lift _).bind fun _ => (storeNode _).bind fun _ => pure _
  | ext p r => exact (lift _).bind fun _ => (storeNode _).bind fun _ => pure _
  | branch b d => exact (storeNode _).bind fun _ => pure _

theorem Inner.afterDeleted (bs : List Bytes) (d : Bytes) : Inner E (MPT.afterDeletedP E bs d) := by
  unfold MPT.afterDeletedP
  simp only
  split
  · exact pure _
  · split
    · exact (storeNode _).bind fun _ => pure _
    · split
      · exact buildFromLastBranch _
      · exact (storeNode _).bind fun _ => pure _

theorem Inner.delete (f : Nat) (ref : Option Bytes) (path : NibblePath) : Inner E (MPT.deleteP E f ref path) := by
  induction f generalizing ref path with
  | zero => exact raise _
  | succ f ih =>
    unfold MPT.deleteP
    refine (getNode _).bind fun node => ?_
    cases node with
    | leaf np nd =>
      refine (lift _).bind fun same => ?_
      split
      · exact pure _
      · exact raise _
    | ext np nr =>
      refine (lift _).bind fun pre => ?_
      split
      · exact raise _
      · refine (lift _).bind fun m => (ih _ _).bind fun act => ?_
        cases act with
        | deleted => exact pure _
        | updated r => exact (storeNode _).bind fun _ => pure _
        | useless sp sr =>
          refine (getNode _).bind fun n => ?_
          cases n <;> exact (lift _).bind fun _ => (storeNode _).bind fun _ => pure _
    | branch bs d =>
      refine (lift _).bind fun n => ?_
      split
      · exact raise _
      · split
        · exact raise _
        · split
          · exact afterDeleted _ _
          · refine (lift _).bind fun i => (lift _).bind fun c => ?_
            split
            · exact raise _
            · refine (ih _ _).bind fun act => ?_
              cases act with
              | deleted => exact (lift _).bind fun _ => afterDeleted _ _
              | updated r => exact (lift _).bind fun _ => (storeNode _).bind fun _ => pure _
              | useless p r => exact (lift _).bind fun _ => (storeNode _).bind fun _ => pure _

theorem Plain.updateCall (k v : Bytes) : Plain E (MPT.updateCallP E k v) := by
  unfold MPT.updateCallP
  exact Quiet.getRoot.bindPlain fun r => (Inner.update _ _ _ _).bindPlain fun x => ⟨_, rfl⟩

theorem Plain.deleteCall (k : Bytes) : Plain E (MPT.deleteCallP E k) := by
  unfold MPT.deleteCallP
  refine (Quiet.noRoot E).bindPlain fun no => ?_
  split
  · exact (Inner.raise _).plain
  · refine Quiet.getRoot.bindPlain fun r => (Inner.delete _ _ _).bindPlain fun x => ?_
    cases x <;> exact ⟨_, rfl⟩

end

theorem plain_call (E : Env) (secure : Bool) (c : Call) : Plain E (c.prog E secure) := by
  cases c with
  | update k v => exact (Plain.updateCall _ _).map
  | delete k => exact (Plain.deleteCall _).map
  | get k => exact ((Quiet.getCall E _).bind fun _ => Quiet.pure _).plain
  | contains k => exact ((Quiet.containsCall E _).bind fun _ => Quiet.pure _).plain

theorem quiet_call {E : Env} {secure : Bool} {c : Call} (h : c.op? = none) : Quiet (c.prog E secure) := by
  cases c with
  | update k v => exact (nomatch h)
  | delete k => exact (nomatch h)
  | get k => exact (Quiet.getCall E _).bind fun _ => Quiet.pure _
  | contains k => exact (Quiet.containsCall E _).bind fun _ => Quiet.pure _

end Prog
end Pymt
