import Verif.Spec.Threads
import Verif.Lemmas.Mpt

/-!
# Programs of calls, run alone, do what the calls do
-/

namespace Pymt
namespace Prog

/-- Run a program on an object that nobody else uses. -/
def alone {α : Type} : Prog α → MPT → Py α × MPT
  | .done r, t => (r, t)
  | .load k n, t =>
    match dget t.store.kv k with
    | some v => (n v).alone t
    | none => (.error .keyError, t)
  | .save k v n, t => n.alone { t with store := t.store.set k v }
  | .root n, t => (n t.root).alone t
  | .setRoot r n, t => n.alone { t with root := r }

theorem alone_bind {α β : Type} (p : Prog α) (f : α → Prog β) (t : MPT) :
    (p >>= f).alone t = match p.alone t with
      | (.ok a, t') => (f a).alone t'
      | (.error e, t') => (.error e, t') := by
  show (p.bind f).alone t = _
  induction p generalizing t with
  | done r => cases r <;> rfl
  | load k n ih =>
    simp only [Prog.bind, alone]
    cases dget t.store.kv k with
    | none => rfl
    | some v => exact ih v t
  | save k v n ih => simp only [Prog.bind, alone]; exact ih _
  | root n ih => simp only [Prog.bind, alone]; exact ih _ _
  | setRoot r n ih => simp only [Prog.bind, alone]; exact ih _

/-- Alone, the program does what the computation does. -/
def Sim {α : Type} (p : Prog α) (m : M Store α) : Prop := ∀ t, p.alone t = MPT.onStore m t

namespace Sim
variable {α β : Type}

theorem lift (m : Py α) : Sim (Prog.lift m) (M.lift m) := fun _ => rfl
theorem pure (a : α) : Sim (Pure.pure a) (Pure.pure a) := fun _ => rfl
theorem raise (e : Err) : Sim (Prog.raise e : Prog α) (M.raise e) := fun _ => rfl

theorem bind {p : Prog α} {m : M Store α} {f : α → Prog β} {g : α → M Store β} (h : Sim p m)
    (hf : ∀ a, Sim (f a) (g a)) : Sim (p >>= f) (m >>= g) := by
  intro t
  rw [alone_bind, h t, T.onStore_apply, T.onStore_apply]
  simp only [M.bind_apply]
  cases hm : m t.store with
  | mk r s =>
    cases r with
    | error e => rfl
    | ok a => exact hf a _

theorem getNode (ref : Bytes) : Sim (MPT.getNodeP (some ref)) (MPT.getNodeM ref) := by
  intro t
  show (MPT.rawP ref >>= fun raw => Prog.lift (Node.decode raw)).alone t = _
  unfold MPT.getNodeM MPT.rawP
  rw [alone_bind, T.onStore_apply]
  simp only [M.bind_apply, M.get_apply, M.lift_apply, MPT.getNode]
  by_cases h : ref.length = 32
  · simp only [h, if_true, Prog.loadItem, alone, dgetItem]
    cases dget t.store.kv ref <;> rfl
  · simp only [h, if_false, Prog.lift, alone]
    rfl

theorem storeNode (E : Env) (n : Node) : Sim (MPT.storeNodeP E n) (MPT.storeNode E n) := by
  unfold MPT.storeNodeP MPT.storeNode
  refine (lift _).bind fun ref => ?_
  split
  · exact (lift _).bind fun enc => fun t => rfl
  · exact pure _

theorem createBranchLeaf (E : Env) (path : NibblePath) (v : Bytes) (bs : List Bytes) :
    Sim (MPT.createBranchLeafP E path v bs) (MPT.createBranchLeaf E path v bs) := by
  unfold MPT.createBranchLeafP MPT.createBranchLeaf
  refine (lift _).bind fun n => ?_
  split
  · exact (lift _).bind fun _ => (storeNode E _).bind fun _ => lift _
  · exact pure _

theorem createBranchExtension (E : Env) (path : NibblePath) (r : Bytes) (bs : List Bytes) :
    Sim (MPT.createBranchExtensionP E path r bs) (MPT.createBranchExtension E path r bs) := by
  unfold MPT.createBranchExtensionP MPT.createBranchExtension
  refine (lift _).bind fun n => ?_
  split
  · exact raise _
  · split
    · exact (lift _).bind fun _ => lift _
    · exact (lift _).bind fun _ => (storeNode E _).bind fun _ => lift _

theorem createBranchNode (E : Env) (pa : NibblePath) (va : Bytes) (pb : NibblePath) (vb : Bytes) :
    Sim (MPT.createBranchNodeP E pa va pb vb) (MPT.createBranchNode E pa va pb vb) := by
  unfold MPT.createBranchNodeP MPT.createBranchNode
  refine (lift _).bind fun a => (lift _).bind fun b => ?_
  split
  · exact raise _
  · exact (createBranchLeaf E _ _ _).bind fun _ => (createBranchLeaf E _ _ _).bind fun _ => storeNode E _

theorem update (E : Env) (f : Nat) (ref : Bytes) (path : NibblePath) (v : Bytes) :
    Sim (MPT.updateP E f ref path v) (MPT.updateAux E f ref path v) := by
  induction f generalizing ref path with
  | zero => exact raise _
  | succ f ih =>
    unfold MPT.updateP MPT.updateAux
    split
    · exact storeNode E _
    refine (getNode _).bind fun node => ?_
    cases node with
    | leaf np nd =>
      refine (lift _).bind fun same => ?_
      split
      · exact storeNode E _
      · refine (lift _).bind fun c => (lift _).bind fun n => (createBranchNode E _ _ _ _).bind fun r => ?_
        split
        · exact storeNode E _
        · exact pure _
    | ext np nr =>
      refine (lift _).bind fun pre => ?_
      split
      · exact (lift _).bind fun _ => (ih _ _).bind fun _ => storeNode E _
      · refine (lift _).bind fun c => (lift _).bind fun n => (lift _).bind fun m =>
          (createBranchLeaf E _ _ _).bind fun _ => (createBranchExtension E _ _ _).bind fun _ =>
          (storeNode E _).bind fun r => ?_
        split
        · exact storeNode E _
        · exact pure _
    | branch bs d =>
      refine (lift _).bind fun n => ?_
      split
      · exact storeNode E _
      · exact (lift _).bind fun _ => (lift _).bind fun _ => (ih _ _).bind fun _ =>
          (lift _).bind fun _ => storeNode E _

theorem buildFromLastBranch (E : Env) (bs : List Bytes) :
    Sim (MPT.buildFromLastBranchP E bs) (MPT.buildFromLastBranch E bs) := by
  unfold MPT.buildFromLastBranchP MPT.buildFromLastBranch
  refine (lift _).bind fun r => (getNode _).bind fun n => ?_
  cases n with
  | leaf p d => exact (lift _).bind fun _ => (storeNode E _).bind fun _ => pure _
  | ext p r => exact (lift _).bind fun _ => (storeNode E _).bind fun _ => pure _
  | branch b d => exact (storeNode E _).bind fun _ => pure _

theorem afterDeleted (E : Env) (bs : List Bytes) (d : Bytes) :
    Sim (MPT.afterDeletedP E bs d) (MPT.afterDeleted E bs d) := by
  unfold MPT.afterDeletedP MPT.afterDeleted
  simp only
  split
  · exact pure _
  · split
    · exact (storeNode E _).bind fun _ => pure _
    · split
      · exact buildFromLastBranch E _
      · exact (storeNode E _).bind fun _ => pure _

theorem delete (E : Env) (f : Nat) (ref : Bytes) (path : NibblePath) :
    Sim (MPT.deleteP E f (some ref) path) (MPT.deleteAux E f ref path) := by
  induction f generalizing ref path with
  | zero => exact raise _
  | succ f ih =>
    unfold MPT.deleteP MPT.deleteAux
    refine (getNode _).bind fun node => ?_
    cases node with
    | leaf np nd =>
      refine (lift _).bind fun same => ?_
      split
      · exact pure _
      · exact raise _
    | ext np nr =>
      refine (lift _).bind fun pre => ?_
      split
      · exact raise _
      · refine (lift _).bind fun m => (ih _ _).bind fun act => ?_
        cases act with
        | deleted => exact pure _
        | updated r => exact (storeNode E _).bind fun _ => pure _
        | useless sp sr =>
          refine (getNode _).bind fun n => ?_
          cases n <;> exact (lift _).bind fun _ => (storeNode E _).bind fun _ => pure _
    | branch bs d =>
      refine (lift _).bind fun n => ?_
      split
      · exact raise _
      · split
        · exact raise _
        · split
          · exact afterDeleted E _ _
          · refine (lift _).bind fun i => (lift _).bind fun c => ?_
            split
            · exact raise _
            · refine (ih _ _).bind fun act => ?_
              cases act with
              | deleted => exact (lift _).bind fun _ => afterDeleted E _ _
              | updated r => exact (lift _).bind fun _ => (storeNode E _).bind fun _ => pure _
              | useless p r => exact (lift _).bind fun _ => (storeNode E _).bind fun _ => pure _

end Sim

/-- Alone, the program has this outcome and changes nothing. -/
def Reads {α : Type} (t : MPT) (p : Prog α) (r : Py α) : Prop := p.alone t = (r, t)

namespace Reads
variable {α β : Type} {t : MPT}

theorem lift (m : Py α) : Reads t (Prog.lift m) m := rfl
theorem pure (a : α) : Reads t (Pure.pure a) (.ok a) := rfl
theorem raise (e : Err) : Reads t (Prog.raise e : Prog α) (.error e) := rfl
theorem root : Reads t Prog.getRoot (.ok t.root) := rfl

theorem bind {p : Prog α} {m : Py α} {f : α → Prog β} {g : α → Py β} (h : Reads t p m)
    (hf : ∀ a, Reads t (f a) (g a)) : Reads t (p >>= f) (m >>= g) := by
  unfold Reads
  rw [alone_bind, show p.alone t = (m, t) from h]
  cases m with
  | error e => rfl
  | ok a => exact hf a

theorem getNode (ref : Bytes) : Reads t (MPT.getNodeP (some ref)) (MPT.getNode t.store.kv ref) := by
  have := Sim.getNode ref t
  rwa [T.onStore_apply] at this

theorem get (f : Nat) (ref : Bytes) (path : NibblePath) :
    Reads t (MPT.getP f (some ref) path) (MPT.getAux t.store.kv f ref path) := by
  induction f generalizing ref path with
  | zero => exact raise _
  | succ f ih =>
    unfold MPT.getP MPT.getAux
    refine (getNode _).bind fun node => (lift _).bind fun n => ?_
    split
    · exact pure _
    · cases node with
      | leaf p d =>
        refine (lift _).bind fun same => ?_
        split
        · exact pure _
        · exact raise _
      | ext p r =>
        refine (lift _).bind fun pre => ?_
        split
        · exact (lift _).bind fun m => ih _ _
        · exact raise _
      | branch bs d =>
        refine (lift _).bind fun i => (lift _).bind fun b => ?_
        split
        · exact ih _ _
        · exact raise _

theorem noRoot (E : Env) : Reads t (MPT.noRootP E) (.ok (t.noRoot E)) := by
  unfold MPT.noRootP Reads MPT.noRoot
  rw [alone_bind]
  simp only [Prog.getRoot, alone]
  cases hr : t.root with
  | none => rfl
  | some r =>
    rw [if_neg (by simp), alone_bind]
    simp only [alone, hr]
    rfl

theorem contains (E : Env) (f : Nat) (ref : Bytes) (path : NibblePath) :
    Reads t (MPT.containsP E f (some ref) path) (MPT.containsAux (t.noRoot E) t.store.kv f ref path) := by
  induction f generalizing ref path with
  | zero => exact raise _
  | succ f ih =>
    unfold MPT.containsP MPT.containsAux
    have h := (noRoot (t := t) E).bind (β := Option Node × NibblePath)
      (f := fun no => if no then Pure.pure (none, path) else do
        let node ← MPT.getNodeP (some ref)
        let n ← Prog.lift path.len
        if n = 0 then return (some node, path)
        else
          match node with
          | .leaf _ _ => return (some node, path)
          | .ext p nextRef => do
            let pre ← Prog.lift (path.startsWith p)
            if pre then do
              let m ← Prog.lift p.len
              MPT.containsP E f (some nextRef) (path.consume m)
            else return (some node, path)
          | .branch branches _ => do
            let i ← Prog.lift (path.nibbleAt 0)
            let branch ← Prog.lift (pyIndex branches i)
            if branch.length > 0 then MPT.containsP E f (some branch) (path.consume 1)
            else return (some node, path))
      (g := fun no => if no then .ok (none, path) else do
        let node ← MPT.getNode t.store.kv ref
        let n ← path.len
        if n = 0 then return (some node, path)
        else
          match node with
          | .leaf _ _ => return (some node, path)
          | .ext p nextRef => do
            let pre ← path.startsWith p
            if pre then do
              let m ← p.len
              MPT.containsAux (t.noRoot E) t.store.kv f nextRef (path.consume m)
            else return (some node, path)
          | .branch branches _ => do
            let i ← path.nibbleAt 0
            let branch ← pyIndex branches i
            if branch.length > 0 then MPT.containsAux (t.noRoot E) t.store.kv f branch (path.consume 1)
            else return (some node, path)) ?_
    · exact h
    · intro no
      split
      · exact pure _
      refine (getNode _).bind fun node => (lift _).bind fun n => ?_
      split
      · exact pure _
      · cases node with
        | leaf p d => exact pure _
        | ext p r =>
          refine (lift _).bind fun pre => ?_
          split
          · exact (lift _).bind fun m => ih _ _
          · exact pure _
        | branch bs d =>
          refine (lift _).bind fun i => (lift _).bind fun b => ?_
          split
          · exact ih _ _
          · exact pure _

theorem getCall (E : Env) (k : Bytes) : Reads t (MPT.getCallP E (t.keyOf E k)) (t.get E k) := by
  unfold MPT.getCallP MPT.get Reads
  rw [alone_bind, show Prog.getRoot.alone t = (.ok t.root, t) from rfl]
  simp only [MPT.rootFalsy, beq_iff_eq]
  split
  · rfl
  · rename_i h
    rw [alone_bind, show Prog.getRoot.alone t = (.ok t.root, t) from rfl]
    cases hr : t.root with
    | none => simp [hr] at h
    | some r =>
      simp only [Option.getD_some]
      refine (get _ _ _).bind fun node => ?_
      cases node <;> rfl

theorem containsCall (E : Env) (k : Bytes) :
    Reads t (MPT.containsCallP E (t.keyOf E k)) (t.contains E k) := by
  unfold MPT.containsCallP MPT.contains Reads
  rw [alone_bind, show Prog.getRoot.alone t = (.ok t.root, t) from rfl]
  simp only [MPT.rootFalsy, beq_iff_eq]
  split
  · rfl
  · rename_i h
    rw [alone_bind, show Prog.getRoot.alone t = (.ok t.root, t) from rfl]
    cases hr : t.root with
    | none => simp [hr] at h
    | some r =>
      simp only [Option.getD_some]
      refine (contains E _ _ _).bind fun x => ?_
      obtain ⟨n, p⟩ := x
      cases n with
      | none => rfl
      | some n => cases n <;> rfl

end Reads

theorem updateCall_alone (E : Env) (k v : Bytes) (t : MPT) :
    (MPT.updateCallP E (t.keyOf E k) v).alone t = MPT.update E k v t := by
  rw [T.update_eq]
  unfold MPT.updateCallP
  rw [alone_bind, show Prog.getRoot.alone t = (.ok t.root, t) from rfl]
  simp only
  rw [alone_bind, Sim.update E _ _ _ _ t, T.onStore_apply]
  cases MPT.updateAux E E.limit (t.root.getD []) ⟨t.keyOf E k, 0⟩ v t.store with
  | mk r st => cases r <;> rfl

theorem deleteCall_alone (E : Env) (k : Bytes) (t : MPT) :
    (MPT.deleteCallP E (t.keyOf E k)).alone t = MPT.delete E k t := by
  rw [T.delete_eq]
  unfold MPT.deleteCallP
  rw [alone_bind, show (MPT.noRootP E).alone t = (.ok (t.noRoot E), t) from Reads.noRoot E]
  simp only
  split
  · rfl
  · rename_i h
    rw [alone_bind, show Prog.getRoot.alone t = (.ok t.root, t) from rfl]
    simp only
    cases hr : t.root with
    | none => simp [MPT.noRoot, hr] at h
    | some r =>
      simp only [Option.getD_some]
      rw [alone_bind, Sim.delete E _ _ _ t, T.onStore_apply]
      cases MPT.deleteAux E E.limit r ⟨t.keyOf E k, 0⟩ t.store with
      | mk r st =>
        cases r with
        | error e => simp only [hr]
        | ok a => cases a <;> rfl

end Prog

/-- The program of a call, run alone, is the call. -/
theorem Call.prog_alone (E : Env) (c : Call) (t : MPT) : (c.prog E t.secure).alone t = c.seq E t := by
  cases c with
  | update k v =>
    unfold Call.prog Call.seq
    rw [Prog.alone_bind, ← keyOf_eq' E t k, Prog.updateCall_alone]
    simp only
    cases MPT.update E k v t with
    | mk r s => cases r <;> rfl
  | delete k =>
    unfold Call.prog Call.seq
    rw [Prog.alone_bind, ← keyOf_eq' E t k, Prog.deleteCall_alone]
    simp only
    cases MPT.delete E k t with
    | mk r s => cases r <;> rfl
  | get k =>
    unfold Call.prog Call.seq
    rw [Prog.alone_bind, ← keyOf_eq' E t k,
      show (MPT.getCallP E (t.keyOf E k)).alone t = (t.get E k, t) from Prog.Reads.getCall E k]
    simp only
    cases t.get E k <;> rfl
  | contains k =>
    unfold Call.prog Call.seq
    rw [Prog.alone_bind, ← keyOf_eq' E t k,
      show (MPT.containsCallP E (t.keyOf E k)).alone t = (t.contains E k, t) from Prog.Reads.containsCall E k]
    simp only
    cases t.contains E k <;> rfl
where
  keyOf_eq' (E : Env) (t : MPT) (k : Bytes) : t.keyOf E k = if t.secure then E.keccak k else k := rfl

end Pymt
