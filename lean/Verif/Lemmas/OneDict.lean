import Verif.Model.OneDict
import Verif.Lemmas.EmptTurns
import Verif.Lemmas.Peace
import Verif.Lemmas.Merge
import Verif.Spec.EmptBackend

/-!
# An `EMPT` that is given one dict for both its storages
-/

namespace Pymt

namespace Prog

/-- Entries of the storage are read and written under keys of 32 bytes only. -/
def Wide {α : Type} : Prog α → Prop
  | .done _ => True
  | .load k n => k.length = 32 ∧ ∀ v, Wide (n v)
  | .save k _ n => k.length = 32 ∧ Wide n
  | .root n => ∀ r, Wide (n r)
  | .setRoot _ n => Wide n

section
variable {E : Env} {α β : Type}

theorem Wide.bind {p : Prog α} {f : α → Prog β} (h : Wide p) (hf : ∀ a, Wide (f a)) : Wide (p >>= f) := by
  show Wide (p.bind f)
  induction p with
  | done r => cases r with
    | ok a => exact hf a
    | error e => trivial
  | load k n ih => exact ⟨h.1, fun v => ih v (h.2 v)⟩
  | save k v n ih => exact ⟨h.1, ih h.2⟩
  | root n ih => exact fun r => ih r (h r)
  | setRoot r n ih => exact ih h

theorem Wide.lift (m : Py α) : Wide (Prog.lift m) := trivial
theorem Wide.raise (e : Err) : Wide (Prog.raise e : Prog α) := trivial
theorem Wide.pure (a : α) : Wide (Pure.pure a : Prog α) := trivial
theorem Wide.getRoot : Wide Prog.getRoot := fun _ => trivial

theorem Wide.getNode (ref : Option Bytes) : Wide (MPT.getNodeP ref) := by
  cases ref with
  | none => exact raise _
  | some ref =>
    refine Wide.bind (p := MPT.rawP ref) ?_ fun raw => lift _
    unfold MPT.rawP
    split
    · rename_i h; exact ⟨h, fun _ => trivial⟩
    · exact lift _

theorem Wide.get (f : Nat) (ref : Option Bytes) (path : NibblePath) : Wide (MPT.getP f ref path) := by
  induction f generalizing ref path with
  | zero => exact raise _
  | succ f ih =>
    unfold MPT.getP
    refine (getNode _).bind fun node => (lift _).bind fun n => ?_
    split
    · exact pure _
    · cases node with
      | leaf p d =>
        refine (lift _).bind fun same => ?_
        split
        · exact pure _
        · exact raise _
      | ext p r =>
        refine (lift _).bind fun pre => ?_
        split
        · exact (lift _).bind fun m => ih _ _
        · exact raise _
      | branch bs d =>
        refine (lift _).bind fun i => (lift _).bind fun b => ?_
        split
        · exact ih _ _
        · exact raise _

theorem Wide.noRoot (E : Env) : Wide (MPT.noRootP E) := by
  unfold MPT.noRootP
  refine getRoot.bind fun r => ?_
  split
  · exact pure _
  · exact getRoot.bind fun r => pure _

theorem Wide.contains (E : Env) (f : Nat) (ref : Option Bytes) (path : NibblePath) :
    Wide (MPT.containsP E f ref path) := by
  induction f generalizing ref path with
  | zero => exact raise _
  | succ f ih =>
    unfold MPT.containsP
    refine (noRoot E).bind fun no => ?_
    split
    · exact pure _
    refine (getNode _).bind fun node => (lift _).bind fun n => ?_
    split
    · exact pure _
    · cases node with
      | leaf p d => exact pure _
      | ext p r =>
        refine (lift _).bind fun pre => ?_
        split
        · exact (lift _).bind fun m => ih _ _
        · exact pure _
      | branch bs d =>
        refine (lift _).bind fun i => (lift _).bind fun b => ?_
        split
        · exact ih _ _
        · exact pure _

theorem Wide.data (n : Node) : Wide (MPT.dataP n) := by cases n <;> trivial

theorem Wide.has (x : Option Node × NibblePath) : Wide (MPT.hasP x) := by
  obtain ⟨n, p⟩ := x
  cases n with
  | none => trivial
  | some n => cases n <;> trivial

theorem Wide.getCall (E : Env) (k : Bytes) : Wide (MPT.getCallP E k) := by
  unfold MPT.getCallP
  refine getRoot.bind fun r => ?_
  split
  · exact raise _
  · exact getRoot.bind fun r => (get _ _ _).bind fun n => data n

theorem Wide.containsCall (E : Env) (k : Bytes) : Wide (MPT.containsCallP E k) := by
  unfold MPT.containsCallP
  refine getRoot.bind fun r => ?_
  split
  · exact pure _
  · exact getRoot.bind fun r => (contains E _ _ _).bind fun n => has n

theorem Wide.storeNode (n : Node) : Wide (MPT.storeNodeP E n) := by
  unfold MPT.storeNodeP
  refine (lift _).bind fun ref => ?_
  split
  · rename_i h; exact (lift _).bind fun enc => ⟨h, trivial⟩
  · exact pure _

theorem Wide.createBranchLeaf (path : NibblePath) (v : Bytes) (bs : List Bytes) :
    Wide (MPT.createBranchLeafP E path v bs) := by
  unfold MPT.createBranchLeafP
  refine (lift _).bind fun n => ?_
  split
  · exact (lift _).bind fun _ => (storeNode _).bind fun _ => lift _
  · exact pure _

theorem Wide.createBranchExtension (path : NibblePath) (r : Bytes) (bs : List Bytes) :
    Wide (MPT.createBranchExtensionP E path r bs) := by
  unfold MPT.createBranchExtensionP
  refine (lift _).bind fun n => ?_
  split
  · exact raise _
  · split
    · exact (lift _).bind fun _ => lift _
    · exact (lift _).bind fun _ => (storeNode _).bind fun _ => lift _

theorem Wide.createBranchNode (pa : NibblePath) (va : Bytes) (pb : NibblePath) (vb : Bytes) :
    Wide (MPT.createBranchNodeP E pa va pb vb) := by
  unfold MPT.createBranchNodeP
  refine (lift _).bind fun a => (lift _).bind fun b => ?_
  split
  · exact raise _
  · exact (createBranchLeaf _ _ _).bind fun _ => (createBranchLeaf _ _ _).bind fun _ => storeNode _

theorem Wide.update (f : Nat) (ref : Bytes) (path : NibblePath) (v : Bytes) :
    Wide (MPT.updateP E f ref path v) := by
  induction f generalizing ref path with
  | zero => exact raise _
  | succ f ih =>
    unfold MPT.updateP
    split
    · exact storeNode _
    refine (getNode _).bind fun node => ?_
    cases node with
    | leaf np nd =>
      refine (lift _).bind fun same => ?_
      split
      · exact storeNode _
      · refine (lift _).bind fun c => (lift _).bind fun n => (createBranchNode _ _ _ _).bind fun r => ?_
        split
        · exact storeNode _
        · exact pure _
    | ext np nr =>
      refine (lift _).bind fun pre => ?_
      split
      · exact (lift _).bind fun _ => (ih _ _).bind fun _ => storeNode _
      · refine (lift _).bind fun c => (lift _).bind fun n => (lift _).bind fun m =>
          (createBranchLeaf _ _ _).bind fun _ => (createBranchExtension _ _ _).bind fun _ =>
          (storeNode _).bind fun r => ?_
        split
        · exact storeNode _
        · exact pure _
    | branch bs d =>
      refine (lift _).bind fun n => ?_
      split
      · exact storeNode _
      · exact (lift _).bind fun _ => (lift _).bind fun _ => (ih _ _).bind fun _ =>
          (lift _).bind fun _ => storeNode _

theorem Wide.buildFromLastBranch (bs : List Bytes) : Wide (MPT.buildFromLastBranchP E bs) := by
  unfold MPT.buildFromLastBranchP
  refine (lift _).bind fun r => (getNode _).bind fun n => ?_
  cases n with
  | leaf p d => exact (lift _).bind fun _ => (storeNode _).bind fun _ => pure _
  | ext p r => exact (lift _).bind fun _ => (storeNode _).bind fun _ => pure _
  | branch b d => exact (storeNode _).bind fun _ => pure _

theorem Wide.afterDeleted (bs : List Bytes) (d : Bytes) : Wide (MPT.afterDeletedP E bs d) := by
  unfold MPT.afterDeletedP
  simp only
  split
  · exact pure _
  · split
    · exact (storeNode _).bind fun _ => pure _
    · split
      · exact buildFromLastBranch _
      · exact (storeNode _).bind fun _ => pure _

theorem Wide.delete (f : Nat) (ref : Option Bytes) (path : NibblePath) : Wide (MPT.deleteP E f ref path) := by
  induction f generalizing ref path with
  | zero => exact raise _
  | succ f ih =>
    unfold MPT.deleteP
    refine (getNode _).bind fun node => ?_
    cases node with
    | leaf np nd =>
      refine (lift _).bind fun same => ?_
      split
      · exact pure _
      · exact raise _
    | ext np nr =>
      refine (lift _).bind fun pre => ?_
      split
      · exact raise _
      · refine (lift _).bind fun m => (ih _ _).bind fun act => ?_
        cases act with
        | deleted => exact pure _
        | updated r => exact (storeNode _).bind fun _ => pure _
        | useless sp sr =>
          refine (getNode _).bind fun n => ?_
          cases n <;> exact (lift _).bind fun _ => (storeNode _).bind fun _ => pure _
    | branch bs d =>
      refine (lift _).bind fun n => ?_
      split
      · exact raise _
      · split
        · exact raise _
        · split
          · exact afterDeleted _ _
          · refine (lift _).bind fun i => (lift _).bind fun c => ?_
            split
            · exact raise _
            · refine (ih _ _).bind fun act => ?_
              cases act with
              | deleted => exact (lift _).bind fun _ => afterDeleted _ _
              | updated r => exact (lift _).bind fun _ => (storeNode _).bind fun _ => pure _
              | useless p r => exact (lift _).bind fun _ => (storeNode _).bind fun _ => pure _

theorem Wide.updateCall (k v : Bytes) : Wide (MPT.updateCallP E k v) := by
  unfold MPT.updateCallP
  exact getRoot.bind fun r => (update _ _ _ _).bind fun x => trivial

theorem Wide.deleteCall (k : Bytes) : Wide (MPT.deleteCallP E k) := by
  unfold MPT.deleteCallP
  refine (noRoot E).bind fun no => ?_
  split
  · exact raise _
  · refine getRoot.bind fun r => (delete _ _ _).bind fun x => ?_
    cases x <;> exact trivial

/-- What is known of a call is known of the program that makes it up. -/
theorem Fine.of_map {p : Prog α} {g : α → β} {t : MPT} (h : (p >>= fun a => Prog.done (.ok (g a))).Fine E t) :
    p.Fine E t := by
  change (p.bind _).Fine E t at h
  induction p generalizing t with
  | done r => trivial
  | load k n ih =>
    simp only [Prog.bind, Fine] at h ⊢
    cases e : dget t.store.kv k with
    | none => rw [e] at h; exact h
    | some v => rw [e] at h; exact ih v h
  | save k v n ih => exact ih h
  | root n ih => exact ih _ h
  | setRoot r n ih => exact ih h

end
end Prog

namespace EProg
variable {α β : Type} {D : Bytes → Prop}

/-- Run alone, the program uses the data storage under keys that satisfy `D`, and the other storage under keys that do
not. -/
def Clear (D : Bytes → Prop) {α : Type} : EProg α → EMPT → Prop
  | .done _, _ => True
  | .load k n, s => ¬ D k ∧ ∀ v, dget s.trie.store.kv k = some v → (n v).Clear D s
  | .save k v n, s => ¬ D k ∧ n.Clear D { s with trie := { s.trie with store := s.trie.store.set k v } }
  | .root n, s => (n s.trie.root).Clear D s
  | .setRoot r n, s => n.Clear D { s with trie := { s.trie with root := r } }
  | .data k n, s => D k ∧ ∀ v, dget s.data k = some v → (n v).Clear D s
  | .setData k v n, s => D k ∧ n.Clear D { s with data := dset s.data k v }
  | .delData k n, s => D k ∧ (dget s.data k ≠ none → n.Clear D { s with data := ddel s.data k })

theorem Clear.bind {p : EProg α} {f : α → EProg β} {s : EMPT} (h : p.Clear D s)
    (hf : ∀ a, (p.alone s).1 = .ok a → (f a).Clear D (p.alone s).2) : (p >>= f).Clear D s := by
  show (p.bind f).Clear D s
  induction p generalizing s with
  | done r => cases r with
    | ok a => exact hf a rfl
    | error e => trivial
  | load k n ih =>
    refine ⟨h.1, fun v e => ih v (h.2 v e) ?_⟩
    simp only [alone, e] at hf
    exact hf
  | save k v n ih => exact ⟨h.1, ih h.2 hf⟩
  | root n ih => exact ih _ h hf
  | setRoot r n ih => exact ih h hf
  | data k n ih =>
    refine ⟨h.1, fun v e => ih v (h.2 v e) ?_⟩
    simp only [alone, e] at hf
    exact hf
  | setData k v n ih => exact ⟨h.1, ih h.2 hf⟩
  | delData k n ih =>
    refine ⟨h.1, fun e => ih (h.2 e) ?_⟩
    cases e' : dget s.data k with
    | none => exact absurd e' e
    | some v =>
      simp only [alone, e'] at hf
      exact hf

theorem Clear.of_wide {p : Prog α} (h : p.Wide) (hD : ∀ k, D k → k.length ≠ 32) (s : EMPT) :
    (trie p).Clear D s := by
  induction p generalizing s with
  | done r => trivial
  | load k n ih => exact ⟨fun hk => hD k hk h.1, fun v _ => ih v (h.2 v) s⟩
  | save k v n ih => exact ⟨fun hk => hD k hk h.1, ih h.2 _⟩
  | root n ih => exact ih _ (h _) s
  | setRoot r n ih => exact ih h _

theorem Clear.of_fine {E : Env} {L : List Bytes} {p : Prog α} {s : EMPT} (h : p.Fine E s.trie) (hp : p.Plain E)
    (hg : GS E L s.trie.store) (hw : ∀ w ∈ p.writes s.trie, w ∈ L) (hD : ∀ w ∈ L, ¬ D (E.keccak w))
    (h0 : ¬ D (emptyHash E)) : (trie p).Clear D s := by
  induction p generalizing s with
  | done r => trivial
  | load k n ih =>
    simp only [Prog.Fine, Prog.writes] at h hw
    cases e : dget s.trie.store.kv k with
    | none =>
      rw [e] at h
      refine ⟨?_, fun v e' => ?_⟩
      · simp only at h; rw [h]; exact h0
      · rw [e] at e'; exact (nomatch e')
    | some v =>
      rw [e] at h hw
      refine ⟨?_, fun v' e' => ?_⟩
      · obtain ⟨e1, e2, _⟩ := hg k v e
        rw [e1]; exact hD v e2
      · rw [e] at e'
        injection e' with e'
        subst e'
        exact ih v h (hp v) hg hw
  | save k v n ih =>
    have hv : v ∈ L := hw v List.mem_cons_self
    refine ⟨by rw [hp.1]; exact hD v hv, ?_⟩
    refine ih (s := { s with trie := { s.trie with store := s.trie.store.set k v } }) h hp.2.2 ?_
      fun w hm => hw w (List.mem_cons_of_mem _ hm)
    show GS E L (s.trie.store.set k v)
    rw [hp.1]
    exact hg.set hv hp.2.1
  | root n ih => exact ih _ h (hp _) hg hw
  | setRoot r n ih =>
    obtain ⟨x, rfl⟩ := hp
    exact trivial

end EProg

/-- The one dict has the entries of both. -/
structure Joins (D : Bytes → Prop) (o : OneEmpt) (s : EMPT) : Prop where
  root : o.root = s.trie.root
  secure : o.secure = s.trie.secure
  nodes : ∀ k, ¬ D k → dget o.dict k = (dget s.trie.store.kv k).map Value.bytes
  data : ∀ k, D k → dget o.dict k = dget s.data k
  noNode : ∀ k, D k → dget s.trie.store.kv k = none
  noData : ∀ k, ¬ D k → dget s.data k = none
  nodup : (o.dict.map (·.1)).Nodup
  nodup1 : (s.trie.store.kv.map (·.1)).Nodup
  nodup2 : (s.data.map (·.1)).Nodup

theorem EProg.joined_alone {α : Type} {D : Bytes → Prop} (p : EProg α) (o : OneEmpt) (s : EMPT) (h : Joins D o s)
    (hc : p.Clear D s) : (p.joined o).1 = (p.alone s).1 ∧ Joins D (p.joined o).2 (p.alone s).2 := by
  induction p generalizing o s with
  | done r => exact ⟨rfl, h⟩
  | load k p ih =>
    have h1 := h.nodes k hc.1
    simp only [joined, alone]
    cases e : dget s.trie.store.kv k with
    | none => rw [h1, e]; exact ⟨rfl, h⟩
    | some v => rw [h1, e]; exact ih v o s h (hc.2 v e)
  | save k v p ih =>
    refine ih _ _ ⟨h.root, h.secure, fun k' hk => ?_, fun k' hk => ?_, fun k' hk => ?_, h.noData, dset_nodup h.nodup,
      dset_nodup h.nodup1, h.nodup2⟩ hc.2
    · simp only [dget_dset, Store.dget_set]
      by_cases hkk : k = k'
      · subst hkk; simp
      · have : ¬ k' = k := fun e => hkk e.symm
        simp [hkk, this, h.nodes k' hk]
    · have hkk : ¬ k = k' := fun e => hc.1 (e ▸ hk)
      simp [dget_dset, hkk, h.data k' hk]
    · have hkk : ¬ k' = k := fun e => hc.1 (e ▸ hk)
      simp [Store.dget_set, hkk, h.noNode k' hk]
  | root p ih =>
    simp only [joined, alone]
    rw [h.root]
    exact ih _ o s h hc
  | setRoot r p ih => exact ih _ _ ⟨rfl, h.secure, h.nodes, h.data, h.noNode, h.noData, h.nodup, h.nodup1, h.nodup2⟩ hc
  | data k p ih =>
    have h1 := h.data k hc.1
    simp only [joined, alone]
    cases e : dget s.data k with
    | none => rw [h1, e]; exact ⟨rfl, h⟩
    | some v => rw [h1, e]; exact ih v o s h (hc.2 v e)
  | setData k v p ih =>
    refine ih _ _ ⟨h.root, h.secure, fun k' hk => ?_, fun k' hk => ?_, h.noNode, fun k' hk => ?_,
      dset_nodup h.nodup, h.nodup1, dset_nodup h.nodup2⟩ hc.2
    · have hkk : ¬ k = k' := fun e => hk (e ▸ hc.1)
      simp [dget_dset, hkk, h.nodes k' hk]
    · simp only [dget_dset, h.data k' hk]
    · have hkk : ¬ k = k' := fun e => hk (e ▸ hc.1)
      simp [dget_dset, hkk, h.noData k' hk]
  | delData k p ih =>
    have h1 := h.data k hc.1
    simp only [joined, alone]
    cases e : dget s.data k with
    | none => rw [h1, e]; exact ⟨rfl, h⟩
    | some v =>
      rw [h1, e]
      refine ih _ _ ⟨h.root, h.secure, fun k' hk => ?_, fun k' hk => ?_, h.noNode, fun k' hk => ?_,
        ddel_nodup h.nodup, h.nodup1, ddel_nodup h.nodup2⟩ (hc.2 (by rw [e]; simp))
      · have hkk : ¬ k = k' := fun e => hk (e ▸ hc.1)
        simp [dget_ddel, hkk, h.nodes k' hk]
      · simp only [dget_ddel, h.data k' hk]
      · have hkk : ¬ k = k' := fun e => hk (e ▸ hc.1)
        simp [dget_ddel, hkk, h.noData k' hk]

section
variable {E : Env} {D : Bytes → Prop}

/-- What the trie has to do for a call. -/
structure TrieClear (E : Env) (D : Bytes → Prop) (c : ECall) (s : EMPT) : Prop where
  get : ∀ k, c = .get k → (EProg.trie (MPT.getCallP E (effective E s.trie.secure k))).Clear D s
  contains : ∀ k, c = .contains k ∨ c = .delete k →
    (EProg.trie (MPT.containsCallP E (effective E s.trie.secure k))).Clear D s
  update : ∀ k v ref, c = .update k v → v.storable = true → DataRef.ofValue k v = .ok ref →
    (EProg.trie (MPT.updateCallP E (effective E s.trie.secure k) (ref.encode E))).Clear D s
  delete : ∀ k, c = .delete k → s.trie.contains E k = .ok true → dget s.data k ≠ none →
    (EProg.trie (MPT.deleteCallP E (effective E s.trie.secure k))).Clear D { s with data := ddel s.data k }

theorem ECall.clear {c : ECall} {s : EMPT} (hk : D c.key) (h : TrieClear E D c s) :
    (c.prog E s.trie.secure).Clear D s := by
  cases c with
  | get k =>
    show EProg.Clear D (EMPT.getCallP E s.trie.secure k >>= fun v => EProg.done (.ok (EAns.value v))) s
    refine EProg.Clear.bind ?_ fun _ _ => trivial
    unfold EMPT.getCallP
    refine EProg.Clear.bind (p := EProg.dataItem k) ⟨hk, fun _ _ => trivial⟩ fun v e => ?_
    have e2 : ((EProg.dataItem k).alone s).2 = s := by
      simp only [EProg.dataItem, EProg.alone]
      split <;> rfl
    rw [e2]
    exact (h.get k rfl).bind fun _ _ => trivial
  | contains k =>
    show EProg.Clear D (EMPT.containsCallP E s.trie.secure k >>= fun v => EProg.done (.ok (EAns.bool v))) s
    exact EProg.Clear.bind (h.contains k (.inl rfl)) fun _ _ => trivial
  | update k v =>
    show EProg.Clear D (EMPT.updateCallP E s.trie.secure k v >>= fun _ => EProg.done (.ok EAns.none)) s
    refine EProg.Clear.bind ?_ fun _ _ => trivial
    have put : v.storable = true → EProg.Clear D (EMPT.putP E s.trie.secure k v) s := by
      intro hv
      unfold EMPT.putP
      refine EProg.Clear.bind (p := EProg.lift (DataRef.ofValue k v)) trivial fun ref e => ?_
      exact EProg.Clear.bind (h.update k v ref rfl hv e) fun _ _ => ⟨hk, trivial⟩
    match v, put with
    | .bytes b, put => exact put rfl
    | .bytearray b, _ =>
      show EProg.Clear D (EMPT.putP E s.trie.secure k (.bytearray b)) s
      exact EProg.Clear.bind (p := EProg.lift (DataRef.ofValue k (.bytearray b))) trivial fun ref e => (nomatch e)
    | .obj _ false _ _, _ => exact trivial
    | .obj _ true false _, _ => exact trivial
    | .obj _ true true _, put => exact put rfl
  | delete k =>
    show EProg.Clear D (EMPT.deleteCallP E s.trie.secure k >>= fun _ => EProg.done (.ok EAns.none)) s
    refine EProg.Clear.bind ?_ fun _ _ => trivial
    unfold EMPT.deleteCallP
    refine EProg.Clear.bind (p := EMPT.containsCallP E s.trie.secure k) (h.contains k (.inr rfl)) fun b e => ?_
    have e2 : (EMPT.containsCallP E s.trie.secure k).alone s = (s.trie.contains E k, s) := EMPT.containsCall_alone ..
    rw [e2] at e ⊢
    cases b with
    | false => exact trivial
    | true => exact ⟨hk, fun hd => h.delete k rfl e hd⟩

theorem TrieClear.of_length (hD : ∀ k, D k → k.length ≠ 32) (c : ECall) (s : EMPT) : TrieClear E D c s where
  get _ _ := .of_wide (.getCall _ _) hD _
  contains _ _ := .of_wide (.containsCall _ _) hD _
  update _ _ _ _ _ _ := .of_wide (.updateCall _ _) hD _
  delete _ _ _ _ := .of_wide (.deleteCall _) hD _

theorem ECall.seq_trie (c : ECall) (s : EMPT) : (c.seq E s).2.trie = s.trie ∨
    ∃ op : Op, op.key = c.key ∧ (c.seq E s).2.trie = (MPT.exec E op s.trie).2 := by
  cases c with
  | get k => exact .inl rfl
  | contains k => exact .inl rfl
  | update k v =>
    show (EMPT.update E k v s).2.trie = _ ∨ _
    cases hv : v.storable with
    | false =>
      obtain ⟨e, he⟩ := EMPT.update_other hv s (E := E) (k := k)
      rw [he]; exact .inl rfl
    | true =>
      refine .inr ⟨.update k (refOf E k v), rfl, ?_⟩
      show (EMPT.update E k v s).2.trie = (MPT.update E k (refOf E k v) s.trie).2
      rw [EMPT.update_storable hv]
      generalize MPT.update E k (refOf E k v) s.trie = x
      obtain ⟨r, t⟩ := x
      cases r <;> rfl
  | delete k =>
    show (EMPT.delete E k s).2.trie = _ ∨ ∃ op : Op, op.key = k ∧ (EMPT.delete E k s).2.trie = _
    rw [EMPT.delete_eq]
    match s.trie.contains E k with
    | .error e => exact .inl rfl
    | .ok false => exact .inl rfl
    | .ok true =>
      cases dget s.data k with
      | none => exact .inl rfl
      | some v => exact .inr ⟨.delete k, rfl, rfl⟩

theorem Prog.writes_sub {α : Type} {p : Prog α} {t : MPT} {L : List Bytes} {r : Py α} {t' : MPT} (h : p.alone t = (r, t'))
    (hw : ∀ w ∈ t'.store.written, w ∈ L) : ∀ w ∈ p.writes t, w ∈ L := fun w hm => hw w (by
  have := Prog.alone_written p t
  rw [h] at this
  rw [this]
  exact List.mem_append_right _ hm)

theorem TrieClear.of_bears {L : List Bytes} {c : ECall} {s : EMPT} {a : T} (h : Bears E s.trie a) (hL : LogOk E L)
    (hg : GS E L s.trie.store) (hf : Fits E s.trie.secure c.key) (hs : ∀ w ∈ s.trie.store.written, w ∈ L)
    (hw : ∀ w ∈ (c.seq E s).2.trie.store.written, w ∈ L) (hD : ∀ w ∈ L, ¬ D (E.keccak w)) (h0 : ¬ D (emptyHash E)) :
    TrieClear E D c s where
  get k e := by
    subst e
    refine .of_fine (Prog.Fine.of_map (fine_call h hL hg (c := .get k) hf (hL.mono hs)))
      (Prog.Quiet.getCall E _).plain hg (Prog.writes_sub (Prog.Reads.getCall E k) hs) hD h0
  contains k e := by
    have hf' : Fits E s.trie.secure k := by rcases e with rfl | rfl <;> exact hf
    refine .of_fine (Prog.Fine.of_map (fine_call h hL hg (c := .contains k) hf' (hL.mono hs)))
      (Prog.Quiet.containsCall E _).plain hg (Prog.writes_sub (Prog.Reads.containsCall E k) hs) hD h0
  update k v ref e hv hr := by
    subst e
    have hw' : ∀ w ∈ (MPT.update E k (ref.encode E) s.trie).2.store.written, w ∈ L := by
      change ∀ w ∈ (EMPT.update E k v s).2.trie.store.written, w ∈ L at hw
      have e : refOf E k v = ref.encode E := by
        match v, hv, hr with
        | .bytes b, _, hr => injection hr with hr; subst hr; rfl
        | .obj _ true true b, _, hr => injection hr with hr; subst hr; rfl
      rw [EMPT.update_storable hv, e] at hw
      generalize MPT.update E k (ref.encode E) s.trie = x at hw
      obtain ⟨r, t⟩ := x
      cases r <;> exact hw
    refine .of_fine (Prog.Fine.of_map (fine_call h hL hg (c := .update k (ref.encode E)) hf (hL.mono hw')))
      (Prog.Plain.updateCall _ _) hg (Prog.writes_sub (Prog.updateCall_alone E k _ _) hw') hD h0
  delete k e hc hd := by
    subst e
    have hw' : ∀ w ∈ (MPT.delete E k s.trie).2.store.written, w ∈ L := by
      change ∀ w ∈ (EMPT.delete E k s).2.trie.store.written, w ∈ L at hw
      rw [EMPT.delete_eq, hc] at hw
      cases e : dget s.data k with
      | none => exact absurd e hd
      | some v => rw [e] at hw; exact hw
    refine .of_fine (s := { s with data := ddel s.data k })
      (Prog.Fine.of_map (fine_call h hL hg (c := .delete k) hf (hL.mono hw')))
      (Prog.Plain.deleteCall _) hg (Prog.writes_sub (Prog.deleteCall_alone E k _) hw') hD h0

theorem OneEmpt.calls_length (hD : ∀ k, D k → k.length ≠ 32) (l : List ECall) (hk : ∀ c ∈ l, D c.key) (o : OneEmpt)
    (s : EMPT) (h : Joins D o s) :
    (o.calls E l).1 = (ECall.seqAll E l s).1 ∧ Joins D (o.calls E l).2 (ECall.seqAll E l s).2 := by
  induction l generalizing o s with
  | nil => exact ⟨rfl, h⟩
  | cons c l ih =>
    have h1 := EProg.joined_alone _ o s h (ECall.clear (hk c List.mem_cons_self) (TrieClear.of_length (E := E) hD c s))
    rw [ECall.prog_alone] at h1
    simp only [calls, ECall.seqAll]
    rw [h.secure]
    obtain ⟨i1, i2⟩ := ih (fun c' hc => hk c' (List.mem_cons_of_mem _ hc)) _ _ h1.2
    exact ⟨by rw [i1, h1.1], i2⟩

theorem ECall.seq_written (c : ECall) (s : EMPT) :
    ∀ w ∈ s.trie.store.written, w ∈ (c.seq E s).2.trie.store.written := by
  intro w hw
  rcases c.seq_trie (E := E) s with e | ⟨op, _, e⟩
  · rw [e]; exact hw
  · rw [e]
    obtain ⟨ws, e⟩ := exec_writes E op s.trie
    rw [e, replay_written]
    exact List.mem_append_left _ hw

theorem ECall.seqAll_written (l : List ECall) (s : EMPT) :
    ∀ w ∈ s.trie.store.written, w ∈ (ECall.seqAll E l s).2.trie.store.written := by
  induction l generalizing s with
  | nil => exact fun w h => h
  | cons c l ih => exact fun w h => ih _ w (c.seq_written s w h)

theorem OneEmpt.calls_hashes {L : List Bytes} (hL : LogOk E L) (hD : ∀ w ∈ L, ¬ D (E.keccak w)) (h0 : ¬ D (emptyHash E))
    (l : List ECall) (hk : ∀ c ∈ l, D c.key) (o : OneEmpt) (s : EMPT) (hf : ∀ c ∈ l, Fits E s.trie.secure c.key)
    (h : Joins D o s) {a : T} (hb : Bears E s.trie a) (hg : GS E L s.trie.store)
    (hw : ∀ w ∈ (ECall.seqAll E l s).2.trie.store.written, w ∈ L) :
    (o.calls E l).1 = (ECall.seqAll E l s).1 ∧ Joins D (o.calls E l).2 (ECall.seqAll E l s).2 := by
  induction l generalizing o s a with
  | nil => exact ⟨rfl, h⟩
  | cons c l ih =>
    have hw1 : ∀ w ∈ (c.seq E s).2.trie.store.written, w ∈ L := fun w hm => hw w (ECall.seqAll_written l _ w hm)
    have hs : ∀ w ∈ s.trie.store.written, w ∈ L := fun w hm => hw1 w (c.seq_written s w hm)
    have hfc := hf c List.mem_cons_self
    have h1 := EProg.joined_alone _ o s h (ECall.clear (hk c List.mem_cons_self)
      (TrieClear.of_bears hb hL hg hfc hs hw1 hD h0))
    rw [ECall.prog_alone] at h1
    have next : ∃ a', Bears E (c.seq E s).2.trie a' ∧ GS E L (c.seq E s).2.trie.store ∧
        (c.seq E s).2.trie.secure = s.trie.secure := by
      rcases c.seq_trie (E := E) s with e | ⟨op, ek, e⟩
      · rw [e]; exact ⟨a, hb, hg, rfl⟩
      · rw [e] at hw1 ⊢
        exact ⟨_, hb.exec (by rw [ek]; exact hfc) (hL.mono hw1), exec_gs op hg hw1, exec_secure ..⟩
    obtain ⟨a', hb', hg', hsec⟩ := next
    simp only [calls, ECall.seqAll]
    rw [h.secure]
    obtain ⟨i1, i2⟩ := ih (fun c' hc => hk c' (List.mem_cons_of_mem _ hc)) _ (c.seq E s).2
      (fun c' hc => by rw [hsec]; exact hf c' (List.mem_cons_of_mem _ hc)) h1.2 hb' hg' hw
    exact ⟨by rw [i1, h1.1], i2⟩

theorem Joins.new (E : Env) (D : Bytes → Prop) (secure : Bool) :
    Joins D (OneEmpt.new E secure) (EMPT.new E secure) :=
  ⟨rfl, rfl, fun _ _ => rfl, fun _ _ => rfl, fun _ _ => rfl, fun _ _ => rfl, .nil, .nil, .nil⟩

theorem Joins.iter {o : OneEmpt} {s : EMPT} (h : Joins D o s) :
    o.iter.Perm (s.iter ++ s.trie.store.kv.map (·.1)) := by
  refine (List.perm_ext_iff_of_nodup h.nodup ?_).2 fun k => ?_
  · refine List.nodup_append.2 ⟨h.nodup2, h.nodup1, fun a ha b hb e => ?_⟩
    subst e
    by_cases hk : D a
    · exact mem_keys_iff.1 hb (h.noNode a hk)
    · exact mem_keys_iff.1 ha (h.noData a hk)
  · rw [List.mem_append, show k ∈ s.iter ↔ _ from mem_keys_iff, mem_keys_iff, mem_keys_iff]
    by_cases hk : D k
    · rw [h.data k hk, h.noNode k hk]; simp
    · rw [h.nodes k hk, h.noData k hk]; cases dget s.trie.store.kv k <;> simp

end

end Pymt
