import Verif.Lemmas.Raises
import Verif.Spec.Limit

/-!
# More frames change nothing but RecursionErrors
-/

namespace Pymt

/-- `x` is what `y` is, or a RecursionError. -/
def Cut {α : Type} (x y : Py α) : Prop := x = .error .recursion ∨ x = y

/-- The same for computations with a state, which a RecursionError leaves unchanged. -/
def CutM {σ α : Type} (x y : M σ α) : Prop := ∀ s, x s = (.error .recursion, s) ∨ x s = y s

theorem Cut.refl {α : Type} (x : Py α) : Cut x x := .inr rfl
theorem CutM.refl {σ α : Type} (x : M σ α) : CutM x x := fun _ => .inr rfl

theorem Cut.raise {α : Type} (y : Py α) : Cut (.error .recursion) y := .inl rfl
theorem CutM.raise {σ α : Type} (y : M σ α) : CutM (M.raise .recursion) y := fun _ => .inl rfl

theorem Cut.bind {α β : Type} (m : Py α) {f g : α → Py β} (h : ∀ a, Cut (f a) (g a)) : Cut (m >>= f) (m >>= g) := by
  cases m with
  | error e => exact .inr rfl
  | ok a => exact h a

theorem Cut.then {α β : Type} {m m' : Py α} (h : Cut m m') (f : α → Py β) : Cut (m >>= f) (m' >>= f) := by
  rcases h with h | h
  · rw [h]; exact .inl rfl
  · rw [h]; exact .refl _

theorem CutM.bind_lift {σ α β : Type} (m : Py α) {f g : α → M σ β} (h : ∀ a, CutM (f a) (g a)) :
    CutM (M.lift m >>= f) (M.lift m >>= g) := by
  intro s
  cases m with
  | error e => exact .inr rfl
  | ok a => exact h a s

theorem CutM.bind_node {β : Type} (ref : Bytes) {f g : Node → M Store β} (h : ∀ a, CutM (f a) (g a)) :
    CutM (MPT.getNodeM ref >>= f) (MPT.getNodeM ref >>= g) := by
  intro s
  have : ∀ F : Node → M Store β, (MPT.getNodeM ref >>= F) s = (M.lift (MPT.getNode s.kv ref) >>= F) s := fun _ => rfl
  rw [this, this]
  exact CutM.bind_lift _ h s

theorem CutM.then {σ α β : Type} {m m' : M σ α} (h : CutM m m') (f : α → M σ β) : CutM (m >>= f) (m' >>= f) := by
  intro s
  rcases h s with h | h
  · left; show M.seq m f s = _; unfold M.seq; rw [h]
  · right; show M.seq m f s = M.seq m' f s; unfold M.seq; rw [h]

theorem CutM.ite {σ α : Type} {c : Prop} [Decidable c] {x y x' y' : M σ α} (h : CutM x x') (h' : CutM y y') :
    CutM (if c then x else y) (if c then x' else y') := by
  split
  · exact h
  · exact h'

theorem Cut.ite {α : Type} {c : Prop} [Decidable c] {x y x' y' : Py α} (h : Cut x x') (h' : Cut y y') :
    Cut (if c then x else y) (if c then x' else y') := by
  split
  · exact h
  · exact h'

namespace MPT

theorem getAux_cut (kv : Dict Bytes) : ∀ {f g : Nat}, f ≤ g → ∀ ref path, Cut (getAux kv f ref path) (getAux kv g ref path)
  | 0, _, _, _, _ => .raise _
  | f + 1, 0, h, _, _ => by omega
  | f + 1, g + 1, h, ref, path => by
    have ih := getAux_cut kv (f := f) (g := g) (by omega)
    rw [getAux, getAux]
    refine .bind _ fun node => .bind _ fun n => .ite (.refl _) ?_
    cases node with
    | leaf p d => exact .refl _
    | ext p r => exact .bind _ fun pre => .ite (.bind _ fun m => ih _ _) (.refl _)
    | branch bs d => exact .bind _ fun i => .bind _ fun b => .ite (ih _ _) (.refl _)

theorem containsAux_cut (nr : Bool) (kv : Dict Bytes) : ∀ {f g : Nat}, f ≤ g → ∀ ref path,
    Cut (containsAux nr kv f ref path) (containsAux nr kv g ref path)
  | 0, _, _, _, _ => .raise _
  | f + 1, 0, h, _, _ => by omega
  | f + 1, g + 1, h, ref, path => by
    have ih := containsAux_cut nr kv (f := f) (g := g) (by omega)
    rw [containsAux, containsAux]
    refine .ite (.refl _) (.bind _ fun node => .bind _ fun n => .ite (.refl _) ?_)
    cases node with
    | leaf p d => exact .refl _
    | ext p r => exact .bind _ fun pre => .ite (.bind _ fun m => ih _ _) (.refl _)
    | branch bs d => exact .bind _ fun i => .bind _ fun b => .ite (ih _ _) (.refl _)

theorem getPoiAux_cut (kv : Dict Bytes) : ∀ {f g : Nat}, f ≤ g → ∀ ref path l,
    Cut (getPoiAux kv f ref path l) (getPoiAux kv g ref path l)
  | 0, _, _, _, _, _ => .raise _
  | f + 1, 0, h, _, _, _ => by omega
  | f + 1, g + 1, h, ref, path, l => by
    have ih := getPoiAux_cut kv (f := f) (g := g) (by omega)
    rw [getPoiAux, getPoiAux]
    refine .bind _ fun node => .bind _ fun n => .ite (.refl _) ?_
    cases node with
    | leaf p d => exact .refl _
    | ext p r => exact .bind _ fun pre => .ite (.bind _ fun m => .bind _ fun enc => ih _ _ _) (.refl _)
    | branch bs d => exact .bind _ fun i => .bind _ fun b => .ite (.bind _ fun enc => ih _ _ _) (.refl _)

theorem getPoeAux_cut (kv : Dict Bytes) : ∀ {f g : Nat}, f ≤ g → ∀ ref path l,
    Cut (getPoeAux kv f ref path l) (getPoeAux kv g ref path l)
  | 0, _, _, _, _, _ => .raise _
  | f + 1, 0, h, _, _, _ => by omega
  | f + 1, g + 1, h, ref, path, l => by
    have ih := getPoeAux_cut kv (f := f) (g := g) (by omega)
    rw [getPoeAux, getPoeAux]
    refine .bind _ fun node => .bind _ fun n => .ite (.refl _) ?_
    cases node with
    | leaf p d => exact .refl _
    | ext p r => exact .bind _ fun pre => .ite (.bind _ fun m => .bind _ fun enc => ih _ _ _) (.refl _)
    | branch bs d => exact .bind _ fun i => .bind _ fun b => .bind _ fun enc => .ite (ih _ _ _) (.refl _)

theorem verifyPoiAux_cut (ps : Dict Bytes) : ∀ {f g : Nat}, f ≤ g → ∀ ref path,
    Cut (verifyPoiAux ps f ref path) (verifyPoiAux ps g ref path)
  | 0, _, _, _, _ => .raise _
  | f + 1, 0, h, _, _ => by omega
  | f + 1, g + 1, h, ref, path => by
    have ih := verifyPoiAux_cut ps (f := f) (g := g) (by omega)
    rw [verifyPoiAux, verifyPoiAux]
    refine .ite (.refl _) (.bind _ fun raw => .bind _ fun node => .bind _ fun n => .ite (.refl _) ?_)
    cases node with
    | leaf p d => exact .refl _
    | ext p r => exact .bind _ fun pre => .ite (.bind _ fun m => ih _ _) (.refl _)
    | branch bs d => exact .bind _ fun i => .bind _ fun b => .ite (ih _ _) (.refl _)

theorem verifyPoeAux_cut : ∀ {f g : Nat}, f ≤ g → ∀ ref path ps,
    Cut (verifyPoeAux f ref path ps) (verifyPoeAux g ref path ps)
  | 0, _, _, _, _, _ => .raise _
  | f + 1, 0, h, _, _, _ => by omega
  | f + 1, g + 1, h, ref, path, ps => by
    have ih := verifyPoeAux_cut (f := f) (g := g) (by omega)
    rw [verifyPoeAux, verifyPoeAux]
    refine .ite (.refl _) (.bind _ fun raw => .bind _ fun node => .ite (.refl _) (.bind _ fun n => .ite (.refl _) ?_))
    cases node with
    | leaf p d => exact .refl _
    | ext p r => exact .bind _ fun pre => .ite (.bind _ fun m => ih _ _ _) (.refl _)
    | branch bs d => exact .bind _ fun i => .bind _ fun b => .ite (ih _ _ _) (.refl _)

theorem updateAux_cut (E : Env) : ∀ {f g : Nat}, f ≤ g → ∀ ref path v,
    CutM (updateAux E f ref path v) (updateAux E g ref path v)
  | 0, _, _, _, _, _ => .raise _
  | f + 1, 0, h, _, _, _ => by omega
  | f + 1, g + 1, h, ref, path, v => by
    have ih := updateAux_cut E (f := f) (g := g) (by omega)
    rw [updateAux, updateAux]
    refine .ite (.refl _) (.bind_node _ fun node => ?_)
    cases node with
    | leaf p d => exact .refl _
    | ext p r => exact .bind_lift _ fun pre => .ite (.bind_lift _ fun m => .then (ih _ _ _) _) (.refl _)
    | branch bs d =>
      exact .bind_lift _ fun n => .ite (.refl _) (.bind_lift _ fun i => .bind_lift _ fun c => .then (ih _ _ _) _)

theorem deleteAux_cut (E : Env) : ∀ {f g : Nat}, f ≤ g → ∀ ref path,
    CutM (deleteAux E f ref path) (deleteAux E g ref path)
  | 0, _, _, _, _ => .raise _
  | f + 1, 0, h, _, _ => by omega
  | f + 1, g + 1, h, ref, path => by
    have ih := deleteAux_cut E (f := f) (g := g) (by omega)
    rw [deleteAux, deleteAux]
    refine .bind_node _ fun node => ?_
    cases node with
    | leaf p d => exact .refl _
    | ext p r => exact .bind_lift _ fun pre => .ite (.refl _) (.bind_lift _ fun m => .then (ih _ _) _)
    | branch bs d =>
      exact .bind_lift _ fun n => .ite (.refl _) (.ite (.refl _) (.ite (.refl _)
        (.bind_lift _ fun i => .bind_lift _ fun c => .ite (.refl _) (.then (ih _ _) _))))

theorem updateAux_env (E : Env) (n : Nat) : ∀ f, updateAux (E.withLimit n) f = updateAux E f
  | 0 => rfl
  | f + 1 => by
    funext ref path v
    rw [updateAux, updateAux, updateAux_env E n f]
    rfl

theorem deleteAux_env (E : Env) (n : Nat) : ∀ f, deleteAux (E.withLimit n) f = deleteAux E f
  | 0 => rfl
  | f + 1 => by
    funext ref path
    rw [deleteAux, deleteAux, deleteAux_env E n f]
    rfl

theorem proofStorage_env (E : Env) (n : Nat) : ∀ l acc, proofStorage (E.withLimit n) l acc = proofStorage E l acc
  | [], _ => rfl
  | enc :: l, acc => by
    rw [proofStorage, proofStorage]
    have ih := proofStorage_env E n l
    simp only [ih]
    rfl

theorem get_cut {E : Env} {n : Nat} (h : E.limit ≤ n) (t : MPT) (k : Bytes) : Cut (t.get E k) (t.get (E.withLimit n) k) := by
  unfold get
  exact .ite (.refl _) (.then (getAux_cut _ h _ _) _)

theorem contains_cut {E : Env} {n : Nat} (h : E.limit ≤ n) (t : MPT) (k : Bytes) :
    Cut (t.contains E k) (t.contains (E.withLimit n) k) := by
  unfold contains
  exact .ite (.refl _) (.then (containsAux_cut _ _ h _ _) _)

theorem getPoi_cut {E : Env} {n : Nat} (h : E.limit ≤ n) (now : Bytes) (t : MPT) (k : Bytes) :
    Cut (t.getPoi E now k) (t.getPoi (E.withLimit n) now k) := by
  unfold getPoi
  exact .ite (.refl _) (.then (getPoiAux_cut _ h _ _ _) _)

theorem verifyPoi_cut {E : Env} {n : Nat} (h : E.limit ≤ n) (t : MPT) (p : Proof Bytes) :
    Cut (t.verifyPoi E p) (t.verifyPoi (E.withLimit n) p) := by
  unfold verifyPoi
  refine .ite (.refl _) (.ite (.refl _) (.bind _ fun first => .ite (.refl _) ?_))
  rw [proofStorage_env]
  cases proofStorage E p.proof [] with
  | error e => cases e <;> exact .refl _
  | ok ps => exact .then (verifyPoiAux_cut _ h _ _) _

theorem getPoe_cut {E : Env} {n : Nat} (h : E.limit ≤ n) (now : Bytes) (t : MPT) (k : Bytes) :
    Cut (t.getPoe E now k) (t.getPoe (E.withLimit n) now k) := by
  unfold getPoe
  refine .ite (.refl _) ?_
  rcases contains_cut h t k with hc | hc
  · rw [hc]; exact .inl rfl
  · rw [hc]
    exact .bind _ fun present => .ite (.refl _) (.then (getPoeAux_cut _ h _ _ _) _)

theorem verifyPoe_cut {E : Env} {n : Nat} (h : E.limit ≤ n) (t : MPT) (p : Proof Bytes) :
    Cut (t.verifyPoe E p) (t.verifyPoe (E.withLimit n) p) := by
  unfold verifyPoe
  simp only [proofStorage_env]
  exact .ite (.refl _) (.ite (.refl _) (.bind _ fun first => .ite (.refl _) (.bind _ fun last =>
    .bind _ fun node => .bind _ fun d => .ite (.refl _) (.bind _ fun ps =>
      .then (verifyPoeAux_cut h _ _ _) _))))

theorem onStore_cut {α : Type} {m m' : M Store α} (h : CutM m m') : CutM (onStore m) (onStore m') := by
  intro t
  unfold onStore
  rcases h t.store with h | h
  · left; rw [h]
  · right; rw [h]

theorem update_cut {E : Env} {n : Nat} (h : E.limit ≤ n) (k v : Bytes) :
    CutM (update E k v) (update (E.withLimit n) k v) := by
  intro t
  unfold update
  rw [updateAux_env]
  exact CutM.then (onStore_cut (updateAux_cut E h (t.root.getD []) { data := t.keyOf E k } v))
    (fun result => M.modify (fun t => { t with root := some result })) t

theorem delete_cut {E : Env} {n : Nat} (h : E.limit ≤ n) (k : Bytes) :
    CutM (delete E k) (delete (E.withLimit n) k) := by
  intro t
  unfold delete
  rw [deleteAux_env]
  refine CutM.ite (c := t.noRoot E = true) (x := M.raise .valueError) (.refl _)
    (CutM.then (onStore_cut (deleteAux_cut E h (t.root.getD []) { data := t.keyOf E k })) _) t

theorem exec_cut {E : Env} {n : Nat} (h : E.limit ≤ n) (op : Op) : CutM (exec E op) (exec (E.withLimit n) op) := by
  cases op with
  | update k v => exact update_cut h k v
  | delete k => exact delete_cut h k

end MPT

/-! ### What else can go wrong -/

/-- The exceptions of the helpers of the walkers. -/
def helperErrs : List Err := [.valueError, .indexError, .rlpDecoding, .typeError, .assertion, .keyError]

/-- The exceptions of a computation with a state are among the listed ones. -/
def OnlyM {σ α : Type} (S : List Err) (m : M σ α) : Prop := ∀ s e, (m s).1 = .error e → e ∈ S

theorem OnlyM.lift {σ α : Type} {S : List Err} {m : Py α} (h : Only S m) : OnlyM S (M.lift (σ := σ) m) :=
  fun _ e he => h e he

theorem OnlyM.pure {σ α : Type} {S : List Err} (a : α) : OnlyM S (Pure.pure a : M σ α) := by
  intro s e h
  simp [M.pure_apply] at h

theorem OnlyM.raise {σ α : Type} {S : List Err} {e : Err} (h : e ∈ S) : OnlyM S (M.raise e : M σ α) := by
  intro s e' h'
  simp only [M.raise_apply, Except.error.injEq] at h'
  exact h' ▸ h

theorem OnlyM.bind {σ α β : Type} {S : List Err} {m : M σ α} {f : α → M σ β} (h : OnlyM S m)
    (h' : ∀ a, OnlyM S (f a)) : OnlyM S (m >>= f) := by
  intro s e he
  have hm := h s
  change (M.seq m f s).1 = _ at he
  unfold M.seq at he
  cases hr : m s with
  | mk r s' =>
    rw [hr] at he hm
    cases r with
    | error e' => simp only [Except.error.injEq] at he; exact hm e (by rw [he])
    | ok a => exact h' a s' e he

theorem OnlyM.ite {σ α : Type} {S : List Err} {c : Prop} [Decidable c] {x y : M σ α} (h : OnlyM S x) (h' : OnlyM S y) :
    OnlyM S (if c then x else y) := by
  split
  · exact h
  · exact h'

theorem OnlyM.mono {σ α : Type} {S S' : List Err} {m : M σ α} (h : OnlyM S m) (hs : ∀ e ∈ S, e ∈ S') : OnlyM S' m :=
  fun s e he => hs e (h s e he)

theorem Only.ite {α : Type} {S : List Err} {c : Prop} [Decidable c] {x y : Py α} (h : Only S x) (h' : Only S y) :
    Only S (if c then x else y) := by
  split
  · exact h
  · exact h'

theorem pyIndex_only' {α : Type} (l : List α) (i : Nat) : Only helperErrs (pyIndex l i) := by
  unfold pyIndex; split
  · exact .ok _
  · exact .err (by simp [helperErrs])

theorem pySet_only' {α : Type} (l : List α) (i : Nat) (x : α) : Only helperErrs (pySet l i x) := by
  unfold pySet; split
  · exact .ok _
  · exact .err (by simp [helperErrs])

theorem dgetItem_only' {α : Type} (d : Dict α) (k : Bytes) : Only helperErrs (dgetItem d k) := by
  unfold dgetItem; split
  · exact .ok _
  · exact .err (by simp [helperErrs])

theorem prepareForEncoding_only' (r : Bytes) : Only helperErrs (prepareForEncoding r) :=
  (prepareForEncoding_only r).mono (by simp [helperErrs])

theorem prepareAll_only' (rs : List Bytes) : Only helperErrs (prepareAll rs) :=
  (prepareAll_only rs).mono (by simp [helperErrs])

namespace NibblePath

theorem len_only' (p : NibblePath) : Only helperErrs p.len := by
  unfold len; split
  · exact .ok _
  · exact .err (by simp [helperErrs])

theorem nibbleAt_only' (p : NibblePath) (i : Nat) : Only helperErrs (p.nibbleAt i) := by
  unfold nibbleAt; simp only; split
  · exact .err (by simp [helperErrs])
  · exact .ok _

theorem sameFrom_only' (p q : NibblePath) : ∀ k i, Only helperErrs (sameFrom p q i k)
  | 0, i => by rw [sameFrom]; exact .ok _
  | k + 1, i => by
    rw [sameFrom]
    exact .bind (p.nibbleAt_only' i) fun a _ => .bind (q.nibbleAt_only' i) fun b _ =>
      .ite (.pure' _) (sameFrom_only' p q k (i + 1))

theorem eq_only' (p q : NibblePath) : Only helperErrs (p.eq q) := by
  unfold NibblePath.eq
  exact .bind p.len_only' fun n _ => .bind q.len_only' fun m _ => .ite (.pure' _) (sameFrom_only' p q _ _)

theorem startsWith_only' (p q : NibblePath) : Only helperErrs (p.startsWith q) := by
  unfold startsWith
  exact .bind q.len_only' fun n _ => .bind p.len_only' fun m _ => .ite (.pure' _) (sameFrom_only' p q _ _)

theorem packFrom_only' {f : Nat → Py Nat} (h : ∀ i, Only helperErrs (f i)) : ∀ k i, Only helperErrs (packFrom f i k)
  | 0, i => by rw [packFrom]; exact .ok _
  | k + 1, i => by
    rw [packFrom]
    exact .bind (h _) fun a _ => .bind (h _) fun b _ => .bind (packFrom_only' h k _) fun r _ => .pure' _

theorem createNew_only' {f : Nat → Py Nat} (h : ∀ i, Only helperErrs (f i)) (n : Nat) : Only helperErrs (createNew f n) := by
  unfold createNew
  exact .ite (.bind (h _) fun a _ => .bind (packFrom_only' h _ _) fun r _ => .pure' _)
    (.bind (packFrom_only' h _ _) fun r _ => .pure' _)

theorem commonFrom_only' (p q : NibblePath) : ∀ k i, Only helperErrs (commonFrom p q i k)
  | 0, i => by rw [commonFrom]; exact .ok _
  | k + 1, i => by
    rw [commonFrom]
    exact .bind (p.nibbleAt_only' i) fun a _ => .bind (q.nibbleAt_only' i) fun b _ =>
      .ite (.pure' _) (.bind (commonFrom_only' p q k (i + 1)) fun n _ => .pure' _)

theorem commonPrefix_only' (p q : NibblePath) : Only helperErrs (p.commonPrefix q) := by
  unfold commonPrefix
  exact .bind p.len_only' fun n _ => .bind q.len_only' fun m _ => .bind (commonFrom_only' p q _ _) fun c _ =>
    createNew_only' p.nibbleAt_only' _

theorem encode_only' (p : NibblePath) (l : Bool) : Only helperErrs (p.encode l) := by
  unfold encode
  exact .bind p.len_only' fun n _ => .ite
    (.bind (p.nibbleAt_only' _) fun a _ => .bind (packFrom_only' p.nibbleAt_only' _ _) fun r _ => .pure' _)
    (.bind (packFrom_only' p.nibbleAt_only' _ _) fun r _ => .pure' _)

theorem chainedAt_only' (p q : NibblePath) (i : Nat) : Only helperErrs (chainedAt p q i) := by
  unfold chainedAt
  exact .bind p.len_only' fun n _ => .ite (p.nibbleAt_only' _) (q.nibbleAt_only' _)

theorem combine_only' (p q : NibblePath) : Only helperErrs (p.combine q) := by
  unfold combine
  exact .bind p.len_only' fun n _ => .bind q.len_only' fun m _ => createNew_only' (chainedAt_only' p q) _

end NibblePath

theorem Node.encode_only' (n : Node) : Only helperErrs n.encode := by
  cases n with
  | leaf p d => rw [Node.encode]; exact .bind (p.encode_only' _) fun a _ => .pure' _
  | ext p r =>
    rw [Node.encode]
    exact .bind (prepareForEncoding_only' _) fun a _ => .bind (p.encode_only' _) fun a _ => .pure' _
  | branch bs d => rw [Node.encode]; exact .bind (prepareAll_only' _) fun a _ => .pure' _

theorem Node.intoReference_only' (E : Env) (n : Node) : Only helperErrs (n.intoReference E) := by
  unfold Node.intoReference
  exact .bind n.encode_only' fun a _ => .ite (.pure' _) (.pure' _)

namespace MPT

theorem getNode_only' (kv : Dict Bytes) (ref : Bytes) : Only helperErrs (getNode kv ref) := by
  unfold getNode
  have hd : ∀ raw, Only helperErrs (Node.decode raw) := fun raw => (decode_only raw).mono (by simp [helperErrs])
  exact .ite (.bind (dgetItem_only' _ _) fun raw _ => hd raw) (.bind (.ok _) fun raw _ => hd raw)

theorem getNodeM_only' (ref : Bytes) : OnlyM helperErrs (getNodeM ref) :=
  fun s e he => getNode_only' s.kv ref e he

theorem storeNode_only' (E : Env) (n : Node) : OnlyM helperErrs (storeNode E n) := by
  unfold storeNode
  refine .bind (.lift (n.intoReference_only' E)) fun ref => .ite (.bind (.lift n.encode_only') fun enc => ?_) (.pure _)
  exact .bind (fun s e he => by simp [M.modify_apply] at he) fun _ => .pure _

theorem createBranchLeaf_only' (E : Env) (p : NibblePath) (v : Bytes) (bs : List Bytes) :
    OnlyM helperErrs (createBranchLeaf E p v bs) := by
  unfold createBranchLeaf
  exact .bind (.lift p.len_only') fun n => .ite (.bind (.lift (p.nibbleAt_only' _)) fun i =>
    .bind (storeNode_only' E _) fun r => .lift (pySet_only' _ _ _)) (.pure _)

theorem createBranchExtension_only' (E : Env) (p : NibblePath) (r : Bytes) (bs : List Bytes) :
    OnlyM helperErrs (createBranchExtension E p r bs) := by
  unfold createBranchExtension
  exact .bind (.lift p.len_only') fun n => .ite (.raise (by simp [helperErrs]))
    (.ite (.bind (.lift (p.nibbleAt_only' _)) fun i => .lift (pySet_only' _ _ _))
      (.bind (.lift (p.nibbleAt_only' _)) fun i => .bind (storeNode_only' E _) fun r => .lift (pySet_only' _ _ _)))

theorem createBranchNode_only' (E : Env) (p : NibblePath) (v : Bytes) (q : NibblePath) (w : Bytes) :
    OnlyM helperErrs (createBranchNode E p v q w) := by
  unfold createBranchNode
  exact .bind (.lift p.len_only') fun a => .bind (.lift q.len_only') fun b => .ite (.raise (by simp [helperErrs]))
    (.bind (createBranchLeaf_only' E _ _ _) fun bs => .bind (createBranchLeaf_only' E _ _ _) fun bs =>
      storeNode_only' E _)

/-- The exceptions of `_update`. -/
theorem updateAux_only (E : Env) : ∀ f ref path v, OnlyM (.recursion :: helperErrs) (updateAux E f ref path v)
  | 0, _, _, _ => by rw [updateAux]; exact .raise (by simp)
  | f + 1, ref, path, v => by
    have ih := updateAux_only E f
    have up : ∀ {α : Type} {m : M Store α}, OnlyM helperErrs m → OnlyM (.recursion :: helperErrs) m :=
      fun h => h.mono fun e he => List.mem_cons_of_mem _ he
    rw [updateAux]
    refine .ite (up (storeNode_only' E _)) (.bind (up (getNodeM_only' ref)) fun node => ?_)
    cases node with
    | leaf p d =>
      exact .bind (up (.lift (p.eq_only' _))) fun s => .ite (up (storeNode_only' E _))
        (.bind (up (.lift (path.commonPrefix_only' _))) fun c => .bind (up (.lift c.len_only')) fun n =>
          .bind (up (createBranchNode_only' E _ _ _ _)) fun r => .ite (up (storeNode_only' E _)) (.pure _))
    | ext p r =>
      exact .bind (up (.lift (path.startsWith_only' _))) fun s => .ite
        (.bind (up (.lift p.len_only')) fun m => .bind (ih _ _ _) fun r => up (storeNode_only' E _))
        (.bind (up (.lift (path.commonPrefix_only' _))) fun c => .bind (up (.lift c.len_only')) fun n =>
          .bind (up (.lift (NibblePath.len_only' _))) fun n => .bind (up (createBranchLeaf_only' E _ _ _)) fun bs =>
          .bind (up (createBranchExtension_only' E _ _ _)) fun bs =>
          .bind (up (storeNode_only' E _)) fun r => .ite (up (storeNode_only' E _)) (.pure _))
    | branch bs d =>
      exact .bind (up (.lift path.len_only')) fun n => .ite (up (storeNode_only' E _))
        (.bind (up (.lift (path.nibbleAt_only' _))) fun i => .bind (up (.lift (pyIndex_only' _ _))) fun c =>
          .bind (ih _ _ _) fun r => .bind (up (.lift (pySet_only' _ _ _))) fun bs => up (storeNode_only' E _))

theorem buildFromLastBranch_only' (E : Env) (bs : List Bytes) : OnlyM helperErrs (buildFromLastBranch E bs) := by
  unfold buildFromLastBranch
  refine .bind (.lift (pyIndex_only' _ _)) fun c => .bind (getNodeM_only' _) fun node => ?_
  cases node with
  | leaf p d =>
    exact .bind (.lift (NibblePath.combine_only' _ _)) fun p => .bind (storeNode_only' E _) fun r => .pure _
  | ext p r =>
    exact .bind (.lift (NibblePath.combine_only' _ _)) fun p => .bind (storeNode_only' E _) fun r => .pure _
  | branch bs d => exact .bind (storeNode_only' E _) fun r => .pure _

theorem afterDeleted_only' (E : Env) (bs : List Bytes) (d : Bytes) : OnlyM helperErrs (afterDeleted E bs d) := by
  unfold afterDeleted
  exact .ite (.pure _) (.ite (.bind (storeNode_only' E _) fun r => .pure _)
    (.ite (buildFromLastBranch_only' E _) (.bind (storeNode_only' E _) fun r => .pure _)))

/-- The exceptions of `_delete`. -/
theorem deleteAux_only (E : Env) : ∀ f ref path,
    OnlyM (.recursion :: .leafPath :: .extensionPath :: .branchPath :: helperErrs) (deleteAux E f ref path)
  | 0, _, _ => by rw [deleteAux]; exact .raise (by simp)
  | f + 1, ref, path => by
    have ih := deleteAux_only E f
    have up : ∀ {α : Type} {m : M Store α}, OnlyM helperErrs m →
        OnlyM (.recursion :: .leafPath :: .extensionPath :: .branchPath :: helperErrs) m :=
      fun h => h.mono fun e he => by simp [he]
    rw [deleteAux]
    refine .bind (up (getNodeM_only' ref)) fun node => ?_
    cases node with
    | leaf p d => exact .bind (up (.lift (path.eq_only' _))) fun s => .ite (.pure _) (.raise (by simp))
    | ext p r =>
      refine .bind (up (.lift (path.startsWith_only' _))) fun s => .ite (.raise (by simp))
        (.bind (up (.lift p.len_only')) fun m => .bind (ih _ _) fun a => ?_)
      cases a with
      | deleted => exact .pure _
      | updated r => exact .bind (up (storeNode_only' E _)) fun r => .pure _
      | useless q r =>
        refine .bind (up (getNodeM_only' _)) fun node => ?_
        cases node with
        | leaf p d =>
          exact .bind (up (.lift (NibblePath.combine_only' _ _))) fun p => .bind (up (storeNode_only' E _)) fun r => .pure _
        | ext p r =>
          exact .bind (up (.lift (NibblePath.combine_only' _ _))) fun p => .bind (up (storeNode_only' E _)) fun r => .pure _
        | branch bs d =>
          exact .bind (up (.lift (NibblePath.combine_only' _ _))) fun p => .bind (up (storeNode_only' E _)) fun r => .pure _
    | branch bs d =>
      refine .bind (up (.lift path.len_only')) fun n => .ite (.raise (by simp [helperErrs])) (.ite (.raise (by simp))
        (.ite (up (afterDeleted_only' E _ _)) (.bind (up (.lift (path.nibbleAt_only' _))) fun i =>
          .bind (up (.lift (pyIndex_only' _ _))) fun c => .ite (.raise (by simp)) (.bind (ih _ _) fun a => ?_))))
      cases a with
      | deleted => exact .bind (up (.lift (pySet_only' _ _ _))) fun bs => up (afterDeleted_only' E _ _)
      | updated r =>
        exact .bind (up (.lift (pySet_only' _ _ _))) fun bs => .bind (up (storeNode_only' E _)) fun r => .pure _
      | useless q r =>
        exact .bind (up (.lift (pySet_only' _ _ _))) fun bs => .bind (up (storeNode_only' E _)) fun r => .pure _

/-! ### A RecursionError changes nothing -/

end MPT

/-- A RecursionError leaves the state unchanged. -/
def Still {σ α : Type} (m : M σ α) : Prop := ∀ s, (m s).1 = .error .recursion → (m s).2 = s

theorem Still.free {σ α : Type} {m : M σ α} (h : OnlyM helperErrs m) : Still m := by
  intro s hs
  exact absurd (h s _ hs) (by simp [helperErrs])

theorem Still.then {σ α β : Type} {m : M σ α} {f : α → M σ β} (h : Still m) (hf : ∀ a, OnlyM helperErrs (f a)) :
    Still (m >>= f) := by
  intro s hs
  have hm := h s
  change (M.seq m f s).1 = _ at hs
  change (M.seq m f s).2 = _
  unfold M.seq at hs ⊢
  cases hr : m s with
  | mk r s' =>
    rw [hr] at hs hm
    cases r with
    | error e => simp only [Except.error.injEq] at hs; exact hm (by rw [hs])
    | ok a => exact absurd (hf a s' _ hs) (by simp [helperErrs])

theorem Still.bind_lift {σ α β : Type} (m : Py α) {f : α → M σ β} (hf : ∀ a, Still (f a)) :
    Still (M.lift m >>= f) := by
  intro s hs
  cases m with
  | error e => rfl
  | ok a => exact hf a s hs

theorem Still.bind_node {β : Type} (ref : Bytes) {f : Node → M Store β} (hf : ∀ a, Still (f a)) :
    Still (MPT.getNodeM ref >>= f) := by
  intro s
  have : (MPT.getNodeM ref >>= f) s = (M.lift (MPT.getNode s.kv ref) >>= f) s := rfl
  rw [this]
  exact Still.bind_lift _ hf s

theorem Still.ite {σ α : Type} {c : Prop} [Decidable c] {x y : M σ α} (h : Still x) (h' : Still y) :
    Still (if c then x else y) := by
  split
  · exact h
  · exact h'

theorem Still.raise {σ α : Type} (e : Err) : Still (M.raise e : M σ α) := fun _ _ => rfl
theorem Still.pure {σ α : Type} (a : α) : Still (Pure.pure a : M σ α) := fun _ _ => rfl

namespace MPT

theorem updateAux_still (E : Env) : ∀ f ref path v, Still (updateAux E f ref path v)
  | 0, _, _, _ => by rw [updateAux]; exact .raise _
  | f + 1, ref, path, v => by
    have ih := updateAux_still E f
    rw [updateAux]
    refine .ite (.free (storeNode_only' E _)) (.bind_node _ fun node => ?_)
    cases node with
    | leaf p d =>
      exact .free (.bind (.lift (p.eq_only' _)) fun s => .ite (storeNode_only' E _)
        (.bind (.lift (path.commonPrefix_only' _)) fun c => .bind (.lift c.len_only') fun n =>
          .bind (createBranchNode_only' E _ _ _ _) fun r => .ite (storeNode_only' E _) (.pure _)))
    | ext p r =>
      exact .bind_lift _ fun s => .ite
        (.bind_lift _ fun m => .then (ih _ _ _) fun r => storeNode_only' E _)
        (.free (.bind (.lift (path.commonPrefix_only' _)) fun c => .bind (.lift c.len_only') fun n =>
          .bind (.lift (NibblePath.len_only' _)) fun n => .bind (createBranchLeaf_only' E _ _ _) fun bs =>
          .bind (createBranchExtension_only' E _ _ _) fun bs =>
          .bind (storeNode_only' E _) fun r => .ite (storeNode_only' E _) (.pure _)))
    | branch bs d =>
      exact .bind_lift _ fun n => .ite (.free (storeNode_only' E _))
        (.bind_lift _ fun i => .bind_lift _ fun c =>
          .then (ih _ _ _) fun r => .bind (.lift (pySet_only' _ _ _)) fun bs => storeNode_only' E _)

theorem deleteAux_still (E : Env) : ∀ f ref path, Still (deleteAux E f ref path)
  | 0, _, _ => by rw [deleteAux]; exact .raise _
  | f + 1, ref, path => by
    have ih := deleteAux_still E f
    rw [deleteAux]
    refine .bind_node _ fun node => ?_
    cases node with
    | leaf p d => exact .bind_lift _ fun s => .ite (.pure _) (.raise _)
    | ext p r =>
      refine .bind_lift _ fun s => .ite (.raise _) (.bind_lift _ fun m => .then (ih _ _) fun a => ?_)
      cases a with
      | deleted => exact .pure _
      | updated r => exact .bind (storeNode_only' E _) fun r => .pure _
      | useless q r =>
        refine .bind (getNodeM_only' _) fun node => ?_
        cases node with
        | leaf p d =>
          exact .bind (.lift (NibblePath.combine_only' _ _)) fun p => .bind (storeNode_only' E _) fun r => .pure _
        | ext p r =>
          exact .bind (.lift (NibblePath.combine_only' _ _)) fun p => .bind (storeNode_only' E _) fun r => .pure _
        | branch bs d =>
          exact .bind (.lift (NibblePath.combine_only' _ _)) fun p => .bind (storeNode_only' E _) fun r => .pure _
    | branch bs d =>
      refine .bind_lift _ fun n => .ite (.raise _) (.ite (.raise _)
        (.ite (.free (afterDeleted_only' E _ _)) (.bind_lift _ fun i =>
          .bind_lift _ fun c => .ite (.raise _) (.then (ih _ _) fun a => ?_))))
      cases a with
      | deleted => exact .bind (.lift (pySet_only' _ _ _)) fun bs => afterDeleted_only' E _ _
      | updated r =>
        exact .bind (.lift (pySet_only' _ _ _)) fun bs => .bind (storeNode_only' E _) fun r => .pure _
      | useless q r =>
        exact .bind (.lift (pySet_only' _ _ _)) fun bs => .bind (storeNode_only' E _) fun r => .pure _

theorem onStore_still {α : Type} {m : M Store α} (h : Still m) : Still (onStore m) := by
  intro t ht
  have := h t.store ht
  show ({ t with store := (m t.store).2 } : MPT) = t
  rw [this]

theorem update_still (E : Env) (k v : Bytes) : Still (update E k v) := by
  intro t
  refine Still.then (onStore_still (updateAux_still E E.limit (t.root.getD []) { data := t.keyOf E k } v))
    (f := fun result => M.modify (fun t => { t with root := some result })) ?_ t
  intro a s e he
  simp [M.modify_apply] at he

theorem delete_still (E : Env) (k : Bytes) : Still (delete E k) := by
  intro t
  refine Still.ite (c := t.noRoot E = true) (x := M.raise .valueError) (.raise _)
    (Still.then (onStore_still (deleteAux_still E E.limit (t.root.getD []) { data := t.keyOf E k })) ?_) t
  intro a s e he
  cases a <;> simp [M.modify_apply] at he

theorem exec_still (E : Env) (op : Op) : Still (exec E op) := by
  cases op with
  | update k v => exact update_still E k v
  | delete k => exact delete_still E k

theorem run_done {E : Env} {n : Nat} (h : E.limit ≤ n) : ∀ (ops : List Op) (t : MPT),
    run E ops t = run (E.withLimit n) (done E ops t) t
  | [], _ => rfl
  | op :: ops, t => by
    have ih := run_done h ops
    show run E ops (exec E op t).2 = _
    rw [done]
    rcases exec_cut h op t with hr | hr
    · rw [if_pos (by rw [hr]), hr, ih]
    · by_cases hc : (exec E op t).1 = .error .recursion
      · rw [if_pos hc, ih, exec_still E op t hc]
      · rw [if_neg hc, ih, hr]
        rfl

end MPT
end Pymt
