import Verif.Spec.Collect
import Verif.Lemmas.Evolve
import Verif.Lemmas.Joint
import Verif.Lemmas.Light

/-!
# Nodes in use
-/

namespace Pymt

/-- Run on a smaller storage, `m` raises KeyError or does the same, and it writes no more. -/
def ShadowM {α : Type} (m : M Store α) : Prop := ∀ s S, Sub s S →
  (∀ x ∈ S.written, x ∈ (m S).2.written) ∧
  (∀ x ∈ (m s).2.written, x ∈ s.written ∨ x ∈ (m S).2.written) ∧
  ((m s).1 = .error .keyError ∨ ((m s).1 = (m S).1 ∧ Sub (m s).2 (m S).2))

namespace ShadowM
variable {E : Env} {α β : Type}

theorem const {m : M Store α} (r : Py α) (h : ∀ st, m st = (r, st)) : ShadowM m := fun s S hs => by
  rw [h, h]; exact ⟨fun _ hx => hx, fun _ hx => .inl hx, .inr ⟨rfl, hs⟩⟩

theorem pure (a : α) : ShadowM (Pure.pure a : M Store α) := const _ fun _ => rfl
theorem lift (m : Py α) : ShadowM (M.lift m : M Store α) := const _ fun _ => rfl
theorem raise (e : Err) : ShadowM (M.raise e : M Store α) := const _ fun _ => rfl

theorem bind {m : M Store α} {f : α → M Store β} (hm : ShadowM m) (hf : ∀ a, ShadowM (f a)) :
    ShadowM (m >>= f) := by
  intro s S hs
  obtain ⟨h1, h2, h3⟩ := hm s S hs
  simp only [M.bind_apply]
  revert h1 h2 h3
  cases m s with
  | mk r u =>
    cases m S with
    | mk r' U =>
      intro h1 h2 h3
      simp only at h1 h2 h3
      rcases h3 with rfl | ⟨rfl, h3⟩
      · cases r' with
        | error e => exact ⟨h1, h2, .inl rfl⟩
        | ok a =>
          have mono := (hf a U U (Sub.refl _)).1
          exact ⟨fun x hx => mono x (h1 x hx), fun x hx => (h2 x hx).imp id (mono x), .inl rfl⟩
      · cases r with
        | error e => exact ⟨h1, h2, .inr ⟨rfl, h3⟩⟩
        | ok a =>
          obtain ⟨g1, g2, g3⟩ := hf a u U h3
          refine ⟨fun x hx => g1 x (h1 x hx), fun x hx => ?_, g3⟩
          rcases g2 x hx with hx | hx
          · exact (h2 x hx).imp id (g1 x)
          · exact .inr hx

theorem getNodeM (ref : Bytes) : ShadowM (MPT.getNodeM ref) := by
  intro s S hs
  refine ⟨fun _ hx => hx, fun _ hx => .inl hx, ?_⟩
  unfold MPT.getNodeM MPT.getNode
  split
  · cases hd : dget s.kv ref with
    | none => left; simp [dgetItem, hd]
    | some v =>
      right
      refine ⟨?_, hs⟩
      simp only [dgetItem, M.bind_apply, M.get_apply, M.lift_apply, hd, hs _ _ hd]
  · exact .inr ⟨rfl, hs⟩

theorem storeNode (n : Node) : ShadowM (MPT.storeNode E n) := by
  unfold MPT.storeNode
  refine (lift _).bind fun r => ?_
  split
  · refine (lift _).bind fun enc => ?_
    intro s S hs
    refine ⟨fun x hx => ?_, fun x hx => ?_, .inr ⟨rfl, ?_⟩⟩
    · exact List.mem_append_left _ hx
    · rcases List.mem_append.1 hx with hx | hx
      · exact .inl hx
      · exact .inr (List.mem_append_right _ hx)
    · intro k v hk
      have hk : dget (s.set r enc).kv k = some v := hk
      show dget (S.set r enc).kv k = some v
      simp only [Store.set, dget_dset] at hk ⊢
      split
      · rename_i e; rw [if_pos e] at hk; exact hk
      · rename_i e; rw [if_neg e] at hk; exact hs _ _ hk
  · exact pure _

theorem createBranchLeaf (path : NibblePath) (v : Bytes) (bs : List Bytes) :
    ShadowM (MPT.createBranchLeaf E path v bs) := by
  unfold MPT.createBranchLeaf
  refine (lift _).bind fun n => ?_
  split
  · exact (lift _).bind fun _ => (storeNode _).bind fun _ => lift _
  · exact pure _

theorem createBranchExtension (path : NibblePath) (r : Bytes) (bs : List Bytes) :
    ShadowM (MPT.createBranchExtension E path r bs) := by
  unfold MPT.createBranchExtension
  refine (lift _).bind fun n => ?_
  split
  · exact raise _
  · split
    · exact (lift _).bind fun _ => lift _
    · exact (lift _).bind fun _ => (storeNode _).bind fun _ => lift _

theorem createBranchNode (pa : NibblePath) (va : Bytes) (pb : NibblePath) (vb : Bytes) :
    ShadowM (MPT.createBranchNode E pa va pb vb) := by
  unfold MPT.createBranchNode
  refine (lift _).bind fun a => (lift _).bind fun b => ?_
  split
  · exact raise _
  · exact (createBranchLeaf _ _ _).bind fun _ => (createBranchLeaf _ _ _).bind fun _ => storeNode _

theorem updateAux (f : Nat) (ref : Bytes) (path : NibblePath) (v : Bytes) :
    ShadowM (MPT.updateAux E f ref path v) := by
  induction f generalizing ref path with
  | zero => exact raise _
  | succ f ih =>
    unfold MPT.updateAux
    split
    · exact storeNode _
    refine (getNodeM _).bind fun node => ?_
    split
    · refine (lift _).bind fun same => ?_
      split
      · exact storeNode _
      · refine (lift _).bind fun c => (lift _).bind fun n => (createBranchNode _ _ _ _).bind fun r => ?_
        split
        · exact storeNode _
        · exact pure _
    · refine (lift _).bind fun pre => ?_
      split
      · exact (lift _).bind fun _ => (ih _ _).bind fun _ => storeNode _
      · refine (lift _).bind fun c => (lift _).bind fun n => (lift _).bind fun m =>
          (createBranchLeaf _ _ _).bind fun _ => (createBranchExtension _ _ _).bind fun _ =>
          (storeNode _).bind fun r => ?_
        split
        · exact storeNode _
        · exact pure _
    · refine (lift _).bind fun n => ?_
      split
      · exact storeNode _
      · exact (lift _).bind fun _ => (lift _).bind fun _ => (ih _ _).bind fun _ =>
          (lift _).bind fun _ => storeNode _

theorem buildFromLastBranch (bs : List Bytes) : ShadowM (MPT.buildFromLastBranch E bs) := by
  unfold MPT.buildFromLastBranch
  refine (lift _).bind fun r => (getNodeM _).bind fun n => ?_
  split
  · exact (lift _).bind fun _ => (storeNode _).bind fun _ => pure _
  · exact (lift _).bind fun _ => (storeNode _).bind fun _ => pure _
  · exact (storeNode _).bind fun _ => pure _

theorem afterDeleted (bs : List Bytes) (d : Bytes) : ShadowM (MPT.afterDeleted E bs d) := by
  unfold MPT.afterDeleted
  simp only
  split
  · exact pure _
  · split
    · exact (storeNode _).bind fun _ => pure _
    · split
      · exact buildFromLastBranch _
      · exact (storeNode _).bind fun _ => pure _

theorem deleteAux (f : Nat) (ref : Bytes) (path : NibblePath) :
    ShadowM (MPT.deleteAux E f ref path) := by
  induction f generalizing ref path with
  | zero => exact raise _
  | succ f ih =>
    unfold MPT.deleteAux
    refine (getNodeM _).bind fun node => ?_
    split
    · refine (lift _).bind fun same => ?_
      split
      · exact pure _
      · exact raise _
    · refine (lift _).bind fun pre => ?_
      split
      · exact raise _
      · refine (lift _).bind fun m => (ih _ _).bind fun act => ?_
        split
        · exact pure _
        · exact (storeNode _).bind fun _ => pure _
        · refine (getNodeM _).bind fun n => ?_
          split <;> exact (lift _).bind fun _ => (storeNode _).bind fun _ => pure _
    · refine (lift _).bind fun n => ?_
      split
      · exact raise _
      · split
        · exact raise _
        · split
          · exact afterDeleted _ _
          · refine (lift _).bind fun i => (lift _).bind fun c => ?_
            split
            · exact raise _
            · refine (ih _ _).bind fun act => ?_
              split
              · exact (lift _).bind fun _ => afterDeleted _ _
              · exact (lift _).bind fun _ => (storeNode _).bind fun _ => pure _
              · exact (lift _).bind fun _ => (storeNode _).bind fun _ => pure _

end ShadowM

/-- `t'` has root and mode of `t` and a part of its storage. -/
structure Under (t' t : MPT) : Prop where
  root : t'.root = t.root
  secure : t'.secure = t.secure
  sub : Sub t'.store t.store
  log : ∀ x ∈ t'.store.written, x ∈ t.store.written

theorem Under.alike {t' t : MPT} (h : Under t' t) : Alike t' t :=
  ⟨h.root, h.secure, fun k v w hv hw => by rw [h.sub k v hv] at hw; injection hw⟩

theorem Under.exec {E : Env} {t' t : MPT} (h : Under t' t) (op : Op) :
    (∀ x ∈ (MPT.exec E op t').2.store.written, x ∈ (MPT.exec E op t).2.store.written) ∧
    ((MPT.exec E op t').1 = .error .keyError ∨
      ((MPT.exec E op t').1 = (MPT.exec E op t).1 ∧ Under (MPT.exec E op t').2 (MPT.exec E op t).2)) := by
  have hkey : ∀ k, t'.keyOf E k = t.keyOf E k := fun k => h.alike.keyOf k
  cases op with
  | update k v =>
    simp only [MPT.exec]
    rw [T.update_eq, T.update_eq, h.root, hkey]
    have := ShadowM.updateAux (E := E) E.limit (t.root.getD []) ⟨t.keyOf E k, 0⟩ v _ _ h.sub
    revert this
    cases MPT.updateAux E E.limit (t.root.getD []) ⟨t.keyOf E k, 0⟩ v t'.store with
    | mk r s =>
      cases MPT.updateAux E E.limit (t.root.getD []) ⟨t.keyOf E k, 0⟩ v t.store with
      | mk r' S =>
        rintro ⟨h1, h2, h3⟩
        simp only at h1 h2 h3
        have hw : ∀ x ∈ s.written, x ∈ S.written := fun x hx => (h2 x hx).elim (fun hx => h1 x (h.log x hx)) id
        rcases h3 with rfl | ⟨rfl, h3⟩
        · refine ⟨?_, .inl rfl⟩
          cases r' <;> exact hw
        · cases r with
          | error e => exact ⟨hw, .inr ⟨rfl, rfl, h.secure, h3, hw⟩⟩
          | ok a => exact ⟨hw, .inr ⟨rfl, rfl, h.secure, h3, hw⟩⟩
  | delete k =>
    simp only [MPT.exec]
    rw [T.delete_eq, T.delete_eq, h.root, hkey]
    rw [show t'.noRoot E = t.noRoot E by unfold MPT.noRoot; rw [h.root]]
    split
    · exact ⟨h.log, .inr ⟨rfl, h⟩⟩
    have := ShadowM.deleteAux (E := E) E.limit (t.root.getD []) ⟨t.keyOf E k, 0⟩ _ _ h.sub
    revert this
    cases MPT.deleteAux E E.limit (t.root.getD []) ⟨t.keyOf E k, 0⟩ t'.store with
    | mk r s =>
      cases MPT.deleteAux E E.limit (t.root.getD []) ⟨t.keyOf E k, 0⟩ t.store with
      | mk r' S =>
        rintro ⟨h1, h2, h3⟩
        simp only at h1 h2 h3
        have hw : ∀ x ∈ s.written, x ∈ S.written := fun x hx => (h2 x hx).elim (fun hx => h1 x (h.log x hx)) id
        rcases h3 with rfl | ⟨rfl, h3⟩
        · refine ⟨?_, .inl rfl⟩
          cases r' <;> exact hw
        · cases r with
          | error e => exact ⟨hw, .inr ⟨rfl, rfl, h.secure, h3, hw⟩⟩
          | ok a => exact ⟨hw, .inr ⟨rfl, rfl, h.secure, h3, hw⟩⟩

namespace T

/-- The children of a node. -/
def Child : T → T → Prop
  | empty, _ => False
  | leaf _ _, _ => False
  | ext _ c, y => y = c
  | branch cs _, y => ∃ i, y = cs i

theorem Child.stored {E : Env} {d : Dict Bytes} {a y : T} (h : Child a y) (hs : Stored E d a) : Stored E d y := by
  cases a with
  | empty => exact h.elim
  | leaf => exact h.elim
  | ext p c => cases h; exact hs.2
  | branch cs v => obtain ⟨i, rfl⟩ := h; exact hs.2 i

theorem Stored.size {E : Env} {d : Dict Bytes} {a : T} (hs : Stored E d a) (hne : a ≠ empty) :
    (enc E a).length < 2 ^ 64 := by
  rcases hs.here hne with h | h
  · omega
  · exact h.2

/-- A node mentions its children. -/
theorem Child.mentions {E : Env} {a y : T} (h : Child a y) (hsz : (enc E a).length < 2 ^ 64) :
    Mentions (enc E a) (ref E y) := by
  have hne : a ≠ empty := by rintro rfl; exact h
  obtain ⟨n, h1, h2⟩ := decode_enc hne hsz
  cases a with
  | empty => exact h.elim
  | leaf => exact h.elim
  | ext p c =>
    cases h
    cases n with
    | ext np r =>
      obtain ⟨_, _, rfl⟩ := h2
      exact .ext h1
    | leaf => exact h2.elim
    | branch => exact h2.elim
  | branch cs v =>
    obtain ⟨i, rfl⟩ := h
    cases n with
    | branch bs d =>
      obtain ⟨rfl, _⟩ := h2
      exact .branch h1 (List.mem_map.2 ⟨i, List.mem_finRange i, rfl⟩)
    | leaf => exact h2.elim
    | ext => exact h2.elim

/-- Nothing else is needed: a storage with all that can be reached has the trie. -/
theorem Stored.kept {E : Env} {d d' : Dict Bytes} {a : T} (hs : Stored E d a) {P : Bytes → Prop}
    (hash : ∀ r w r', P r → r.length = 32 → dget d r = some w → Mentions w r' → P r')
    (inl : ∀ r r', P r → r.length < 32 → Mentions r r' → P r')
    (hk : ∀ r, P r → r.length = 32 → dget d' r = dget d r) (hr : P (ref E a)) : Stored E d' a := by
  have down : ∀ a y, Stored E d a → a ≠ empty → P (ref E a) → Child a y → P (ref E y) := by
    intro a y hs hne hp hc
    have hm := hc.mentions (E := E) (hs.size hne)
    rw [ref_of_ne hne] at hp
    split at hp
    · rename_i hl
      exact inl _ _ hp hl hm
    · rename_i hl
      rcases hs.here hne with h | h
      · exact absurd h hl
      · exact hash _ _ _ hp (E.keccak_len _) h.1 hm
  have here : ∀ a, Stored E d a → a ≠ empty → P (ref E a) → Here E d' a := by
    intro a hs hne hp
    rcases hs.here hne with h | h
    · exact .inl h
    · by_cases hl : (enc E a).length < 32
      · exact .inl hl
      · rw [ref_of_ne hne, if_neg hl] at hp
        exact .inr ⟨by rw [hk _ hp (E.keccak_len _)]; exact h.1, h.2⟩
  induction a with
  | empty => trivial
  | leaf p v => exact here _ hs (by simp) hr
  | ext p c ih => exact ⟨here _ hs (by simp) hr, ih hs.2 (down _ c hs (by simp) hr rfl)⟩
  | branch cs v ih =>
    exact ⟨here _ hs (by simp) hr, fun i => ih i (hs.2 i) (down _ (cs i) hs (by simp) hr ⟨i, rfl⟩)⟩

theorem Holds.collected {E : Env} {t t' : MPT} {a : T} (h : Holds E t a) (hc : Collected t t') : Holds E t' a := by
  refine ⟨h.shape, ?_, fun k v hk => ?_, hc.root ▸ h.root⟩
  · rcases h.root with ⟨rfl, _⟩ | ⟨hne, hr⟩
    · trivial
    · exact h.stored.kept (P := Reaches t.store.kv (ref E a)) (fun r w r' h1 h2 h3 h4 => .hash h1 h2 h3 h4)
        (fun r r' h1 h2 h3 => .inline h1 h2 h3) (fun r h1 h2 => hc.keep _ hr r h2 h1) .root
  · obtain ⟨h1, h2⟩ := h.good k v (hc.less k v hk)
    exact ⟨h1, hc.log ▸ h2⟩

end T

theorem Bears.collected {E : Env} {t t' : MPT} {a : T} (h : Bears E t a) (hc : Collected t t') : Bears E t' a :=
  ⟨h.holds.collected hc, h.full⟩

/-- The trie with removals is a part of the trie without, and does the same. -/
theorem Tidy.under {E : Env} {secure : Bool} {ops : List Op} {outs : List (Py Unit)} {t : MPT}
    (h : Tidy E secure ops outs t) (hf : ∀ op ∈ ops, Fits E secure op.key)
    (hl : LogOk E (MPT.after E secure ops).store.written) :
    outs = outcomes E ops (MPT.new E secure) ∧ Under t (MPT.after E secure ops) ∧
      Bears E t (T.grow .empty (ops.map (Op.mapKey (effective E secure)))) := by
  induction h with
  | new => exact ⟨rfl, ⟨rfl, rfl, Sub.refl _, fun _ h => h⟩, Bears.new E secure⟩
  | @call ops outs t _ op ih =>
    have e : MPT.after E secure (ops ++ [op]) = (MPT.exec E op (MPT.after E secure ops)).2 := by
      rw [after_append]; rfl
    have hl0 : LogOk E (MPT.after E secure ops).store.written := log_of_replay (exec_writes E op _) (e ▸ hl)
    obtain ⟨h1, h2, h3⟩ := ih (fun o ho => hf o (List.mem_append_left _ ho)) hl0
    have hsec : t.secure = secure := by rw [h2.secure, after_secure]
    obtain ⟨h4, h5⟩ := h2.exec (E := E) op
    have hl : LogOk E (MPT.exec E op t).2.store.written := hl.mono (by rw [e]; exact h4)
    have he : T.grow .empty ((ops ++ [op]).map (Op.mapKey (effective E secure))) =
        (T.grow .empty (ops.map (Op.mapKey (effective E secure)))).act (op.mapKey (effective E secure)) := by
      unfold T.grow
      rw [List.map_append, List.foldl_append]; rfl
    have hf : Fits E t.secure op.key := by rw [hsec]; exact hf op (by simp)
    have hno := h3.never_key hf hl
    obtain ⟨h6, h7⟩ := h5.resolve_left hno
    refine ⟨?_, e ▸ h7, ?_⟩
    · have key : ∀ (l : List Op) (s : MPT), outcomes E (l ++ [op]) s =
          outcomes E l s ++ [(MPT.exec E op (MPT.run E l s)).1] := by
        intro l
        induction l with
        | nil => intro s; rfl
        | cons o l ih => intro s; simp only [List.cons_append, outcomes, ih]; rfl
      rw [key, h1, h6]; rfl
    · rw [he]
      have := h3.exec hf hl
      rwa [hsec] at this
  | collect _ hc ih =>
    obtain ⟨h1, h2, h3⟩ := ih hf hl
    exact ⟨h1, ⟨hc.root.trans h2.root, hc.secure.trans h2.secure, fun k v hk => h2.sub k v (hc.less k v hk),
      fun x hx => h2.log x (hc.log ▸ hx)⟩, h3.collected hc⟩

/-! ### No node too many -/

namespace T

/-- `y` is `a` or a node below it that is not empty; `p` leads there. -/
inductive Part : T → List Nib → T → Prop
  | refl (a : T) : Part a [] a
  | ext {q p : List Nib} {c y : T} (h : Part c p y) : Part (ext q c) (q ++ p) y
  | branch {cs : Nib → T} {v : Bytes} {i : Nib} {p : List Nib} {y : T} (hne : cs i ≠ empty) (h : Part (cs i) p y) :
      Part (branch cs v) (i :: p) y

theorem Part.trans {a b c : T} {p q : List Nib} (h : Part a p b) (h' : Part b q c) : Part a (p ++ q) c := by
  induction h with
  | refl => exact h'
  | ext _ ih => rw [List.append_assoc]; exact .ext (ih h')
  | branch hne _ ih => exact .branch hne (ih h')

theorem Child.part {a y : T} (h : Child a y) (hy : y ≠ empty) : ∃ p, Part a p y := by
  cases a with
  | empty => exact h.elim
  | leaf => exact h.elim
  | ext q c => cases h; exact ⟨_, .ext (.refl _)⟩
  | branch cs v => obtain ⟨i, rfl⟩ := h; exact ⟨_, .branch hy (.refl _)⟩

theorem Part.full {a y : T} {p : List Nib} (h : Part a p y) (hc : a.Full) : y.Full := by
  induction h with
  | refl => exact hc
  | ext _ ih => exact ih hc.2.2
  | branch _ _ ih => exact ih (hc.2 _)

theorem Part.stored {E : Env} {d : Dict Bytes} {a y : T} {p : List Nib} (h : Part a p y) (hs : Stored E d a) :
    Stored E d y := by
  induction h with
  | refl => exact hs
  | ext _ ih => exact ih hs.2
  | branch _ _ ih => exact ih (hs.2 _)

theorem Part.lookup {a y : T} {p : List Nib} (h : Part a p y) (q : List Nib) :
    T.lookup a (p ++ q) = T.lookup y q := by
  induction h with
  | refl => rfl
  | ext _ ih => rw [List.append_assoc, lookup_ext_append, ih]
  | branch _ _ ih => exact ih

theorem Part.trail {a y : T} {p : List Nib} (h : Part a p y) (hc : a.Full) (q : List Nib) :
    y ∈ T.trail a (p ++ q) := by
  induction h with
  | refl =>
    obtain ⟨l, hl⟩ := trail_head (t := _) q
    rw [List.nil_append, hl]; simp
  | @ext q' p c y _ ih =>
    obtain ⟨i, r, he⟩ : ∃ i r, q' ++ p ++ q = i :: r := by
      cases q' with
      | nil => exact absurd rfl hc.1
      | cons i r => exact ⟨i, _, rfl⟩
    have hq : q' <+: i :: r := by rw [← he, List.append_assoc]; exact List.prefix_append _ _
    rw [he, trail_ext hq, ← he, List.append_assoc, List.drop_left]
    exact List.mem_cons_of_mem _ (ih hc.2.2)
  | @branch cs v i p y hne _ ih =>
    have : ¬ (cs i).isEmpty = true := by
      cases hci : cs i <;> simp_all [isEmpty]
    rw [List.cons_append, trail_branch this]
    exact List.mem_cons_of_mem _ (ih (hc.2 i))

theorem not_mentions_nil {r : Bytes} : ¬ Mentions [] r := by
  have bad : ∀ n, Node.decode [] ≠ .ok n := by
    intro n h
    have : (match Node.decode [] with | .ok _ => false | .error _ => true) = true := by decide
    rw [h] at this
    simp at this
  have key : ∀ w r, Mentions w r → w ≠ [] := by
    intro w r h
    induction h with
    | ext h => rintro rfl; exact bad _ h
    | branch h _ => rintro rfl; exact bad _ h
    | inline _ _ _ ih => exact ih
  exact fun h => key _ _ h rfl

/-- A node mentions only what is below it. -/
theorem mentions_part {E : Env} {d : Dict Bytes} {x : T} (hs : Stored E d x) (hx : x ≠ empty) {r : Bytes}
    (h : Mentions (enc E x) r) : r = [] ∨ ∃ y p, y ≠ empty ∧ Part x p y ∧ r = ref E y := by
  have child : ∀ x y, Child x y → ref E y = [] ∨ ∃ z p, z ≠ empty ∧ Part x p z ∧ ref E y = ref E z := by
    intro x y hc
    by_cases hy : y = empty
    · subst hy; exact .inl rfl
    · obtain ⟨p, hp⟩ := hc.part hy
      exact .inr ⟨y, p, hy, hp, rfl⟩
  generalize hw : enc E x = w at h
  induction h generalizing x with
  | @ext w r np h =>
    subst hw
    obtain ⟨n, h1, h2⟩ := decode_enc hx (hs.size hx)
    rw [h] at h1
    cases h1
    cases x with
    | empty => exact h2.elim
    | leaf => exact h2.elim
    | branch => exact h2.elim
    | ext q c =>
      obtain ⟨_, _, rfl⟩ := h2
      exact child _ c rfl
  | @branch w r bs dd h hr =>
    subst hw
    obtain ⟨n, h1, h2⟩ := decode_enc hx (hs.size hx)
    rw [h] at h1
    cases h1
    cases x with
    | empty => exact h2.elim
    | leaf => exact h2.elim
    | ext => exact h2.elim
    | branch cs v =>
      obtain ⟨rfl, _⟩ := h2
      obtain ⟨i, _, rfl⟩ := List.mem_map.1 hr
      exact child _ (cs i) ⟨i, rfl⟩
  | @inline w r r' _ hl h' ih1 ih2 =>
    rcases ih1 hs hx hw with rfl | ⟨y, p, hy, hp, rfl⟩
    · exact absurd h' not_mentions_nil
    · have he : enc E y = ref E y := by
        rw [ref_of_ne hy] at hl ⊢
        split
        · rfl
        · rename_i hn
          rw [if_neg hn, E.keccak_len] at hl
          omega
      rcases ih2 (hp.stored hs) hy he with rfl | ⟨z, q, hz, hq, e⟩
      · exact .inl rfl
      · exact .inr ⟨z, p ++ q, hz, hp.trans hq, e⟩

/-- What can be reached is in the trie. -/
theorem reaches_part {E : Env} {d : Dict Bytes} {a : T} (hs : Stored E d a) (ha : a ≠ empty) {r : Bytes}
    (h : Reaches d (ref E a) r) : r = [] ∨ ∃ y p, y ≠ empty ∧ Part a p y ∧ r = ref E y := by
  induction h with
  | root => exact .inr ⟨a, [], ha, .refl a, rfl⟩
  | @inline r r' _ hl hm ih =>
    rcases ih with rfl | ⟨y, p, hy, hp, rfl⟩
    · exact absurd hm not_mentions_nil
    · have he : ref E y = enc E y := by
        rw [ref_of_ne hy] at hl ⊢
        split
        · rfl
        · rename_i hn
          rw [if_neg hn, E.keccak_len] at hl
          omega
      rw [he] at hm
      rcases mentions_part (hp.stored hs) hy hm with rfl | ⟨z, q, hz, hq, e⟩
      · exact .inl rfl
      · exact .inr ⟨z, p ++ q, hz, hp.trans hq, e⟩
  | @hash r w r' _ hl hw hm ih =>
    rcases ih with rfl | ⟨y, p, hy, hp, rfl⟩
    · simp at hl
    · have hw' : w = enc E y := by
        have hsy := hp.stored hs
        rw [ref_of_ne hy] at hl hw
        split at hl
        · omega
        · rename_i hn
          rw [if_neg hn] at hw
          rcases hsy.here hy with h | h
          · exact absurd h hn
          · rw [h.1] at hw; injection hw with hw; exact hw.symm
      rw [hw'] at hm
      rcases mentions_part (hp.stored hs) hy hm with rfl | ⟨z, q, hz, hq, e⟩
      · exact .inl rfl
      · exact .inr ⟨z, p ++ q, hz, hp.trans hq, e⟩

/-- Without a node that can be reached some key is lost. -/
theorem Holds.needed {E : Env} {t : MPT} {a : T} (h : Holds E t a) (hc : a.Full) (ha : a ≠ empty) {r : Bytes}
    (hr : Reaches t.store.kv (ref E a) r) (h32 : r.length = 32) :
    ∃ p v, T.lookup a p = some v ∧ ∀ kv', dget kv' r = none → Blocked E kv' a p := by
  rcases reaches_part h.stored ha hr with rfl | ⟨y, p, hy, hp, rfl⟩
  · simp at h32
  · obtain ⟨q, v, hv⟩ := (hp.full hc).exists_key hy
    refine ⟨p ++ q, v, by rw [hp.lookup, hv], fun kv' hk => ⟨y, hp.trail hc q, ?_⟩⟩
    rintro (hl | hl)
    · rw [ref_of_ne hy, if_pos hl] at h32; omega
    · rw [ref_of_ne hy] at h32 hk
      split at h32
      · omega
      · rename_i hn
        rw [if_neg hn] at hk
        exact hl hk

end T

/-! ### A way to find what can be reached -/

/-- What one reference leads to. -/
def oneStep (d : Dict Bytes) (r : Bytes) : List Bytes :=
  if r.length < 32 then
    match Node.decode r with
    | .ok n => n.refs
    | .error _ => []
  else
    match dget d r with
    | some w => match Node.decode w with
      | .ok n => n.refs
      | .error _ => []
    | none => []

theorem reaches_closed {d : Dict Bytes} {root : Bytes} {K : List Bytes} (h0 : root ∈ K)
    (hK : ∀ r ∈ K, ∀ r' ∈ oneStep d r, r' ∈ K) {r : Bytes} (h : Reaches d root r) : r ∈ K := by
  have key : ∀ w r', Mentions w r' → (∀ n, Node.decode w = .ok n → ∀ x ∈ n.refs, x ∈ K) → r' ∈ K := by
    intro w r' hm
    induction hm with
    | ext h => exact fun hw => hw _ h _ (by simp [Node.refs])
    | branch h hr => exact fun hw => hw _ h _ hr
    | @inline w r r' _ hl _ ih1 ih2 =>
      refine fun hw => ih2 fun n hn x hx => hK r (ih1 hw) x ?_
      rw [oneStep, if_pos hl, hn]; exact hx
  induction h with
  | root => exact h0
  | @inline r r' _ hl hm ih =>
    refine key _ _ hm fun n hn x hx => hK r ih x ?_
    rw [oneStep, if_pos hl, hn]; exact hx
  | @hash r w r' _ hl hw hm ih =>
    refine key _ _ hm fun n hn x hx => hK r ih x ?_
    rw [oneStep, if_neg (by omega), hw]
    simp only [hn]; exact hx

theorem dget_filter (d : Dict Bytes) (K : List Bytes) (k : Bytes) :
    dget (d.filter fun e => K.contains e.1) k = if k ∈ K then dget d k else none := by
  induction d with
  | nil => simp [dget]
  | cons e d ih =>
    obtain ⟨k0, v0⟩ := e
    simp only [List.filter_cons]
    split
    · rename_i h
      have h : k0 ∈ K := by simpa using h
      simp only [dget, ih]
      split
      · rename_i e; subst e; rw [if_pos h]
      · rfl
    · rename_i h
      have h : k0 ∉ K := by simpa using h
      rw [ih]
      split
      · rename_i hk
        simp only [dget]
        rw [if_neg]
        rintro rfl; exact h hk
      · rfl

/-- A mark-and-sweep collector, given the marks. -/
theorem collected_of {t : MPT} {K : List Bytes} (h0 : ∀ root, t.root = some root → root ∈ K)
    (hK : ∀ r ∈ K, ∀ r' ∈ oneStep t.store.kv r, r' ∈ K) :
    Collected t { t with store := { t.store with kv := t.store.kv.filter fun e => K.contains e.1 } } where
  root := rfl
  secure := rfl
  log := rfl
  less := fun k v hk => by
    simp only [dget_filter] at hk
    split at hk
    · exact hk
    · simp at hk
  keep := fun root hr k _ h => by
    simp only [dget_filter]
    rw [if_pos (reaches_closed (h0 root hr) hK h)]

end Pymt
