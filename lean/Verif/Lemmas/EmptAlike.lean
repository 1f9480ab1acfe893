import Verif.Spec.EmptAlike
import Verif.Lemmas.Alike
import Verif.Lemmas.EmptLoops
import Verif.Lemmas.Size

/-!
# Two `EMPT` objects with the same trie and the same data answer alike
-/

namespace Pymt

/-- The objects have the same data and the same trie; with `ord` the data are in the same order too. -/
structure ETwins (E : Env) (ord sec : Bool) (L L' : List Bytes) (s s' : EMPT) : Prop where
  data : ∀ k, dget s.data k = dget s'.data k
  order : ord = true → s.data = s'.data
  nodup : s.iter.Nodup
  nodup' : s'.iter.Nodup
  root : s.trie.root = s'.trie.root
  secure : s.trie.secure = sec
  trie : ∃ a, Twins E L L' s.trie s'.trie a
  fits : ∀ k ∈ s.iter, Fits E sec k

variable {E : Env} {ord sec : Bool} {L L' : List Bytes} {α β : Type}

theorem map_inj {f : α → β} (hf : ∀ x y, f x = f y → x = y) {x y : Py α} (h : x.map f = y.map f) : x = y := by
  cases x <;> cases y <;> simp only [Except.map, Except.ok.injEq, Except.error.injEq, reduceCtorEq] at h
  · rw [h]
  · rw [hf _ _ h]

namespace ETwins

variable {s s' : EMPT}

/-- What a call that does not write to the trie says. -/
theorem ask (h : ETwins E ord sec L L' s s') (c : Request) (hf : ∀ k ∈ c.keys, Fits E sec k)
    (h1 : (c.run E s.trie).2 = s.trie) (h2 : (c.run E s'.trie).2 = s'.trie) :
    (c.run E s.trie).1 = (c.run E s'.trie).1 := by
  obtain ⟨a, ht⟩ := h.trie
  exact ((ht.step c (by rw [h.secure]; exact hf) (by rw [h1]; exact ht.sub) (by rw [h2]; exact ht.sub')).2.2 h.root).1

theorem get_trie (h : ETwins E ord sec L L' s s') {k : Bytes} (hf : Fits E sec k) : s.trie.get E k = s'.trie.get E k :=
  map_inj (f := Told.value) (fun _ _ e => by injection e) (h.ask (.get k) (by simpa [Request.keys]) rfl rfl)

theorem contains_trie (h : ETwins E ord sec L L' s s') {k : Bytes} (hf : Fits E sec k) :
    s.trie.contains E k = s'.trie.contains E k :=
  map_inj (f := Told.bool) (fun _ _ e => by injection e) (h.ask (.contains k) (by simpa [Request.keys]) rfl rfl)

theorem poi_trie (h : ETwins E ord sec L L' s s') {now k : Bytes} (hf : Fits E sec k) :
    s.trie.getPoi E now k = s'.trie.getPoi E now k :=
  map_inj (f := Told.proof) (fun _ _ e => by injection e) (h.ask (.poi now k) (by simpa [Request.keys]) rfl rfl)

theorem poe_trie (h : ETwins E ord sec L L' s s') {now k : Bytes} (hf : Fits E sec k) :
    s.trie.getPoe E now k = s'.trie.getPoe E now k :=
  map_inj (f := Told.proof) (fun _ _ e => by injection e) (h.ask (.poe now k) (by simpa [Request.keys]) rfl rfl)

theorem verifyPoi_trie (h : ETwins E ord sec L L' s s') (p : Proof Bytes) : s.trie.verifyPoi E p = s'.trie.verifyPoi E p :=
  map_inj (f := Told.bool) (fun _ _ e => by injection e) (h.ask (.verifyPoi p) (by simp [Request.keys]) rfl rfl)

theorem verifyPoe_trie (h : ETwins E ord sec L L' s s') (p : Proof Bytes) : s.trie.verifyPoe E p = s'.trie.verifyPoe E p :=
  map_inj (f := Told.bool) (fun _ _ e => by injection e) (h.ask (.verifyPoe p) (by simp [Request.keys]) rfl rfl)

theorem get_same (h : ETwins E ord sec L L' s s') {k : Bytes} (hf : Fits E sec k) : s.get E k = s'.get E k := by
  unfold EMPT.get dgetItem
  rw [h.data, h.get_trie hf]

theorem iter_same (h : ETwins E true sec L L' s s') : s.iter = s'.iter := by unfold EMPT.iter; rw [h.order rfl]

theorem len_same (h : ETwins E ord sec L L' s s') : s.len = s'.len := by
  have key : ∀ u u' : EMPT, u.iter.Nodup → (∀ k, dget u.data k = dget u'.data k) → u.len ≤ u'.len := by
    intro u u' hn hd
    have := nodup_length_le hn (l' := u'.iter) fun k hk => mem_keys_iff.2 (by rw [← hd]; exact mem_keys_iff.1 hk)
    simpa [EMPT.iter, EMPT.len] using this
  exact Nat.le_antisymm (key s s' h.nodup h.data) (key s' s h.nodup' fun k => (h.data k).symm)

theorem items_same (h : ETwins E true sec L L' s s') : s.items E = s'.items E := by
  unfold EMPT.items
  rw [← h.iter_same]
  have : ∀ l : List Bytes, (∀ k ∈ l, Fits E sec k) →
      (l.mapM fun key => do let v ← s.get E key; return (key, v)) =
        (l.mapM fun key => do let v ← s'.get E key; return (key, v) : Py (List (Bytes × Value))) := by
    intro l
    induction l with
    | nil => intro _; rfl
    | cons k l ih =>
      intro hl
      rw [List.mapM_cons, List.mapM_cons, h.get_same (hl k List.mem_cons_self),
        ih fun x hx => hl x (List.mem_cons_of_mem _ hx)]
  exact this _ h.fits

end ETwins

/-- The computation only adds to the nodes written. -/
def EGrows (m : M EMPT α) : Prop := ∀ s, ∀ w ∈ s.trie.store.written, w ∈ (m s).2.trie.store.written

/-- The computation does the same to both objects. -/
def Even (E : Env) (ord sec : Bool) (L L' : List Bytes) (m : M EMPT α) : Prop :=
  ∀ s s', ETwins E ord sec L L' s s' → (∀ w ∈ (m s).2.trie.store.written, w ∈ L) →
    (∀ w ∈ (m s').2.trie.store.written, w ∈ L') → (m s).1 = (m s').1 ∧ ETwins E ord sec L L' (m s).2 (m s').2

theorem EGrows.lift (x : Py α) : EGrows (M.lift x : M EMPT α) := fun _ _ h => h
theorem EGrows.raise (e : Err) : EGrows (M.raise e : M EMPT α) := fun _ _ h => h
theorem EGrows.pure (x : α) : EGrows (Pure.pure x : M EMPT α) := fun _ _ h => h
theorem EGrows.get : EGrows (M.get : M EMPT EMPT) := fun _ _ h => h

theorem EGrows.bind {m : M EMPT α} {f : α → M EMPT β} (hm : EGrows m) (hf : ∀ a, EGrows (f a)) : EGrows (m >>= f) := by
  intro s w hw
  have := hm s w hw
  simp only [M.bind_apply]
  cases hr : m s with
  | mk r s1 =>
    rw [hr] at this
    cases r with
    | ok a => exact hf a s1 w this
    | error e => exact this

theorem EGrows.onTrie_exec (op : Op) : EGrows (EMPT.onTrie (MPT.exec E op)) := by
  intro s w hw
  show w ∈ (MPT.exec E op s.trie).2.store.written
  cases op with
  | update k v => exact Request.run_written (E := E) (t := s.trie) (.update k v) w hw
  | delete k => exact Request.run_written (E := E) (t := s.trie) (.delete k) w hw

theorem EGrows.data (f : Dict Value → Dict Value) : EGrows (M.modify fun s : EMPT => { s with data := f s.data }) :=
  fun _ _ h => h

theorem Even.lift (x : Py α) : Even E ord sec L L' (M.lift x) := fun _ _ h _ _ => ⟨rfl, h⟩
theorem Even.raise (e : Err) : Even E ord sec L L' (M.raise e : M EMPT α) := fun _ _ h _ _ => ⟨rfl, h⟩
theorem Even.pure (x : α) : Even E ord sec L L' (Pure.pure x : M EMPT α) := fun _ _ h _ _ => ⟨rfl, h⟩

theorem Even.bind {m : M EMPT α} {f : α → M EMPT β} (hm : Even E ord sec L L' m) (hf : ∀ a, Even E ord sec L L' (f a))
    (gf : ∀ a, EGrows (f a)) : Even E ord sec L L' (m >>= f) := by
  intro s s' h hw hw'
  simp only [M.bind_apply] at hw hw' ⊢
  cases hr : m s with
  | mk r s1 =>
    cases hr' : m s' with
    | mk r' s1' =>
      have := hm s s' h
      rw [hr, hr'] at this
      rw [hr] at hw
      rw [hr'] at hw'
      cases r with
      | ok a =>
        cases r' with
        | ok a' =>
          obtain ⟨e, h1⟩ := this (fun w hx => hw w (gf a s1 w hx)) (fun w hx => hw' w (gf a' s1' w hx))
          obtain rfl : a = a' := by simpa using e
          exact hf a s1 s1' h1 hw hw'
        | error e' =>
          obtain ⟨e, _⟩ := this (fun w hx => hw w (gf a s1 w hx)) hw'
          exact (nomatch e)
      | error e =>
        cases r' with
        | ok a' =>
          obtain ⟨e, _⟩ := this hw (fun w hx => hw' w (gf a' s1' w hx))
          exact (nomatch e)
        | error e' =>
          obtain ⟨e, h1⟩ := this hw hw'
          refine ⟨?_, h1⟩
          have : _ = _ := e
          simp only [Except.error.injEq] at this
          simp only [this]

/-- A computation that looks at the object. -/
theorem Even.read {f : EMPT → M EMPT α} (h : ∀ s s', ETwins E ord sec L L' s s' → f s = f s' ∧ Even E ord sec L L' (f s)) :
    Even E ord sec L L' (M.get >>= f) := by
  intro s s' ht hw hw'
  obtain ⟨h1, h2⟩ := h s s' ht
  simp only [M.bind_apply, M.get_apply] at hw hw' ⊢
  rw [← h1] at hw' ⊢
  exact h2 s s' ht hw hw'

theorem Even.onTrie_exec {op : Op} (hf : Fits E sec op.key) : Even E ord sec L L' (EMPT.onTrie (MPT.exec E op)) := by
  intro s s' h hw hw'
  obtain ⟨a, ht⟩ := h.trie
  obtain ⟨b, h1, h2, h3⟩ := ht.exec (op := op) (by rw [h.secure]; exact hf) hw hw'
  exact ⟨h2, h.data, h.order, h.nodup, h.nodup', h3 h.root, (exec_secure E op s.trie).trans h.secure, ⟨b, h1⟩, h.fits⟩

theorem Even.set {k : Bytes} (v : Value) (hf : Fits E sec k) :
    Even E ord sec L L' (M.modify fun s : EMPT => { s with data := dset s.data k v }) := by
  intro s s' h _ _
  refine ⟨rfl, ?_, fun ho => ?_, ?_, ?_, h.root, h.secure, h.trie, fun k' hk' => ?_⟩
  · intro k'
    show dget (dset s.data k v) k' = dget (dset s'.data k v) k'
    rw [dget_dset, dget_dset, h.data]
  · show dset s.data k v = dset s'.data k v
    rw [h.order ho]
  · exact dset_nodup h.nodup
  · exact dset_nodup h.nodup'
  · by_cases he : k' = k
    · rw [he]; exact hf
    · refine h.fits k' (mem_keys_iff.2 ?_)
      have : dget (dset s.data k v) k' ≠ none := mem_keys_iff.1 hk'
      rwa [dget_dset, if_neg (Ne.symm he)] at this

theorem Even.del (k : Bytes) : Even E ord sec L L' (M.modify fun s : EMPT => { s with data := ddel s.data k }) := by
  have key : ∀ d : Dict Value, (ddel d k).map (·.1) = (d.map (·.1)).filter (· ≠ k) := by
    intro d
    rw [ddel_eq_filter, List.filter_map]
    rfl
  intro s s' h _ _
  refine ⟨rfl, ?_, fun ho => ?_, ?_, ?_, h.root, h.secure, h.trie, fun k' hk' => ?_⟩
  · intro k'
    show dget (ddel s.data k) k' = dget (ddel s'.data k) k'
    rw [dget_ddel, dget_ddel, h.data]
  · show ddel s.data k = ddel s'.data k
    rw [h.order ho]
  · show ((ddel s.data k).map (·.1)).Nodup
    rw [key]
    exact List.Pairwise.filter _ h.nodup
  · show ((ddel s'.data k).map (·.1)).Nodup
    rw [key]
    exact List.Pairwise.filter _ h.nodup'
  · have : k' ∈ (ddel s.data k).map (·.1) := hk'
    rw [key] at this
    exact h.fits k' (List.mem_filter.1 this).1

namespace EMPT

theorem grows_update (k : Bytes) (v : Value) : EGrows (update E k v) := by
  have key : EGrows (do
      let ref ← M.lift (DataRef.ofValue k v)
      onTrie (MPT.update E k (ref.encode E))
      M.modify (fun s => { s with data := dset s.data k v }) : M EMPT Unit) :=
    (EGrows.lift _).bind fun r => (EGrows.onTrie_exec (.update k (r.encode E))).bind fun _ =>
      EGrows.data (fun d => dset d k v)
  unfold update
  split
  · exact EGrows.raise _
  · exact EGrows.raise _
  · exact key

theorem even_update {k : Bytes} {v : Value} (hf : Fits E sec k) : Even E ord sec L L' (update E k v) := by
  have hd : Even E ord sec L L' _ := Even.set v hf
  have key : Even E ord sec L L' (do
      let ref ← M.lift (DataRef.ofValue k v)
      onTrie (MPT.update E k (ref.encode E))
      M.modify (fun s => { s with data := dset s.data k v }) : M EMPT Unit) :=
    (Even.lift _).bind
      (fun r => (Even.onTrie_exec (op := .update k (r.encode E)) hf).bind (fun _ => hd) fun _ => EGrows.data (fun d => dset d k v))
      fun r => (EGrows.onTrie_exec (.update k (r.encode E))).bind fun _ => EGrows.data (fun d => dset d k v)
  unfold update
  split
  · exact Even.raise _
  · exact Even.raise _
  · exact key

theorem grows_delete (k : Bytes) : EGrows (delete E k) := by
  unfold delete
  refine EGrows.get.bind fun s => (EGrows.lift _).bind fun b => ?_
  split
  · exact EGrows.raise _
  · exact (EGrows.lift _).bind fun _ => (EGrows.data (fun d => ddel d k)).bind fun _ => EGrows.onTrie_exec (.delete k)

theorem even_delete {k : Bytes} (hf : Fits E sec k) : Even E ord sec L L' (delete E k) := by
  have hd : Even E ord sec L L' _ := Even.del k
  unfold delete
  refine Even.read fun s s' h => ⟨by unfold dgetItem; rw [h.contains_trie hf, h.data], ?_⟩
  refine (Even.lift _).bind (fun b => ?_) fun b => ?_
  · split
    · exact Even.raise _
    · exact (Even.lift _).bind
        (fun _ => hd.bind (fun _ => Even.onTrie_exec (op := .delete k) hf) fun _ => EGrows.onTrie_exec (.delete k))
        fun _ => (EGrows.data (fun d => ddel d k)).bind fun _ => EGrows.onTrie_exec (.delete k)
  · split
    · exact EGrows.raise _
    · exact (EGrows.lift _).bind fun _ => (EGrows.data (fun d => ddel d k)).bind fun _ => EGrows.onTrie_exec (.delete k)

theorem grows_pop (k : Bytes) : EGrows (pop E k) := by
  unfold pop
  exact EGrows.get.bind fun s => (EGrows.lift _).bind fun v => (grows_delete k).bind fun _ => EGrows.pure _

theorem even_pop {k : Bytes} (hf : Fits E sec k) : Even E ord sec L L' (pop E k) := by
  unfold pop
  refine Even.read fun s s' h => ⟨by rw [h.get_same hf], ?_⟩
  exact (Even.lift _).bind (fun v => (even_delete hf).bind (fun _ => Even.pure _) fun _ => EGrows.pure _)
    fun v => (grows_delete k).bind fun _ => EGrows.pure _

theorem grows_popitem : EGrows (popitem E) := by
  unfold popitem
  refine EGrows.get.bind fun s => ?_
  split
  · exact EGrows.raise _
  · exact (EGrows.lift _).bind fun v => (grows_delete _).bind fun _ => EGrows.pure _

theorem even_popitem : Even E true sec L L' (popitem E) := by
  unfold popitem
  refine Even.read fun s s' h => ?_
  rw [← h.iter_same]
  cases hi : s.iter with
  | nil => exact ⟨rfl, Even.raise _⟩
  | cons k l =>
    have hf : Fits E sec k := h.fits k (by rw [hi]; exact List.mem_cons_self)
    refine ⟨by simp only [h.get_same hf], ?_⟩
    exact (Even.lift _).bind (fun v => (even_delete hf).bind (fun _ => Even.pure _) fun _ => EGrows.pure _)
      fun v => (grows_delete k).bind fun _ => EGrows.pure _

theorem grows_setdefault (k : Bytes) (v : Value) : EGrows (setdefault E k v) := by
  unfold setdefault
  refine EGrows.get.bind fun s => ?_
  split
  · exact EGrows.pure _
  · exact (grows_update k v).bind fun _ => EGrows.pure _
  · exact EGrows.raise _

theorem even_setdefault {k : Bytes} {v : Value} (hf : Fits E sec k) : Even E ord sec L L' (setdefault E k v) := by
  unfold setdefault
  refine Even.read fun s s' h => ⟨by rw [h.get_same hf], ?_⟩
  split
  · exact Even.pure _
  · exact (even_update hf).bind (fun _ => Even.pure _) fun _ => EGrows.pure _
  · exact Even.raise _

theorem clearLoop_succ (n : Nat) (s : EMPT) : clearLoop E (n + 1) s =
    match popitem E s with
    | (.ok _, s') => clearLoop E n s'
    | (.error .keyError, s') => (.ok (), s')
    | (.error e, s') => (.error e, s') := rfl

theorem grows_clearLoop (n : Nat) : EGrows (clearLoop E n) := by
  induction n with
  | zero => exact EGrows.raise _
  | succ n ih =>
    intro s w hw
    have := grows_popitem (E := E) s w hw
    rw [clearLoop_succ]
    split
    · rename_i hr
      rw [hr] at this
      exact ih _ w this
    · rename_i hr
      rw [hr] at this
      exact this
    · rename_i hr
      rw [hr] at this
      exact this

theorem even_clearLoop (n : Nat) : Even E true sec L L' (clearLoop E n) := by
  induction n with
  | zero => exact Even.raise _
  | succ n ih =>
    intro s s' h hw hw'
    have hp := even_popitem (E := E) (sec := sec) (L := L) (L' := L') s s' h
    have g : ∀ u : EMPT, ∀ w ∈ (popitem E u).2.trie.store.written, w ∈ (clearLoop E (n + 1) u).2.trie.store.written := by
      intro u w hx
      rw [clearLoop_succ]
      cases hr : popitem E u with
      | mk r u1 =>
        rw [hr] at hx
        cases r with
        | ok a => exact grows_clearLoop n u1 w hx
        | error e => cases e <;> exact hx
    obtain ⟨e, h1⟩ := hp (fun w hx => hw w (g s w hx)) (fun w hx => hw' w (g s' w hx))
    rw [clearLoop_succ] at hw hw' ⊢
    rw [clearLoop_succ]
    cases hr : popitem E s with
    | mk r s1 =>
      cases hr' : popitem E s' with
      | mk r' s1' =>
        rw [hr, hr'] at e h1
        rw [hr] at hw
        rw [hr'] at hw'
        obtain rfl : r = r' := e
        cases r with
        | ok a => exact ih s1 s1' h1 hw hw'
        | error e => cases e <;> exact ⟨rfl, h1⟩

theorem even_clear : Even E true sec L L' (clear E) := by
  intro s s' h hw hw'
  have hl := h.len_same
  unfold clear at hw hw' ⊢
  rw [← hl] at hw' ⊢
  exact even_clearLoop _ s s' h hw hw'

end EMPT

theorem Even.changing {m : M EMPT α} (hm : Even E ord sec L L' m) (f : α → ETold) {s s' : EMPT} (h : ETwins E ord sec L L' s s')
    (hw : ∀ w ∈ (ERequest.changing m f s).2.trie.store.written, w ∈ L)
    (hw' : ∀ w ∈ (ERequest.changing m f s').2.trie.store.written, w ∈ L') :
    (ERequest.changing m f s).1 = (ERequest.changing m f s').1 ∧
      ETwins E ord sec L L' (ERequest.changing m f s).2 (ERequest.changing m f s').2 := by
  obtain ⟨h1, h2⟩ := hm s s' h hw hw'
  exact ⟨by simp only [ERequest.changing, h1], h2⟩

theorem ETwins.step {s s' : EMPT} (h : ETwins E ord sec L L' s s') (c : ERequest) (hf : ∀ k ∈ c.keys, Fits E sec k)
    (ho : ord = true ∨ c.ordered = false) (hw : ∀ w ∈ (c.run E s).2.trie.store.written, w ∈ L) (hw' : ∀ w ∈ (c.run E s').2.trie.store.written, w ∈ L') :
    (c.run E s).1 = (c.run E s').1 ∧ ETwins E ord sec L L' (c.run E s).2 (c.run E s').2 := by
  have fit : ∀ k, c.keys = [k] → Fits E sec k := fun k e => hf k (by rw [e]; exact List.mem_cons_self)
  cases c with
  | get k => exact ⟨by simp only [ERequest.run, h.get_same (fit k rfl)], h⟩
  | getReference k => exact ⟨by simp only [ERequest.run, EMPT.getReference, h.get_trie (fit k rfl)], h⟩
  | contains k => exact ⟨by simp only [ERequest.run, EMPT.contains, h.contains_trie (fit k rfl)], h⟩
  | update k v => exact (EMPT.even_update (fit k rfl)).changing _ h hw hw'
  | delete k => exact (EMPT.even_delete (fit k rfl)).changing _ h hw hw'
  | pop k => exact (EMPT.even_pop (fit k rfl)).changing _ h hw hw'
  | popitem =>
    obtain rfl : ord = true := ho.resolve_right (by simp [ERequest.ordered])
    exact EMPT.even_popitem.changing _ h hw hw'
  | setdefault k v => exact (EMPT.even_setdefault (fit k rfl)).changing _ h hw hw'
  | clear =>
    obtain rfl : ord = true := ho.resolve_right (by simp [ERequest.ordered])
    exact EMPT.even_clear.changing _ h hw hw'
  | len => exact ⟨by simp only [ERequest.run, h.len_same], h⟩
  | iter =>
    obtain rfl : ord = true := ho.resolve_right (by simp [ERequest.ordered])
    exact ⟨by simp only [ERequest.run, h.iter_same], h⟩
  | items =>
    obtain rfl : ord = true := ho.resolve_right (by simp [ERequest.ordered])
    exact ⟨by simp only [ERequest.run, h.items_same], h⟩
  | poi now k => exact ⟨by simp only [ERequest.run, EMPT.getPoi, h.poi_trie (fit k rfl)], h⟩
  | poe now k => exact ⟨by simp only [ERequest.run, EMPT.getPoe, h.poe_trie (fit k rfl)], h⟩
  | verifyPoi p => exact ⟨by simp only [ERequest.run, EMPT.verifyPoi, h.verifyPoi_trie p], h⟩
  | verifyPoe p => exact ⟨by simp only [ERequest.run, EMPT.verifyPoe, h.verifyPoe_trie p], h⟩
  | root => exact ⟨by simp only [ERequest.run, h.root], h⟩
  | rootHash => exact ⟨by simp only [ERequest.run]; unfold MPT.rootHash; rw [h.root], h⟩

theorem ERequest.run_grows (c : ERequest) (s : EMPT) :
    ∀ w ∈ s.trie.store.written, w ∈ (c.run E s).2.trie.store.written := by
  cases c with
  | update k v => exact EMPT.grows_update k v s
  | delete k => exact EMPT.grows_delete k s
  | pop k => exact EMPT.grows_pop k s
  | popitem => exact EMPT.grows_popitem s
  | setdefault k v => exact EMPT.grows_setdefault k v s
  | clear => exact EMPT.grows_clearLoop _ s
  | _ => exact fun _ h => h

theorem ERequest.final_grows (cs : List ERequest) (s : EMPT) :
    ∀ w ∈ s.trie.store.written, w ∈ (ERequest.final E cs s).trie.store.written := by
  induction cs generalizing s with
  | nil => exact fun _ h => h
  | cons c cs ih => exact fun w h => ih _ w (c.run_grows s w h)

/-- Calls one after the other. -/
theorem ETwins.all (cs : List ERequest) : ∀ {s s' : EMPT}, ETwins E ord sec L L' s s' →
    (∀ c ∈ cs, ∀ k ∈ c.keys, Fits E sec k) → (∀ c ∈ cs, ord = true ∨ c.ordered = false) →
    (∀ w ∈ (ERequest.final E cs s).trie.store.written, w ∈ L) →
    (∀ w ∈ (ERequest.final E cs s').trie.store.written, w ∈ L') →
    ERequest.outcomes E cs s = ERequest.outcomes E cs s' := by
  induction cs with
  | nil => exact fun _ _ _ _ _ => rfl
  | cons c cs ih =>
    intro s s' h hf ho hs hs'
    obtain ⟨h1, h2⟩ := h.step c (hf c List.mem_cons_self) (ho c List.mem_cons_self) (fun w hw => hs w (ERequest.final_grows cs _ w hw))
      (fun w hw => hs' w (ERequest.final_grows cs _ w hw))
    simp only [ERequest.outcomes, h1, ih h2 (fun c' hc => hf c' (List.mem_cons_of_mem _ hc))
      (fun c' hc => ho c' (List.mem_cons_of_mem _ hc)) hs hs']

end Pymt
