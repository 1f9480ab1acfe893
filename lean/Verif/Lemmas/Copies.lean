import Verif.Spec.Copies
import Verif.Lemmas.EmptWatching
import Verif.Lemmas.Collect
import Verif.Lemmas.Missing
import Verif.Props.Codec

/-!
# Copies of a trie while other threads write
-/

namespace Pymt

/-- The keys of a dict, and new ones at the end. -/
def KeysGrow {β : Type} (d d' : Dict β) : Prop := d.map (·.1) <+: d'.map (·.1)

theorem KeysGrow.refl {β : Type} (d : Dict β) : KeysGrow d d := List.prefix_rfl
theorem KeysGrow.trans {β : Type} {a b c : Dict β} (h : KeysGrow a b) (h' : KeysGrow b c) : KeysGrow a c :=
  List.IsPrefix.trans h h'

theorem KeysGrow.length {β : Type} {d d' : Dict β} (h : KeysGrow d d') : d.length ≤ d'.length := by
  have := List.IsPrefix.length_le h
  simpa using this

theorem keysGrow_dset {β : Type} (d : Dict β) (k : Bytes) (v : β) : KeysGrow d (dset d k v) := by
  unfold KeysGrow
  by_cases hk : k ∈ d.map (·.1)
  · rw [dset_keys hk]; exact List.prefix_rfl
  · rw [dset_new hk, List.map_append]; exact List.prefix_append _ _

/-- A dict that grew by nothing. -/
theorem KeysGrow.eq {d d' : Dict Bytes} (h : KeysGrow d d') (hl : d'.length = d.length)
    (hn : (d.map (·.1)).Nodup) (hn' : (d'.map (·.1)).Nodup)
    (hs : ∀ k v, dget d k = some v → dget d' k = some v) : d = d' := by
  have hk : d.map (·.1) = d'.map (·.1) := List.IsPrefix.eq_of_length h (by simp [hl])
  refine List.ext_getElem hl.symm fun i h1 h2 => ?_
  have hi : (d[i]).1 = (d'[i]).1 := by
    have := List.getElem_of_eq hk (i := i) (by simpa using h1)
    simpa using this
  have e1 : dget d' (d[i]).1 = some (d[i]).2 := hs _ _ (dget_mem hn (List.getElem_mem h1))
  have e2 : dget d' (d'[i]).1 = some (d'[i]).2 := dget_mem hn' (List.getElem_mem h2)
  rw [hi, e2] at e1
  injection e1 with e1
  exact Prod.ext hi e1.symm

/-- What a thread sees of a dict that only grows. -/
structure Shelves (V : Nat → MPT) : Prop where
  nodup : ∀ n, ((V n).store.kv.map (·.1)).Nodup
  grow : ∀ n, KeysGrow (V n).store.kv (V (n + 1)).store.kv
  sub : ∀ n, Sub (V n).store (V (n + 1)).store

namespace Shelves
variable {V : Nat → MPT}

theorem grow_le (h : Shelves V) {a b : Nat} (hab : a ≤ b) : KeysGrow (V a).store.kv (V b).store.kv := by
  induction b with
  | zero => rw [Nat.le_zero.1 hab]; exact .refl _
  | succ b ih =>
    rcases Nat.lt_or_eq_of_le hab with hlt | he
    · exact (ih (Nat.le_of_lt_succ hlt)).trans (h.grow b)
    · rw [he]; exact .refl _

theorem sub_le (h : Shelves V) {a b : Nat} (hab : a ≤ b) : Sub (V a).store (V b).store := by
  induction b with
  | zero => rw [Nat.le_zero.1 hab]; exact .refl _
  | succ b ih =>
    rcases Nat.lt_or_eq_of_le hab with hlt | he
    · exact (ih (Nat.le_of_lt_succ hlt)).trans (h.sub b)
    · rw [he]; exact .refl _

theorem fixed (h : Shelves V) {m b : Nat} (hm : m ≤ b)
    (hl : (V b).store.kv.length = (V 0).store.kv.length) : (V m).store.kv = (V b).store.kv := by
  refine (h.grow_le hm).eq ?_ (h.nodup m) (h.nodup b) (h.sub_le hm)
  have h1 := (h.grow_le hm).length
  have h2 := (h.grow_le (Nat.zero_le m)).length
  omega

theorem copyRest_fixed (h : Shelves V) (E : Env) (secure : Bool) {n : Nat} (h0 : (V 0).store.kv.length = n)
    (hn : (V (2 * n + 1)).store.kv.length = n) :
    ∀ f i, i + f = n → (EMPT.copyRest E secure n f i ((V (2 * n + 1)).store.kv.take i)).along V (2 * i + 1) =
      (.ok (MPT.init E ⟨(V (2 * n + 1)).store.kv, (V (2 * n + 1)).store.kv.map (·.2)⟩ (V (2 * n + 2)).root secure),
        2 * n + 3) := by
  have hfix : ∀ m, m ≤ 2 * n + 1 → (V m).store.kv = (V (2 * n + 1)).store.kv :=
    fun m hm => h.fixed hm (by rw [hn, h0])
  have hnd := h.nodup (2 * n + 1)
  intro f
  induction f with
  | zero =>
    intro i hi
    have hi : i = n := hi
    subst hi
    simp only [EMPT.copyRest, CopyProg.along, hn, ne_eq, not_true, if_false]
    rw [List.getElem?_eq_none (by rw [hn]; exact Nat.le_refl _)]
    simp only [EMPT.sparseOf, CopyProg.along]
    rw [List.take_of_length_le (by rw [hn]; exact Nat.le_refl _)]
  | succ f ih =>
    intro i hi
    generalize hK : (V (2 * n + 1)).store.kv = K at *
    have hlt : i < K.length := by omega
    simp only [EMPT.copyRest, CopyProg.along]
    rw [hfix (2 * i + 1) (by omega), if_neg (by rw [hn]; simp), List.getElem?_eq_getElem hlt]
    simp only [CopyProg.along]
    have hg : dget K (K[i]).1 = some (K[i]).2 := dget_mem hnd (List.getElem_mem hlt)
    rw [hfix (2 * i + 1 + 1) (by omega), hg]
    simp only
    have hk : (K[i]).1 ∉ (K.take i).map (·.1) := by
      intro hm
      rw [List.map_take, List.mem_take_iff_getElem] at hm
      obtain ⟨j, hj, e⟩ := hm
      have hj' : j < i := by simp at hj; omega
      refine List.pairwise_iff_getElem.1 hnd j i (by simp; omega) (by simpa using hlt) hj' ?_
      rw [e, List.getElem_map]
    have ht : dset (K.take i) (K[i]).1 (K[i]).2 = K.take (i + 1) := by
      rw [dset_new hk, List.take_add_one, List.getElem?_eq_getElem hlt]
      rfl
    rw [ht]
    exact ih (i + 1) (by omega)

theorem copyRest_grown (h : Shelves V) (E : Env) (secure : Bool) {n : Nat}
    (hn : (V (2 * n + 1)).store.kv.length ≠ n) :
    ∀ f i copied, i + f = n → ((EMPT.copyRest E secure n f i copied).along V (2 * i + 1)).1 = .error .runtime := by
  intro f
  induction f with
  | zero =>
    intro i copied hi
    have hi : i = n := hi
    subst hi
    simp only [EMPT.copyRest, CopyProg.along]
    rw [if_pos hn]
  | succ f ih =>
    intro i copied hi
    simp only [EMPT.copyRest, CopyProg.along]
    by_cases hl : (V (2 * i + 1)).store.kv.length ≠ n
    · rw [if_pos hl]
    · rw [if_neg hl]
      have hlt : i < (V (2 * i + 1)).store.kv.length := by omega
      rw [List.getElem?_eq_getElem hlt]
      simp only [CopyProg.along]
      have hg : dget (V (2 * i + 1)).store.kv ((V (2 * i + 1)).store.kv[i]).1 = some ((V (2 * i + 1)).store.kv[i]).2 :=
        dget_mem (h.nodup _) (List.getElem_mem hlt)
      rw [h.sub _ _ _ hg]
      exact ih (i + 1) _ (by omega)

/-- What `get_sparse_trie` does: RuntimeError if the dict has grown when the loop asks for the end, else the entries of
that moment and the root of the next access. -/
theorem getSparse (h : Shelves V) (E : Env) (secure : Bool) :
    (EMPT.getSparseP E secure).watch V =
      if (V (2 * (V 0).store.kv.length + 1)).store.kv.length = (V 0).store.kv.length then
        .ok (MPT.init E ⟨(V (2 * (V 0).store.kv.length + 1)).store.kv,
          (V (2 * (V 0).store.kv.length + 1)).store.kv.map (·.2)⟩ (V (2 * (V 0).store.kv.length + 2)).root secure)
      else .error .runtime := by
  generalize h0 : (V 0).store.kv.length = n
  simp only [CopyProg.watch, EMPT.getSparseP, CopyProg.along, h0]
  split
  · rename_i hn
    have := h.copyRest_fixed E secure h0 hn n 0 (by omega)
    rw [List.take_zero] at this
    rw [this]
  · rename_i hn
    exact h.copyRest_grown E secure hn n 0 [] (by omega)

theorem encodeRest_fixed (h : Shelves V) (secure : Bool) {n : Nat} (h0 : (V 0).store.kv.length = n)
    (hn : (V (n + 1)).store.kv.length = n) (hlong : ∀ e ∈ (V (n + 1)).store.kv, 32 ≤ e.2.length) :
    ∀ f i, i + f = n →
      ((MPT.encodeRest secure n f i (((V (n + 1)).store.kv.take i).map fun e => .str e.2)).along V (i + 1)).1 =
        MPT.encode ⟨(V (n + 1)).store, (V (n + 2)).root, secure⟩ := by
  have hfix : ∀ m, m ≤ n + 1 → (V m).store.kv = (V (n + 1)).store.kv :=
    fun m hm => h.fixed hm (by rw [hn, h0])
  intro f
  induction f with
  | zero =>
    intro i hi
    have hi : i = n := hi
    subst hi
    simp only [MPT.encodeRest, CopyProg.along, hn, ne_eq, not_true, if_false]
    rw [List.getElem?_eq_none (by rw [hn]; exact Nat.le_refl _)]
    simp only [MPT.encodeOf, CopyProg.along]
    rw [List.take_of_length_le (by rw [hn]; exact Nat.le_refl _)]
    have hp := Props.prepareAll_long (l := (V (i + 1)).store.kv.map (·.2)) (by
      intro w hw
      obtain ⟨e, he, rfl⟩ := List.mem_map.1 hw
      exact hlong e he)
    simp only [MPT.encode, hp, Except.bind_ok']
    cases (V (i + 2)).root with
    | none => rfl
    | some r =>
      simp only [CopyProg.along, List.map_map]
      rfl
  | succ f ih =>
    intro i hi
    generalize hK : (V (n + 1)).store.kv = K at *
    have hlt : i < K.length := by omega
    have hi32 : ¬ (K[i]).2.length < 32 := by
      have := hlong _ (List.getElem_mem hlt)
      omega
    simp only [MPT.encodeRest, CopyProg.along]
    rw [hfix (i + 1) (by omega), if_neg (by rw [hn]; simp), List.getElem?_eq_getElem hlt]
    have hpr : prepareForEncoding (K[i]).2 = .ok (.str (K[i]).2) := by simp [prepareForEncoding, hi32]
    simp only [hpr]
    have ht : ((K.take i).map fun e => Item.str e.2) ++ [.str (K[i]).2] = (K.take (i + 1)).map fun e => .str e.2 := by
      rw [List.take_add_one, List.getElem?_eq_getElem hlt, List.map_append]
      rfl
    rw [ht]
    exact ih (i + 1) (by omega)

theorem encodeRest_grown (secure : Bool) {n : Nat} (hn : (V (n + 1)).store.kv.length ≠ n)
    (hlong : ∀ m, ∀ e ∈ (V m).store.kv, 32 ≤ e.2.length) :
    ∀ f i items, i + f = n → ((MPT.encodeRest secure n f i items).along V (i + 1)).1 = .error .runtime := by
  intro f
  induction f with
  | zero =>
    intro i items hi
    have hi : i = n := hi
    subst hi
    simp only [MPT.encodeRest, CopyProg.along]
    rw [if_pos hn]
  | succ f ih =>
    intro i items hi
    simp only [MPT.encodeRest, CopyProg.along]
    by_cases hl : (V (i + 1)).store.kv.length ≠ n
    · rw [if_pos hl]
    · rw [if_neg hl]
      have hlt : i < (V (i + 1)).store.kv.length := by omega
      have hi32 : ¬ ((V (i + 1)).store.kv[i]).2.length < 32 := by
        have := hlong _ _ (List.getElem_mem hlt)
        omega
      rw [List.getElem?_eq_getElem hlt]
      have hpr : prepareForEncoding ((V (i + 1)).store.kv[i]).2 = .ok (.str ((V (i + 1)).store.kv[i]).2) := by
        simp [prepareForEncoding, hi32]
      simp only [hpr]
      exact ih (i + 1) _ (by omega)

/-- What `encode` does. -/
theorem encode (h : Shelves V) (secure : Bool) (hlong : ∀ m, ∀ e ∈ (V m).store.kv, 32 ≤ e.2.length) :
    (MPT.encodeCallP secure).watch V =
      if (V ((V 0).store.kv.length + 1)).store.kv.length = (V 0).store.kv.length then
        MPT.encode ⟨(V ((V 0).store.kv.length + 1)).store, (V ((V 0).store.kv.length + 2)).root, secure⟩
      else .error .runtime := by
  generalize h0 : (V 0).store.kv.length = n
  simp only [CopyProg.watch, MPT.encodeCallP, CopyProg.along, h0]
  split
  · rename_i hn
    have := h.encodeRest_fixed secure h0 hn (hlong _) n 0 (by omega)
    rw [List.take_zero, List.map_nil] at this
    exact this
  · rename_i hn
    exact encodeRest_grown secure hn hlong n 0 [] (by omega)

end Shelves

/-- With nobody else around the program is `MPT.encode`. -/
theorem MPT.encodeCall_alone (t : MPT) (hn : (t.store.kv.map (·.1)).Nodup) (hl : ∀ e ∈ t.store.kv, 32 ≤ e.2.length) :
    (MPT.encodeCallP t.secure).watch (fun _ => t) = t.encode := by
  have hs : Shelves fun _ => t := ⟨fun _ => hn, fun _ => .refl _, fun _ => .refl _⟩
  have := hs.encode t.secure fun _ => hl
  rw [if_pos rfl] at this
  exact this

/-- With nobody else around the program is `EMPT.getSparse` (up to the ghost). -/
theorem EMPT.getSparse_alone (E : Env) (s : EMPT) (hn : (s.trie.store.kv.map (·.1)).Nodup) :
    ∃ c, (EMPT.getSparseP E s.trie.secure).watch (fun _ => s.trie) = .ok c ∧
      c.store.kv = (s.getSparse E).store.kv ∧ c.root = (s.getSparse E).root ∧ c.secure = (s.getSparse E).secure := by
  have hs : Shelves fun _ => s.trie := ⟨fun _ => hn, fun _ => .refl _, fun _ => .refl _⟩
  have := hs.getSparse E s.trie.secure
  rw [if_pos rfl] at this
  exact ⟨_, this, rfl, rfl, rfl⟩

/-! ### What the threads see -/

/-- Nothing but growth. -/
def Taller (s s' : Store) : Prop := KeysGrow s.kv s'.kv ∧ ((s.kv.map (·.1)).Nodup → (s'.kv.map (·.1)).Nodup)

theorem Taller.refl (s : Store) : Taller s s := ⟨.refl _, id⟩
theorem Taller.trans {a b c : Store} (h : Taller a b) (h' : Taller b c) : Taller a c :=
  ⟨h.1.trans h'.1, fun hn => h'.2 (h.2 hn)⟩
theorem Taller.set (s : Store) (k v : Bytes) : Taller s (s.set k v) := ⟨keysGrow_dset _ _ _, dset_nodup⟩

theorem World.step_taller (E : Env) (j : Nat) (w : World) : Taller w.store (w.step E j).store := by
  unfold World.step
  simp only
  split
  · split
    · exact .refl _
    · exact .refl _
  · exact .refl _
  · split <;> exact .refl _
  · exact .set _ _ _
  · exact .refl _
  · exact .refl _

theorem World.run_taller (E : Env) (l : List Nat) (w : World) : Taller w.store (w.run E l).store := by
  induction l generalizing w with
  | nil => exact .refl _
  | cons j l ih => exact (World.step_taller E j w).trans (ih _)

theorem Peaceful.shelves {E : Env} {secure : Nat → Bool} {calls : Nat → List (Nat × Call)} {log : List Bytes}
    (h : Peaceful E secure calls log) (sched : List Nat) (i : Nat) {mom : Nat → Nat} {a b : Nat}
    (hm : Moments mom a b) : Shelves (viewAt E secure calls sched i mom) := by
  refine ⟨fun n => ?_, fun n => ?_, (h.views sched i hm).mono⟩
  · exact (World.run_taller E (sched.take (mom n)) (World.new E secure calls)).2 (by simp [World.new, Store.empty])
  · obtain ⟨l, e⟩ := worldAt_split (E := E) (secure := secure) (calls := calls) (sched := sched) (hm.mono n)
    show KeysGrow (worldAt E secure calls sched (mom n)).store.kv (worldAt E secure calls sched (mom (n + 1))).store.kv
    rw [e]
    exact (World.run_taller E l _).1

/-- The storage of the trie inside grows. -/
abbrev TallerE (s s' : EMPT) : Prop := Taller s.trie.store s'.trie.store

theorem EProg.states_taller {α : Type} (p : EProg α) (s : EMPT) :
    TallerE s (p.alone s).2 ∧ (p.states s).Pairwise TallerE ∧
    ∀ z ∈ p.states s, TallerE s z ∧ TallerE z (p.alone s).2 := by
  have one : ∀ s : EMPT, [s].Pairwise TallerE ∧ ∀ z ∈ [s], TallerE s z ∧ TallerE z s := fun s =>
    ⟨by simp, fun z hz => by rw [List.mem_singleton.1 hz]; exact ⟨.refl _, .refl _⟩⟩
  have step : ∀ (s s' e : EMPT) (l : List EMPT), TallerE s s' →
      (TallerE s' e ∧ l.Pairwise TallerE ∧ ∀ z ∈ l, TallerE s' z ∧ TallerE z e) →
      TallerE s e ∧ (s' :: l).Pairwise TallerE ∧ ∀ z ∈ s' :: l, TallerE s z ∧ TallerE z e := by
    intro s s' e l h ⟨h1, h2, h3⟩
    refine ⟨h.trans h1, List.pairwise_cons.2 ⟨fun z hz => (h3 z hz).1, h2⟩, fun z hz => ?_⟩
    rcases List.mem_cons.1 hz with rfl | hz
    · exact ⟨h, h1⟩
    · exact ⟨h.trans (h3 z hz).1, (h3 z hz).2⟩
  induction p generalizing s with
  | done r => exact ⟨.refl _, .nil, by simp [EProg.states]⟩
  | load k n ih =>
    simp only [EProg.states, EProg.alone]
    cases dget s.trie.store.kv k with
    | none => exact ⟨.refl _, one s⟩
    | some v => exact step s s _ _ (.refl _) (ih v s)
  | save k v n ih => exact step _ _ _ _ (.set _ _ _) (ih _)
  | root n ih => exact step _ _ _ _ (.refl _) (ih _ s)
  | setRoot r n ih => exact step _ _ _ _ (.refl _) (ih _)
  | data k n ih =>
    simp only [EProg.states, EProg.alone]
    cases dget s.data k with
    | none => exact ⟨.refl _, one s⟩
    | some v => exact step s s _ _ (.refl _) (ih v s)
  | setData k v n ih => exact step _ _ _ _ (.refl _) (ih _)
  | delData k n ih =>
    simp only [EProg.states, EProg.alone]
    cases dget s.data k with
    | none => exact ⟨.refl _, one s⟩
    | some v => exact step _ _ _ _ (.refl _) (ih _)

theorem EMPT.passes_taller (E : Env) (s : EMPT) (ops : List EOp) :
    (EMPT.passes E s ops).Pairwise TallerE ∧ ∀ z ∈ EMPT.passes E s ops, TallerE s z := by
  induction ops generalizing s with
  | nil =>
    refine ⟨by simp [EMPT.passes], fun z hz => ?_⟩
    rw [EMPT.passes, List.mem_singleton] at hz
    rw [hz]; exact .refl _
  | cons op ops ih =>
    obtain ⟨h1, h2, h3⟩ := EProg.states_taller (op.prog E s.trie.secure) s
    rw [EOp.prog_alone] at h1 h3
    obtain ⟨i1, i2⟩ := ih (EMPT.exec E op s).2
    unfold EMPT.passes
    have hall : ∀ z ∈ (op.prog E s.trie.secure).states s ++ EMPT.passes E (EMPT.exec E op s).2 ops, TallerE s z := by
      intro z hz
      rcases List.mem_append.1 hz with hz | hz
      · exact (h3 z hz).1
      · exact h1.trans (i2 z hz)
    refine ⟨List.pairwise_cons.2 ⟨hall, List.pairwise_append.2 ⟨h2, i1, fun a ha b hb => ?_⟩⟩, fun z hz => ?_⟩
    · exact (h3 a ha).2.trans (i2 b hb)
    · rcases List.mem_cons.1 hz with rfl | hz
      · exact .refl _
      · exact hall z hz

theorem after_nodup (E : Env) (secure : Bool) (ops : List Op) :
    ((MPT.after E secure ops).store.kv.map (·.1)).Nodup := by
  rw [after_replay]
  exact Props.replay_nodup E _ (by simp [Store.empty])

theorem EValid.shelves {E : Env} {secure : Bool} {pre mid : List EOp} {ks : List Bytes}
    (h : EValid E secure (pre ++ mid) ks) {V : Nat → EMPT}
    (hV : Sees (EMPT.passes E (EMPT.after E secure pre) mid) V) : Shelves fun n => (V n).trie := by
  obtain ⟨⟨e, hv⟩, _⟩ := h.views hV
  obtain ⟨h1, h2⟩ := EMPT.passes_taller E (EMPT.after E secure pre) mid
  obtain ⟨mom, hmono, hsee⟩ := hV
  have hn : ((EMPT.after E secure pre).trie.store.kv.map (·.1)).Nodup := by
    have := h.midState_trie 0
    unfold midState at this
    rw [List.take_zero, List.append_nil] at this
    rw [this]
    exact after_nodup _ _ _
  refine ⟨fun n => (h2 _ (List.mem_of_getElem? (hsee n))).2 hn, fun n => ?_, hv.mono⟩
  rcases Nat.lt_or_eq_of_le (hmono n) with hlt | he
  · obtain ⟨g1, e1⟩ := List.getElem?_eq_some_iff.1 (hsee n)
    obtain ⟨g2, e2⟩ := List.getElem?_eq_some_iff.1 (hsee (n + 1))
    have := List.pairwise_iff_getElem.1 h1 _ _ g1 g2 hlt
    rw [e1, e2] at this
    exact this.1
  · have e1 := hsee n
    have e2 := hsee (n + 1)
    rw [← he, e1] at e2
    injection e2 with e2
    show KeysGrow (V n).trie.store.kv (V (n + 1)).trie.store.kv
    rw [e2]
    exact .refl _

/-! ### What the copies answer -/

variable {E : Env} {t s : MPT} {a : T} {k : Bytes}

/-- Opened again with its root, a trie is as before. -/
theorem T.Holds.opened {sec : Bool} (h1 : T.Holds E t a) : T.Holds E (MPT.init E t.store t.root sec) a := by
  refine ⟨h1.shape, h1.stored, h1.good, ?_⟩
  rcases h1.root with ⟨e, h3⟩ | ⟨e, h3⟩
  · refine .inl ⟨e, .inr ?_⟩
    rcases h3 with h3 | h3 <;> simp [MPT.init, h3]
  · exact .inr ⟨e, by simp [MPT.init, h3]⟩

/-- Over a dict with more nodes a trie is as before. -/
theorem T.Holds.copied (h1 : T.Holds E t a) {st : Store} (hs : Sub t.store st) (hg : Good E st) :
    T.Holds E { t with store := st } a := ⟨h1.shape, h1.stored.mono hs, hg, h1.root⟩

theorem get_new (hr : t.root = some (emptyHash E)) (hd : dget t.store.kv (emptyHash E) = none) (hl : 0 < E.limit) :
    t.get E k = .error .keyError := by
  have h0 := T.emptyHash_ne_nil E
  have h32 : (emptyHash E).length = 32 := E.keccak_len _
  obtain ⟨f, hf⟩ : ∃ f, E.limit = f + 1 := ⟨E.limit - 1, by omega⟩
  unfold MPT.get MPT.rootFalsy
  rw [hr]
  simp [h0, hf, MPT.getAux, MPT.getNode, h32, dgetItem, hd]

theorem Alike.sameOrKeyError (ha : Alike t s) (h : T.Holds E s a) (hl : LogOk E s.store.written) (hf : Fits E s.secure k)
    (hr : s.root ≠ none) (hd : dget t.store.kv (emptyHash E) = none) : SameOrKeyError E t s k := by
  obtain ⟨q1, q2, q3, q4⟩ := h.never_key hl (fits_nibs hf)
  refine ⟨?_, ?_, fun now => ?_, fun now => ?_⟩
  · rcases ha.get (E := E) k with h1 | h1 | h1
    · exact .inl h1
    · rcases h.root with ⟨_, h2⟩ | ⟨hne, _⟩
      · rcases h2 with h2 | h2
        · exact absurd h2 hr
        · exact .inl (get_new (ha.root.trans h2) hd (Nat.lt_of_le_of_lt (Nat.zero_le _) hf))
      · exact absurd h1 (q1 hne)
    · exact .inr h1
  · rcases ha.contains (E := E) k with h1 | h1 | h1
    · exact .inl h1
    · exact absurd h1 q2
    · exact .inr h1
  · rcases ha.getPoi (E := E) now k with h1 | h1 | h1
    · exact .inl h1
    · exact absurd h1 (q3 now)
    · exact .inr h1
  · rcases ha.getPoe (E := E) now k with h1 | h1 | h1
    · exact .inl h1
    · exact absurd h1 (q4 now)
    · exact .inr h1

theorem SameR.swap {α : Type} {x y : Py α} (h : SameR x y) : SameR y x := by
  rcases h with h | h | h
  · exact .inr (.inl h)
  · exact .inl h
  · exact .inr (.inr h.symm)

theorem Alike.swap (h : Alike t s) : Alike s t :=
  ⟨h.root.symm, h.secure.symm, fun k v w hv hw => (h.agree k w v hw hv).symm⟩

theorem Alike.sameAnswers (ha : Alike t s) {a' : T} (h : T.Holds E s a) (hl : LogOk E s.store.written)
    (hf : Fits E s.secure k) (h' : T.Holds E t a') (hl' : LogOk E t.store.written) (hr : s.root ≠ none)
    (hd : dget t.store.kv (emptyHash E) = none) (hd' : dget s.store.kv (emptyHash E) = none) :
    SameAnswers E t s k := by
  have hf' : Fits E t.secure k := by rw [ha.secure]; exact hf
  have h1 := ha.sameOrKeyError h hl hf hr hd
  have h2 := ha.swap.sameOrKeyError h' hl' hf' (by rw [ha.root]; exact hr) hd'
  obtain ⟨_, p2, p3, p4⟩ := h'.never_key hl' (fits_nibs hf')
  refine ⟨?_, h1.2.1.resolve_left p2, fun now => (h1.2.2.1 now).resolve_left (p3 now),
    fun now => (h1.2.2.2 now).resolve_left (p4 now)⟩
  rcases h1.1 with e1 | e1
  · rcases h2.1 with e2 | e2
    · rw [e1, e2]
    · exact e2.symm
  · exact e1

/-- Entries of two dicts of nodes agree. -/
theorem GS.agree {log : List Bytes} {a b : Store} (ha : GS E log a) (hb : GS E log b) (hl : LogOk E log) :
    Agree a.kv b.kv := by
  intro k v w hv hw
  obtain ⟨e1, m1, _⟩ := ha k v hv
  obtain ⟨e2, m2, _⟩ := hb k w hw
  exact hl.coll v (List.mem_cons_of_mem _ m1) w (List.mem_cons_of_mem _ m2) (e1.symm.trans e2)

namespace Views
variable {log : List Bytes} {sec : Bool} {st : Nat → MPT} {e : Nat → Nat} {V : Nat → MPT}

/-- A copy with the nodes seen by one access and the root seen by another. -/
theorem torn (h : Views E log sec st e V) (a b : Nat) {c : MPT} (hk : c.store.kv = (V a).store.kv)
    (hr : c.root = some ((V b).root.getD (emptyHash E))) (hs : c.secure = sec) {k : Bytes} (hf : Fits E sec k) :
    SameOrKeyError E c (MPT.init E (st (e b)).store (st (e b)).root sec) k := by
  obtain ⟨m, hi, _⟩ := (h.ok (e b)).bears
  refine Alike.sameOrKeyError (a := m) ⟨?_, hs, ?_⟩ hi.opened (h.log.mono (h.ok (e b)).written) hf (by simp [MPT.init]) ?_
  · rw [hr, h.root]; rfl
  · rw [hk]; exact GS.agree (h.gs a) (h.ok (e b)).gs h.log
  · rw [hk]; exact (h.gs a).noEmpty h.log

/-- A copy with the root that went with the nodes. -/
theorem whole (h : Views E log sec st e V) (a : Nat) {c : MPT} (hk : c.store.kv = (V a).store.kv)
    (hw : c.store.written = (V a).store.kv.map (·.2)) (hn : ((V a).store.kv.map (·.1)).Nodup)
    (hr : c.root = some ((V a).root.getD (emptyHash E))) (hs : c.secure = sec) {k : Bytes} (hf : Fits E sec k) :
    SameAnswers E c (MPT.init E (st (e a)).store (st (e a)).root sec) k := by
  obtain ⟨m, hi, _⟩ := (h.ok (e a)).bears
  have hgood : Good E c.store := by
    intro k v hv
    rw [hk] at hv
    exact ⟨(h.gs a k v hv).1, by rw [hw]; exact List.mem_map.2 ⟨(k, v), mem_of_dget hv, rfl⟩⟩
  have hsub : Sub (st (e a)).store c.store := fun k v hv => by rw [hk]; exact h.sub a k v hv
  have hc : T.Holds E c m := by
    have := (hi.opened (sec := sec)).copied (st := c.store) hsub hgood
    have he : ({ MPT.init E (st (e a)).store (st (e a)).root sec with store := c.store } : MPT) = c := by
      obtain ⟨cs, cr, csec⟩ := c
      simp only at hr hs
      subst hr hs
      simp only [MPT.init, h.root]
    rwa [he] at this
  refine Alike.sameAnswers (a := m) (a' := m) ⟨?_, hs, ?_⟩ hi.opened (h.log.mono (h.ok (e a)).written) hf hc ?_
    (by simp [MPT.init]) ?_ ((h.ok (e a)).gs.noEmpty h.log)
  · rw [hr, h.root]; rfl
  · rw [hk]; exact GS.agree (h.gs a) (h.ok (e a)).gs h.log
  · refine h.log.mono fun w hw' => ?_
    rw [hw] at hw'
    obtain ⟨x, hx, rfl⟩ := List.mem_map.1 hw'
    exact (h.gs a x.1 x.2 (dget_mem hn hx)).2.1
  · rw [hk]; exact (h.gs a).noEmpty h.log

end Views
/-! ### Decoding an encoded copy -/

theorem rebuild_written (E : Env) (l : List Bytes) (st : Store) :
    (l.foldl (fun s n => s.set (E.keccak n) n) st).written = st.written ++ l := by
  induction l generalizing st with
  | nil => simp
  | cons w l ih =>
    rw [List.foldl_cons, ih]
    show (st.written ++ [w]) ++ l = _
    rw [List.append_assoc]
    rfl

theorem decode_encode {E : Env} {st : Store} {r : Bytes} {sec : Bool} {b : Bytes}
    (hn : (st.kv.map (·.1)).Nodup) (hg : ∀ k v, dget st.kv k = some v → k = E.keccak v ∧ 32 ≤ v.length)
    (he : MPT.encode ⟨st, some r, sec⟩ = .ok b) (hb : b.length < 2 ^ 64) :
    MPT.decode E b = .ok (MPT.init E ⟨st.kv, st.kv.map (·.2)⟩ (some r) sec) := by
  have henc := Props.prepareAll_long (l := st.kv.map (·.2)) (by
    intro w hw
    obtain ⟨⟨k, w'⟩, hm, rfl⟩ := List.mem_map.1 hw
    exact (hg k w' (dget_mem hn hm)).2)
  simp only [MPT.encode, henc, Except.bind_ok'] at he
  injection he with he
  have hkv : MPT.rebuild E (st.kv.map (·.2)) = ⟨st.kv, st.kv.map (·.2)⟩ := by
    have h1 : (MPT.rebuild E (st.kv.map (·.2))).kv = st.kv := by
      rw [MPT.rebuild, Props.rebuild_kv _ _ (by simpa [Store.empty] using hn)]
      · simp [Store.empty]
      · intro e he
        exact (hg e.1 e.2 (dget_mem hn he)).1
    have h2 : (MPT.rebuild E (st.kv.map (·.2))).written = st.kv.map (·.2) := by
      rw [MPT.rebuild, rebuild_written]
      rfl
    generalize MPT.rebuild E (st.kv.map (·.2)) = x at h1 h2
    obtain ⟨k, w⟩ := x
    simp only at h1 h2
    rw [h1, h2]
  unfold MPT.decode
  rw [← he] at hb ⊢
  rw [rlpDecode_encode _ hb]
  have := Props.binaries_str (st.kv.map (·.2))
  cases sec <;> simp [MPT.binary, this, MPT.boolItem, MPT.boolean, hkv, -List.map_map]

end Pymt
