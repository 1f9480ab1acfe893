import Verif.Lemmas.EmptCrowd
import Verif.Spec.EmptTurns

/-!
# Lemmas: threads that take turns to write to one `EMPT`
-/

namespace Pymt

namespace EProg

/-- A program that does not write. -/
def Still {α : Type} : EProg α → Prop
  | .done _ => True
  | .load _ n => ∀ v, (n v).Still
  | .root n => ∀ r, (n r).Still
  | .data _ n => ∀ v, (n v).Still
  | _ => False

theorem Still.bind {α β : Type} {p : EProg α} {f : α → EProg β} (h : p.Still) (hf : ∀ a, (f a).Still) :
    (p >>= f).Still := by
  show (p.bind f).Still
  induction p with
  | done r =>
    cases r with
    | ok a => exact hf a
    | error e => trivial
  | load k n ih => exact fun v => ih v (h v)
  | root n ih => exact fun r => ih r (h r)
  | data k n ih => exact fun v => ih v (h v)
  | save | setRoot | setData | delData => exact h.elim

theorem Still.trie {α : Type} {p : Prog α} (h : p.Quiet) : (EProg.trie p).Still := by
  induction p with
  | done r => trivial
  | load k n ih => exact fun v => ih v (h v)
  | root n ih => exact fun r => ih r (h r)
  | save | setRoot => exact h.elim

theorem Still.access {p : EProg EAns} (h : p.Still) (s : EMPT) :
    (EWorld.access p s).1 = s ∧ (EWorld.access p s).2.Still := by
  cases p with
  | done r => exact ⟨rfl, trivial⟩
  | load k n =>
    simp only [EWorld.access]
    cases dget s.trie.store.kv k with
    | none => exact ⟨rfl, trivial⟩
    | some v => exact ⟨rfl, h v⟩
  | root n => exact ⟨rfl, h _⟩
  | data k n =>
    simp only [EWorld.access]
    cases dget s.data k with
    | none => exact ⟨rfl, trivial⟩
    | some v => exact ⟨rfl, h v⟩
  | save | setRoot | setData | delData => exact h.elim

/-- What a program does alone, it does after its first access too. -/
theorem alone_access (p : EProg EAns) (s : EMPT) :
    (EWorld.access p s).2.alone (EWorld.access p s).1 = p.alone s := by
  cases p with
  | done r => rfl
  | load k n => simp only [EWorld.access, alone]; cases dget s.trie.store.kv k <;> rfl
  | root n => rfl
  | data k n => simp only [EWorld.access, alone]; cases dget s.data k <;> rfl
  | save | setRoot | setData => rfl
  | delData k n => simp only [EWorld.access, alone]; cases dget s.data k <;> rfl

theorem access_secure (p : EProg EAns) (s : EMPT) : (EWorld.access p s).1.trie.secure = s.trie.secure := by
  cases p with
  | load k n => simp only [EWorld.access]; cases dget s.trie.store.kv k <;> rfl
  | data k n => simp only [EWorld.access]; cases dget s.data k <;> rfl
  | delData k n => simp only [EWorld.access]; cases dget s.data k <;> rfl
  | done | root | save | setRoot | setData => rfl

theorem map_alone {α β : Type} (p : EProg α) (g : α → β) (s : EMPT) :
    (p >>= fun a => (.done (.ok (g a)) : EProg β)).alone s = ((p.alone s).1.map g, (p.alone s).2) := by
  rw [alone_bind]
  cases p.alone s with
  | mk r s' => cases r <;> rfl

end EProg

theorem ECall.prog_alone (E : Env) (c : ECall) (s : EMPT) : (c.prog E s.trie.secure).alone s = c.seq E s := by
  cases c with
  | update k v =>
    have h := EOp.prog_alone E (.update k v) s
    show (EMPT.updateCallP E s.trie.secure k v >>= fun _ => EProg.done (.ok EAns.none)).alone s = _
    rw [EProg.map_alone, show (EMPT.updateCallP E s.trie.secure k v).alone s = EMPT.update E k v s from h]
    rfl
  | delete k =>
    have h := EOp.prog_alone E (.delete k) s
    show (EMPT.deleteCallP E s.trie.secure k >>= fun _ => EProg.done (.ok EAns.none)).alone s = _
    rw [EProg.map_alone, show (EMPT.deleteCallP E s.trie.secure k).alone s = EMPT.delete E k s from h]
    rfl
  | get k =>
    show (EMPT.getCallP E s.trie.secure k >>= fun v => EProg.done (.ok (EAns.value v))).alone s = _
    rw [EProg.map_alone, EMPT.getCall_alone]
    rfl
  | contains k =>
    show (EMPT.containsCallP E s.trie.secure k >>= fun v => EProg.done (.ok (EAns.bool v))).alone s = _
    rw [EProg.map_alone, EMPT.containsCall_alone]
    rfl

theorem ECall.still (E : Env) (secure : Bool) {c : ECall} (h : c.op? = none) : (c.prog E secure).Still := by
  cases c with
  | update k v => exact (nomatch h)
  | delete k => exact (nomatch h)
  | get k =>
    refine EProg.Still.bind ?_ fun _ => trivial
    exact EProg.Still.bind (fun _ => trivial) fun _ =>
      EProg.Still.bind (.trie (Prog.Quiet.getCall E _)) fun _ => trivial
  | contains k =>
    exact EProg.Still.bind (.trie (Prog.Quiet.containsCall E _)) fun _ => trivial

theorem ECall.seq_op {E : Env} {c : ECall} {op : EOp} (h : c.op? = some op) (s : EMPT) :
    c.seq E s = ((EMPT.exec E op s).1.map (fun _ => .none), (EMPT.exec E op s).2) := by
  cases c with
  | update k v => injection h with h; subst h; rfl
  | delete k => injection h with h; subst h; rfl
  | get k => exact (nomatch h)
  | contains k => exact (nomatch h)

/-! ## One client -/

theorem EMPT.outcomes_append (E : Env) (ops ops' : List EOp) (s : EMPT) :
    EMPT.outcomes E (ops ++ ops') s = EMPT.outcomes E ops s ++ EMPT.outcomes E ops' (EMPT.run E ops s) := by
  induction ops generalizing s with
  | nil => rfl
  | cons op ops ih => exact congrArg _ (ih _)

theorem EMPT.outcomes_length (E : Env) (ops : List EOp) (s : EMPT) : (EMPT.outcomes E ops s).length = ops.length := by
  induction ops generalizing s with
  | nil => rfl
  | cons op ops ih => exact congrArg (· + 1) (ih _)

theorem oneByOne_snoc (E : Env) (secure : Bool) (pre : List (Nat × EOp)) (i j : Nat) (op : EOp) :
    oneByOne E secure (pre ++ [(i, op)]) j = oneByOne E secure pre j ++
      if i = j then [(op, (EMPT.exec E op (EMPT.after E secure (pre.map Prod.snd))).1.map fun _ => EAns.none)]
      else [] := by
  unfold oneByOne
  rw [List.map_append, EMPT.outcomes_append, List.zip_append (by rw [EMPT.outcomes_length, List.length_map]),
    List.filterMap_append]
  congr 1
  show (List.zip [(i, op)] [_]).filterMap _ = _
  simp only [List.zip_cons_cons, List.zip_nil_left, List.filterMap_cons, List.filterMap_nil]
  split
  · rename_i h
    split at h
    · exact (nomatch h)
    · rename_i h'; rw [if_neg h']
  · rename_i h
    split at h
    · rename_i h'; rw [if_pos h']; injection h with h; rw [← h]; rfl
    · exact (nomatch h)

theorem zip_snoc {α β : Type} {l : List α} {m : List β} {a : α} (h : l[m.length]? = some a) (b : β) :
    l.zip (m ++ [b]) = l.zip m ++ [(a, b)] := by
  induction m generalizing l with
  | nil =>
    cases l with
    | nil => exact (nomatch h)
    | cons x l => injection h with h; subst h; rw [List.nil_append, List.zip_cons_cons]; simp
  | cons x m ih =>
    cases l with
    | nil => exact (nomatch h)
    | cons y l => exact congrArg ((y, x) :: ·) (ih (l := l) (by simpa using h))

/-! ## The invariant -/

/-- What is true at every moment when writers take turns. -/
structure ETurnOk (E : Env) (secure : Bool) (calls : Nat → List ECall) (w : EWorld) (order : List (Nat × EOp)) :
    Prop where
  sec : w.obj.trie.secure = secure
  busy : ∀ j p, (w.threads j).cur = some p → ∃ c, (calls j)[(w.threads j).outs.length]? = some c ∧
    (w.threads j).rest = (calls j).drop ((w.threads j).outs.length + 1) ∧ (c.op? = none → p.Still)
  later : ∀ j, (w.threads j).cur = none → (w.threads j).rest = (calls j).drop (w.threads j).outs.length
  state : (w.Unwritten calls ∧ w.obj = EMPT.after E secure (order.map Prod.snd) ∧
      ∀ j, w.finished calls j = oneByOne E secure order j) ∨
    ∃ j p c op pre, (w.threads j).cur = some p ∧ (calls j)[(w.threads j).outs.length]? = some c ∧ c.op? = some op ∧
      order = pre ++ [(j, op)] ∧ p.alone w.obj = c.seq E (EMPT.after E secure (pre.map Prod.snd)) ∧
      ∀ j, w.finished calls j = oneByOne E secure pre j

section
variable {E : Env} {secure : Bool} {calls : Nat → List ECall} {w : EWorld} {order : List (Nat × EOp)}

/-- No two threads write at this moment. -/
def EWorld.One (w : EWorld) (calls : Nat → List ECall) : Prop :=
  ∀ j n c j' n' c', w.Running j n → (calls j)[n]? = some c → c.op? ≠ none →
    w.Running j' n' → (calls j')[n']? = some c' → c'.op? ≠ none → j = j'

theorem ETurnOk.new (E : Env) (secure : Bool) (calls : Nat → List ECall) :
    ETurnOk E secure calls (EWorld.new E secure calls) [] where
  sec := rfl
  busy := fun j p h => (nomatch h)
  later := fun j _ => rfl
  state := .inl ⟨fun j n c h _ => (nomatch h.2), rfl, fun j => by
    show ((calls j).zip []).filterMap _ = _
    rw [List.zip_nil_right]; rfl⟩

theorem running_of {p : EProg EAns} {j : Nat} (h : (w.threads j).cur = some p) :
    w.Running j (w.threads j).outs.length := ⟨rfl, by rw [h]; rfl⟩

/-- A step that begins a call. -/
theorem ETurnOk.begin (h : ETurnOk E secure calls w order) {j : Nat} {c : ECall} {rest : List ECall}
    (hcur : (w.threads j).cur = none) (hrest : (w.threads j).rest = c :: rest)
    (h1 : (w.step E j).One calls) :
    ETurnOk E secure calls (w.step E j) (order ++ w.begins j) := by
  have hc : (calls j)[(w.threads j).outs.length]? = some c := by
    have := h.later j hcur
    rw [hrest] at this
    have := congrArg (·[0]?) this
    simpa using this.symm
  have hr : rest = (calls j).drop ((w.threads j).outs.length + 1) := by
    have := congrArg (List.drop 1) (h.later j hcur)
    rw [hrest, List.drop_drop] at this
    exact this
  have hb : w.begins j = c.op?.toList.map fun op => (j, op) := by
    unfold EWorld.begins; rw [hcur, hrest]
  have hs : w.step E j = w.setThread j
      { w.threads j with cur := some (c.prog E w.obj.trie.secure), rest := rest } := by
    unfold EWorld.step; simp only [hcur, hrest]
  have hj : (w.step E j).threads j = { w.threads j with cur := some (c.prog E w.obj.trie.secure), rest := rest } := by
    rw [hs]; exact w.setThread_same j _
  have hi : ∀ i, i ≠ j → (w.step E j).threads i = w.threads i := fun i e => by
    rw [hs]; exact w.setThread_other _ e
  have ho : (w.step E j).obj = w.obj := by rw [hs]; rfl
  have houts : ∀ i, ((w.step E j).threads i).outs = (w.threads i).outs := fun i => by
    by_cases e : i = j
    · subst e; rw [hj]
    · rw [hi i e]
  have hf : ∀ i, (w.step E j).finished calls i = w.finished calls i := fun i => by
    unfold EWorld.finished; rw [houts]
  refine ⟨by rw [ho]; exact h.sec, fun i p hp => ?_, fun i hp => ?_, ?_⟩
  · by_cases e : i = j
    · subst e
      rw [hj] at hp ⊢
      injection hp with hp
      subst hp
      exact ⟨c, hc, hr, fun hn => ECall.still E _ hn⟩
    · rw [hi i e] at hp ⊢; exact h.busy i p hp
  · by_cases e : i = j
    · subst e; rw [hj] at hp; exact (nomatch hp)
    · rw [hi i e] at hp ⊢; exact h.later i hp
  · have hrun : ∀ i, i ≠ j → ∀ n, (w.step E j).Running i n → w.Running i n := fun i e n hn => by
      unfold EWorld.Running at hn; rw [hi i e] at hn; exact hn
    cases hop : c.op? with
    | none =>
      rw [hop] at hb
      rw [hb]
      simp only [Option.toList_none, List.map_nil, List.append_nil]
      rcases h.state with ⟨a1, a2, a3⟩ | ⟨j0, p, c0, op, pre, b1, b2, b3, b4, b5, b6⟩
      · refine .inl ⟨fun i n c' hn hc' => ?_, by rw [ho]; exact a2, fun i => by rw [hf]; exact a3 i⟩
        by_cases e : i = j
        · subst e
          have := hn.1
          rw [houts] at this
          subst this
          rw [hc] at hc'
          injection hc' with hc'
          subst hc'
          exact hop
        · exact a1 i n c' (hrun i e n hn) hc'
      · have e : j0 ≠ j := fun e => by subst e; rw [hcur] at b1; exact (nomatch b1)
        exact .inr ⟨j0, p, c0, op, pre, by rw [hi _ e]; exact b1, by rw [hi _ e]; exact b2, b3, b4, by rw [ho]; exact b5,
          fun i => by rw [hf]; exact b6 i⟩
    | some op =>
      rw [hop] at hb
      rw [hb]
      rcases h.state with ⟨a1, a2, a3⟩ | ⟨j0, p, c0, op0, pre, b1, b2, b3, b4, b5, b6⟩
      · refine .inr ⟨j, _, c, op, order, by rw [hj], by rw [hj]; exact hc, hop, rfl, ?_,
          fun i => by rw [hf]; exact a3 i⟩
        rw [ho, ECall.prog_alone, ← a2]
      · have e : j0 ≠ j := fun e => by subst e; rw [hcur] at b1; exact (nomatch b1)
        refine absurd ?_ e
        refine h1 j0 _ c0 j _ c (running_of (p := p) (by rw [hi _ e]; exact b1)) (by rw [hi _ e]; exact b2)
          (by rw [b3]; simp) (running_of (p := c.prog E w.obj.trie.secure) (by rw [hj])) (by rw [hj]; exact hc)
          (by rw [hop]; simp)

/-- A step that ends a call. -/
theorem ETurnOk.finish (h : ETurnOk E secure calls w order) {j : Nat} {r : Py EAns}
    (hcur : (w.threads j).cur = some (.done r)) (h1 : w.One calls) :
    ETurnOk E secure calls (w.step E j) order := by
  obtain ⟨c, hc, hr, _⟩ := h.busy j _ hcur
  have hs : w.step E j = w.setThread j { w.threads j with cur := none, outs := (w.threads j).outs ++ [r] } := by
    unfold EWorld.step; simp only [hcur]
  have hj : (w.step E j).threads j = { w.threads j with cur := none, outs := (w.threads j).outs ++ [r] } := by
    rw [hs]; exact w.setThread_same j _
  have hi : ∀ i, i ≠ j → (w.step E j).threads i = w.threads i := fun i e => by
    rw [hs]; exact w.setThread_other _ e
  have ho : (w.step E j).obj = w.obj := by rw [hs]; rfl
  have hf : ∀ i, i ≠ j → (w.step E j).finished calls i = w.finished calls i := fun i e => by
    unfold EWorld.finished; rw [hi i e]
  have hfj : (w.step E j).finished calls j = w.finished calls j ++ (c.op?.map fun op => (op, r)).toList := by
    unfold EWorld.finished
    rw [hj]
    simp only
    rw [zip_snoc hc, List.filterMap_append]
    congr 1
  have hrun : ∀ i n, (w.step E j).Running i n → i ≠ j ∧ w.Running i n := fun i n hn => by
    have e : i ≠ j := fun e => by
      subst e
      have := hn.2
      rw [hj] at this
      exact (nomatch this)
    unfold EWorld.Running at hn
    rw [hi i e] at hn
    exact ⟨e, hn⟩
  refine ⟨by rw [ho]; exact h.sec, fun i p hp => ?_, fun i hp => ?_, ?_⟩
  · by_cases e : i = j
    · subst e; rw [hj] at hp; exact (nomatch hp)
    · rw [hi i e] at hp ⊢; exact h.busy i p hp
  · by_cases e : i = j
    · subst e; rw [hj]; simp only [List.length_append, List.length_singleton]; exact hr
    · rw [hi i e] at hp ⊢; exact h.later i hp
  · cases hop : c.op? with
    | none =>
      have hf' : ∀ i, (w.step E j).finished calls i = w.finished calls i := fun i => by
        by_cases e : i = j
        · subst e; rw [hfj, hop]; simp
        · exact hf i e
      rcases h.state with ⟨a1, a2, a3⟩ | ⟨j0, p, c0, op, pre, b1, b2, b3, b4, b5, b6⟩
      · exact .inl ⟨fun i n c' hn hc' => a1 i n c' (hrun i n hn).2 hc', by rw [ho]; exact a2,
          fun i => by rw [hf']; exact a3 i⟩
      · have e : j0 ≠ j := fun e => by
          subst e
          rw [hc] at b2
          injection b2 with b2
          subst b2
          rw [hop] at b3
          exact (nomatch b3)
        exact .inr ⟨j0, p, c0, op, pre, by rw [hi _ e]; exact b1, by rw [hi _ e]; exact b2, b3, b4, by rw [ho]; exact b5,
          fun i => by rw [hf']; exact b6 i⟩
    | some op =>
      rcases h.state with ⟨a1, a2, a3⟩ | ⟨j0, p, c0, op0, pre, b1, b2, b3, b4, b5, b6⟩
      · have := a1 j _ c (running_of hcur) hc
        rw [hop] at this
        exact (nomatch this)
      · have e : j0 = j := h1 j0 _ c0 j _ c (running_of b1) b2 (by rw [b3]; simp) (running_of hcur) hc (by rw [hop]; simp)
        subst e
        rw [hc] at b2
        injection b2 with b2
        subst b2
        rw [hop] at b3
        injection b3 with b3
        subst b3
        rw [hcur] at b1
        injection b1 with b1
        subst b1
        rw [ECall.seq_op hop] at b5
        have b7 : r = (EMPT.exec E op (EMPT.after E secure (pre.map Prod.snd))).1.map fun _ => EAns.none :=
          congrArg Prod.fst b5
        have b8 : w.obj = (EMPT.exec E op (EMPT.after E secure (pre.map Prod.snd))).2 := congrArg Prod.snd b5
        refine .inl ⟨fun i n c' hn hc' => ?_, ?_, fun i => ?_⟩
        · obtain ⟨e, hn'⟩ := hrun i n hn
          cases hop' : c'.op? with
          | none => rfl
          | some op' =>
            exact absurd (h1 i n c' j0 _ c hn' hc' (by rw [hop']; simp) (running_of hcur) hc (by rw [hop]; simp)) e
        · rw [ho, b8, b4, List.map_append]
          unfold EMPT.after EMPT.run
          rw [List.foldl_append]
          rfl
        · rw [b4, oneByOne_snoc, ← b6 i]
          by_cases e : i = j0
          · subst e; rw [hfj, hop, if_pos rfl, b7]; rfl
          · rw [hf i e, if_neg (Ne.symm e), List.append_nil]

/-- A step that touches shared state. -/
theorem ETurnOk.access (h : ETurnOk E secure calls w order) {j : Nat} {p : EProg EAns}
    (hcur : (w.threads j).cur = some p) (hp : ∀ r, p ≠ .done r) (h1 : w.One calls) :
    ETurnOk E secure calls (w.step E j) order := by
  obtain ⟨c, hc, hr, hst⟩ := h.busy j _ hcur
  have hs : w.step E j = { w.setThread j { w.threads j with cur := some (EWorld.access p w.obj).2 } with
      obj := (EWorld.access p w.obj).1 } := by
    unfold EWorld.step; simp only [hcur]
  have hj : (w.step E j).threads j = { w.threads j with cur := some (EWorld.access p w.obj).2 } := by
    rw [hs]; exact w.setThread_same j _
  have hi : ∀ i, i ≠ j → (w.step E j).threads i = w.threads i := fun i e => by
    rw [hs]; exact w.setThread_other _ e
  have ho : (w.step E j).obj = (EWorld.access p w.obj).1 := by rw [hs]
  have houts : ∀ i, ((w.step E j).threads i).outs = (w.threads i).outs := fun i => by
    by_cases e : i = j
    · subst e; rw [hj]
    · rw [hi i e]
  have hf : ∀ i, (w.step E j).finished calls i = w.finished calls i := fun i => by
    unfold EWorld.finished; rw [houts]
  have hrun : ∀ i n, (w.step E j).Running i n → w.Running i n := fun i n hn => by
    unfold EWorld.Running at hn ⊢
    rw [houts] at hn
    refine ⟨hn.1, ?_⟩
    by_cases e : i = j
    · subst e; rw [hcur]; rfl
    · rw [hi i e] at hn; exact hn.2
  refine ⟨by rw [ho, EProg.access_secure]; exact h.sec, fun i p' hp' => ?_, fun i hp' => ?_, ?_⟩
  · by_cases e : i = j
    · subst e
      rw [hj] at hp' ⊢
      injection hp' with hp'
      subst hp'
      exact ⟨c, hc, hr, fun hn => ((hst hn).access w.obj).2⟩
    · rw [hi i e] at hp' ⊢; exact h.busy i p' hp'
  · by_cases e : i = j
    · subst e; rw [hj] at hp'; exact (nomatch hp')
    · rw [hi i e] at hp' ⊢; exact h.later i hp'
  · cases hop : c.op? with
    | none =>
      have ho' : (w.step E j).obj = w.obj := by rw [ho]; exact ((hst hop).access w.obj).1
      rcases h.state with ⟨a1, a2, a3⟩ | ⟨j0, p0, c0, op, pre, b1, b2, b3, b4, b5, b6⟩
      · exact .inl ⟨fun i n c' hn hc' => a1 i n c' (hrun i n hn) hc', by rw [ho']; exact a2,
          fun i => by rw [hf]; exact a3 i⟩
      · have e : j0 ≠ j := fun e => by
          subst e
          rw [hc] at b2
          injection b2 with b2
          subst b2
          rw [hop] at b3
          exact (nomatch b3)
        exact .inr ⟨j0, p0, c0, op, pre, by rw [hi _ e]; exact b1, by rw [hi _ e]; exact b2, b3, b4,
          by rw [ho']; exact b5, fun i => by rw [hf]; exact b6 i⟩
    | some op =>
      rcases h.state with ⟨a1, a2, a3⟩ | ⟨j0, p0, c0, op0, pre, b1, b2, b3, b4, b5, b6⟩
      · have := a1 j _ c (running_of hcur) hc
        rw [hop] at this
        exact (nomatch this)
      · have e : j0 = j := h1 j0 _ c0 j _ c (running_of b1) b2 (by rw [b3]; simp) (running_of hcur) hc (by rw [hop]; simp)
        subst e
        rw [hcur] at b1
        injection b1 with b1
        subst b1
        exact .inr ⟨j0, _, c0, op0, pre, by rw [hj], by rw [hj]; exact b2, b3, b4,
          by rw [ho, EProg.alone_access]; exact b5, fun i => by rw [hf]; exact b6 i⟩

theorem ETurnOk.step (h : ETurnOk E secure calls w order) (j : Nat) (h0 : w.One calls) (h1 : (w.step E j).One calls) :
    ETurnOk E secure calls (w.step E j) (order ++ w.begins j) := by
  cases hcur : (w.threads j).cur with
  | none =>
    cases hrest : (w.threads j).rest with
    | nil =>
      have hs : w.step E j = w := by unfold EWorld.step; simp only [hcur, hrest]
      have hb : w.begins j = [] := by unfold EWorld.begins; rw [hcur, hrest]
      rw [hs, hb, List.append_nil]
      exact h
    | cons c rest => exact h.begin hcur hrest h1
  | some p =>
    have hb : w.begins j = [] := by unfold EWorld.begins; rw [hcur]
    rw [hb, List.append_nil]
    by_cases hp : ∃ r, p = .done r
    · obtain ⟨r, rfl⟩ := hp; exact h.finish hcur h0
    · exact h.access hcur (fun r e => hp ⟨r, e⟩) h0

end

/-! ## Along a schedule -/

theorem EWorld.order_append (E : Env) (w : EWorld) (s s' : List Nat) :
    w.order E (s ++ s') = w.order E s ++ (w.run E s).order E s' := by
  induction s generalizing w with
  | nil => rfl
  | cons j s ih =>
    show w.begins j ++ (w.step E j).order E (s ++ s') = _
    rw [ih, ← List.append_assoc]
    rfl

section
variable {E : Env} {secure : Bool} {calls : Nat → List ECall} {sched : List Nat}

theorem eworldAt_next {q : Nat} (hq : q < sched.length) :
    eworldAt E secure calls sched (q + 1) = (eworldAt E secure calls sched q).step E sched[q] := by
  unfold eworldAt EWorld.run
  rw [← List.take_append_getElem hq, List.foldl_append]
  rfl

theorem ETurns.ok (ht : ETurns E secure calls sched) (q : Nat) (hq : q ≤ sched.length) :
    ETurnOk E secure calls (eworldAt E secure calls sched q)
      ((EWorld.new E secure calls).order E (sched.take q)) := by
  induction q with
  | zero => exact ETurnOk.new E secure calls
  | succ q ih =>
    have h1 := ht (q + 1) hq
    rw [eworldAt_next hq] at h1 ⊢
    have := (ih (by omega)).step sched[q] (ht q (by omega)) h1
    rw [← List.take_append_getElem (show q < sched.length from hq), EWorld.order_append]
    have e : ∀ w : EWorld, ∀ j, w.order E [j] = w.begins j := fun w j => by
      show w.begins j ++ [] = _
      rw [List.append_nil]
    rw [e]
    exact this

end

/-! ## Readers -/

section
variable {E : Env} {secure : Bool} {calls : Nat → List ECall} {sched : List Nat}

/-- While nobody writes, a step leaves the object as it is. -/
theorem ETurnOk.step_obj {w : EWorld} {order : List (Nat × EOp)} (h : ETurnOk E secure calls w order)
    (hu : w.Unwritten calls) (j : Nat) : (w.step E j).obj = w.obj := by
  unfold EWorld.step
  simp only
  split
  · split <;> rfl
  · rfl
  · rename_i p _ hcur
    obtain ⟨c, hc, _, hst⟩ := h.busy j _ hcur
    exact ((hst (hu j _ c (running_of hcur) hc)).access w.obj).1

theorem EWorld.estep_other' (E : Env) (w : EWorld) {i j : Nat} (h : i ≠ j) : (w.step E j).threads i = w.threads i := by
  unfold EWorld.step
  simp only
  split
  · split
    · rfl
    · exact w.setThread_other _ h
  · exact w.setThread_other _ h
  · exact w.setThread_other _ h

theorem ETurns.reader (ht : ETurns E secure calls sched) {j n : Nat} {c : ECall} (hc : (calls j)[n]? = some c)
    (hun : ∀ q, q ≤ sched.length → (eworldAt E secure calls sched q).Running j n →
      (eworldAt E secure calls sched q).Unwritten calls) (q : Nat) (hq : q ≤ sched.length) :
    let W := eworldAt E secure calls sched
    ((W q).Running j n → ∃ p, ((W q).threads j).cur = some p ∧ p.alone (W q).obj = c.seq E (W q).obj) ∧
    ∀ x, ((W q).threads j).outs[n]? = some x → ∃ q', q' ≤ q ∧ (W q').Running j n ∧ x = (c.seq E (W q').obj).1 := by
  intro W
  induction q with
  | zero => exact ⟨fun h => (nomatch h.2), fun x h => (nomatch h)⟩
  | succ q ih =>
    obtain ⟨ih1, ih2⟩ := ih (by omega)
    have ok := ht.ok q (by omega)
    have hw : W (q + 1) = (W q).step E sched[q] := eworldAt_next hq
    generalize sched[q] = i at hw
    by_cases e : j = i
    · subst e
      cases hcur : ((W q).threads j).cur with
      | none =>
        cases hrest : ((W q).threads j).rest with
        | nil =>
          have hs : (W q).step E j = W q := by unfold EWorld.step; simp only [hcur, hrest]
          rw [hw, hs]
          exact ⟨ih1, fun x hx => let ⟨q', a, b⟩ := ih2 x hx; ⟨q', by omega, b⟩⟩
        | cons c' rest =>
          have hs : (W q).step E j = (W q).setThread j
              { (W q).threads j with cur := some (c'.prog E (W q).obj.trie.secure), rest := rest } := by
            unfold EWorld.step; simp only [hcur, hrest]
          have hj : ((W q).step E j).threads j =
              { (W q).threads j with cur := some (c'.prog E (W q).obj.trie.secure), rest := rest } := by
            rw [hs]; exact (W q).setThread_same j _
          rw [hw]
          refine ⟨fun hr => ?_, fun x hx => ?_⟩
          · have hn := hr.1
            rw [hj] at hn
            simp only at hn
            have := ok.later j hcur
            rw [show ((eworldAt E secure calls sched q).threads j).rest = c' :: rest from hrest,
              show ((eworldAt E secure calls sched q).threads j).outs.length = n from hn] at this
            have := congrArg (·[0]?) this
            have hcc : (calls j)[n]? = some c' := by simpa using this.symm
            rw [hc] at hcc
            injection hcc with hcc
            subst hcc
            refine ⟨_, by rw [hj], ?_⟩
            rw [hs]
            exact ECall.prog_alone E c _
          · rw [hj] at hx
            obtain ⟨q', a, b⟩ := ih2 x hx
            exact ⟨q', by omega, b⟩
      | some p =>
        by_cases hp : ∃ r, p = .done r
        · obtain ⟨r, rfl⟩ := hp
          have hs : (W q).step E j =
              (W q).setThread j { (W q).threads j with cur := none, outs := ((W q).threads j).outs ++ [r] } := by
            unfold EWorld.step; simp only [hcur]
          have hj : ((W q).step E j).threads j =
              { (W q).threads j with cur := none, outs := ((W q).threads j).outs ++ [r] } := by
            rw [hs]; exact (W q).setThread_same j _
          rw [hw]
          refine ⟨fun hr => ?_, fun x hx => ?_⟩
          · have := hr.2
            rw [hj] at this
            exact (nomatch this)
          · rw [hj] at hx
            simp only at hx
            by_cases hl : n < ((W q).threads j).outs.length
            · rw [List.getElem?_append_left hl] at hx
              obtain ⟨q', a, b⟩ := ih2 x hx
              exact ⟨q', by omega, b⟩
            · rw [List.getElem?_append_right (by omega)] at hx
              have hz : n = ((W q).threads j).outs.length := by
                have := (List.getElem?_eq_some_iff.1 hx).1
                simp at this
                omega
              rw [← hz, Nat.sub_self] at hx
              injection hx with hx
              subst hx
              have hr : (W q).Running j n := ⟨hz.symm, by rw [hcur]; rfl⟩
              obtain ⟨p, hp1, hp2⟩ := ih1 hr
              rw [hcur] at hp1
              injection hp1 with hp1
              subst hp1
              exact ⟨q, by omega, hr, congrArg Prod.fst hp2⟩
        · have hs : (W q).step E j =
              { (W q).setThread j { (W q).threads j with cur := some (EWorld.access p (W q).obj).2 } with
                obj := (EWorld.access p (W q).obj).1 } := by
            have : ∀ r, p ≠ .done r := fun r e => hp ⟨r, e⟩
            unfold EWorld.step; simp only [hcur]
          have hj : ((W q).step E j).threads j =
              { (W q).threads j with cur := some (EWorld.access p (W q).obj).2 } := by
            rw [hs]; exact (W q).setThread_same j _
          rw [hw]
          refine ⟨fun hr => ?_, fun x hx => ?_⟩
          · have hn := hr.1
            rw [hj] at hn
            have hr0 : (W q).Running j n := ⟨hn, by rw [hcur]; rfl⟩
            obtain ⟨p', hp1, hp2⟩ := ih1 hr0
            rw [hcur] at hp1
            injection hp1 with hp1
            subst hp1
            have ho := ok.step_obj (hun q (by omega) hr0) j
            refine ⟨_, by rw [hj], ?_⟩
            rw [show ((W q).step E j).obj = (W q).obj from ho]
            have ho' : (EWorld.access p (W q).obj).1 = (W q).obj := by
              have : ((W q).step E j).obj = (EWorld.access p (W q).obj).1 := by rw [hs]
              rw [← this]; exact ho
            have := EProg.alone_access p (W q).obj
            rw [ho'] at this
            rw [this]
            exact hp2
          · rw [hj] at hx
            obtain ⟨q', a, b⟩ := ih2 x hx
            exact ⟨q', by omega, b⟩
    · have hj := (W q).estep_other' E e
      rw [hw]
      refine ⟨fun hr => ?_, fun x hx => ?_⟩
      · have hr0 : (W q).Running j n := by unfold EWorld.Running at hr; rw [hj] at hr; exact hr
        obtain ⟨p, hp1, hp2⟩ := ih1 hr0
        rw [show ((W q).step E i).obj = (W q).obj from ok.step_obj (hun q (by omega) hr0) i, hj]
        exact ⟨p, hp1, hp2⟩
      · rw [hj] at hx
        obtain ⟨q', a, b⟩ := ih2 x hx
        exact ⟨q', by omega, b⟩

end

/-! ## The states the object goes through -/

theorem EMPT.passes_snoc (E : Env) (s : EMPT) (ops : List EOp) (op : EOp) :
    EMPT.passes E s (ops ++ [op]) = EMPT.passes E s ops ++
      ((op.prog E (EMPT.run E ops s).trie.secure).states (EMPT.run E ops s) ++
        [(EMPT.exec E op (EMPT.run E ops s)).2]) := by
  induction ops generalizing s with
  | nil => rfl
  | cons o ops ih =>
    show s :: (o.prog E s.trie.secure).states s ++ EMPT.passes E (EMPT.exec E o s).2 (ops ++ [op]) = _
    rw [ih]
    simp only [EMPT.passes, EMPT.run, List.foldl_cons, List.cons_append, List.append_assoc]

theorem EProg.map_states {α β : Type} (p : EProg α) (g : α → β) (s : EMPT) :
    (p >>= fun a => (.done (.ok (g a)) : EProg β)).states s = p.states s := by
  rw [states_bind]
  cases p.alone s with
  | mk r s' => cases r <;> simp [states]

theorem ECall.prog_states (E : Env) {c : ECall} {op : EOp} (h : c.op? = some op) (b : Bool) (s : EMPT) :
    (c.prog E b).states s = (op.prog E b).states s := by
  cases c with
  | update k v => injection h with h; subst h; exact EProg.map_states _ _ s
  | delete k => injection h with h; subst h; exact EProg.map_states _ _ s
  | get k => exact (nomatch h)
  | contains k => exact (nomatch h)

/-- An access of a program, and the states it goes through. -/
theorem EProg.states_access {p : EProg EAns} (hp : ∀ r, p ≠ .done r) (s : EMPT) :
    p.states s = (EWorld.access p s).1 :: (EWorld.access p s).2.states (EWorld.access p s).1 := by
  cases p with
  | done r => exact absurd rfl (hp r)
  | load k n => simp only [EWorld.access, states]; cases dget s.trie.store.kv k <;> rfl
  | root n => rfl
  | data k n => simp only [EWorld.access, states]; cases dget s.data k <;> rfl
  | save | setRoot | setData => rfl
  | delData k n => simp only [EWorld.access, states]; cases dget s.data k <;> rfl

theorem EProg.along_access {p : EProg EAns} (hs : p.Still) (hp : ∀ r, p ≠ .done r) {V : Nat → EMPT} (m : Nat) :
    p.along V m = (EWorld.access p (V m)).2.along V (m + 1) := by
  cases p with
  | done r => exact absurd rfl (hp r)
  | load k n => simp only [EWorld.access, along]; cases dget (V m).trie.store.kv k <;> rfl
  | root n => rfl
  | data k n => simp only [EWorld.access, along]; cases dget (V m).data k <;> rfl
  | save | setRoot | setData | delData => exact hs.elim

/-- The states so far, the present one last; what is left are the states of the call under way. -/
def EWorld.Past (E : Env) (secure : Bool) (calls : Nat → List ECall) (w : EWorld) (order : List (Nat × EOp))
    (hist : List EMPT) : Prop :=
  hist.getLast? = some w.obj ∧
  ((w.Unwritten calls ∧ EMPT.passes E (EMPT.new E secure) (order.map Prod.snd) = hist) ∨
    ∃ j p c, (w.threads j).cur = some p ∧ (calls j)[(w.threads j).outs.length]? = some c ∧ c.op? ≠ none ∧
      EMPT.passes E (EMPT.new E secure) (order.map Prod.snd) = hist ++ p.states w.obj ++ [(p.alone w.obj).2] ∧
      ∃ pre op, order = pre ++ [(j, op)] ∧ EMPT.passes E (EMPT.new E secure) (pre.map Prod.snd) <+: hist)

section
variable {E : Env} {secure : Bool} {calls : Nat → List ECall} {sched : List Nat} {w : EWorld}
  {order : List (Nat × EOp)}

/-- One step: the states so far grow by at most one. -/
theorem ETurnOk.past (h : ETurnOk E secure calls w order) (j : Nat) (h0 : w.One calls) (h1 : (w.step E j).One calls)
    {hist : List EMPT} (hh : w.Past E secure calls order hist) :
    ∃ new, (w.step E j).Past E secure calls (order ++ w.begins j) (hist ++ new) := by
  have h' := h.step j h0 h1
  cases hcur : (w.threads j).cur with
  | none =>
    cases hrest : (w.threads j).rest with
    | nil =>
      have hs : w.step E j = w := by unfold EWorld.step; simp only [hcur, hrest]
      have hb : w.begins j = [] := by unfold EWorld.begins; rw [hcur, hrest]
      rw [hs, hb, List.append_nil]
      exact ⟨[], by rw [List.append_nil]; exact hh⟩
    | cons c rest =>
      have hc : (calls j)[(w.threads j).outs.length]? = some c := by
        have := h.later j hcur
        rw [hrest] at this
        have := congrArg (·[0]?) this
        simpa using this.symm
      have hb : w.begins j = c.op?.toList.map fun op => (j, op) := by
        unfold EWorld.begins; rw [hcur, hrest]
      have hs : w.step E j = w.setThread j
          { w.threads j with cur := some (c.prog E w.obj.trie.secure), rest := rest } := by
        unfold EWorld.step; simp only [hcur, hrest]
      have hj : (w.step E j).threads j =
          { w.threads j with cur := some (c.prog E w.obj.trie.secure), rest := rest } := by
        rw [hs]; exact w.setThread_same j _
      have hi : ∀ i, i ≠ j → (w.step E j).threads i = w.threads i := fun i e => by
        rw [hs]; exact w.setThread_other _ e
      have ho : (w.step E j).obj = w.obj := by rw [hs]; rfl
      refine ⟨[], by rw [List.append_nil, ho]; exact hh.1, ?_⟩
      rw [List.append_nil, ho]
      cases hop : c.op? with
      | none =>
        rw [hb, hop]
        simp only [Option.toList_none, List.map_nil, List.append_nil]
        rcases hh.2 with ⟨a1, a2⟩ | ⟨j0, p, c0, b1, b2, b3, b4, b5⟩
        · refine .inl ⟨fun i n c' hn hc' => ?_, a2⟩
          by_cases e : i = j
          · subst e
            have := hn.1
            rw [hj] at this
            subst this
            simp only at hc'
            rw [hc] at hc'
            injection hc' with hc'
            subst hc'
            exact hop
          · unfold EWorld.Running at hn
            rw [hi i e] at hn
            exact a1 i n c' hn hc'
        · have e : j0 ≠ j := fun e => by subst e; rw [hcur] at b1; exact (nomatch b1)
          exact .inr ⟨j0, p, c0, by rw [hi _ e]; exact b1, by rw [hi _ e]; exact b2, b3, b4, b5⟩
      | some op =>
        rw [hb, hop]
        rcases hh.2 with ⟨a1, a2⟩ | ⟨j0, p, c0, b1, b2, b3, b4, b5⟩
        · refine .inr ⟨j, _, c, by rw [hj], by rw [hj]; exact hc, by rw [hop]; simp, ?_, order, op, rfl, by
            rw [a2]; exact List.prefix_rfl⟩
          have hobj : w.obj = EMPT.after E secure (order.map Prod.snd) := by
            rcases h.state with ⟨_, h3, _⟩ | ⟨j0, p, c0, op0, pre, d1, d2, d3, _⟩
            · exact h3
            · have := a1 j0 _ c0 (running_of d1) d2
              rw [d3] at this
              exact (nomatch this)
          rw [List.map_append]
          show EMPT.passes E _ (_ ++ [op]) = _
          rw [EMPT.passes_snoc, a2, ECall.prog_states E hop, ECall.prog_alone, ECall.seq_op hop]
          show _ ++ ((op.prog E (EMPT.after E secure (order.map Prod.snd)).trie.secure).states
            (EMPT.after E secure (order.map Prod.snd)) ++
              [(EMPT.exec E op (EMPT.after E secure (order.map Prod.snd))).2]) = _
          rw [← hobj, List.append_assoc]
        · have e : j0 ≠ j := fun e => by subst e; rw [hcur] at b1; exact (nomatch b1)
          refine absurd ?_ e
          exact h1 j0 _ c0 j _ c (running_of (p := p) (by rw [hi _ e]; exact b1)) (by rw [hi _ e]; exact b2)
            b3 (running_of (p := c.prog E w.obj.trie.secure) (by rw [hj])) (by rw [hj]; exact hc)
            (by rw [hop]; simp)
  | some p =>
    have hb : w.begins j = [] := by unfold EWorld.begins; rw [hcur]
    obtain ⟨c, hc, hr, hst⟩ := h.busy j _ hcur
    rw [hb, List.append_nil]
    by_cases hp : ∃ r, p = .done r
    · obtain ⟨r, rfl⟩ := hp
      have hs : w.step E j = w.setThread j { w.threads j with cur := none, outs := (w.threads j).outs ++ [r] } := by
        unfold EWorld.step; simp only [hcur]
      have hj : (w.step E j).threads j = { w.threads j with cur := none, outs := (w.threads j).outs ++ [r] } := by
        rw [hs]; exact w.setThread_same j _
      have hi : ∀ i, i ≠ j → (w.step E j).threads i = w.threads i := fun i e => by
        rw [hs]; exact w.setThread_other _ e
      have ho : (w.step E j).obj = w.obj := by rw [hs]; rfl
      have hrun : ∀ i n, (w.step E j).Running i n → i ≠ j ∧ w.Running i n := fun i n hn => by
        have e : i ≠ j := fun e => by
          subst e
          have := hn.2
          rw [hj] at this
          exact (nomatch this)
        unfold EWorld.Running at hn
        rw [hi i e] at hn
        exact ⟨e, hn⟩
      rcases hh.2 with ⟨a1, a2⟩ | ⟨j0, p, c0, b1, b2, b3, b4, b5⟩
      · exact ⟨[], by rw [List.append_nil, ho]; exact hh.1,
          .inl ⟨fun i n c' hn hc' => a1 i n c' (hrun i n hn).2 hc', by rw [List.append_nil]; exact a2⟩⟩
      · by_cases e : j0 = j
        · subst e
          rw [hcur] at b1
          injection b1 with b1
          subst b1
          rw [hc] at b2
          injection b2 with b2
          subst b2
          refine ⟨[w.obj], by rw [ho]; simp, .inl ⟨fun i n c' hn hc' => ?_, ?_⟩⟩
          · obtain ⟨e, hn'⟩ := hrun i n hn
            cases hop' : c'.op? with
            | none => rfl
            | some op' =>
              exact absurd (h0 i n c' j0 _ c hn' hc' (by rw [hop']; simp) (running_of hcur) hc b3) e
          · rw [b4]
            simp [EProg.states, EProg.alone]
        · exact ⟨[], by rw [List.append_nil, ho]; exact hh.1,
            .inr ⟨j0, p, c0, by rw [hi _ e]; exact b1, by rw [hi _ e]; exact b2, b3, by rw [List.append_nil, ho]; exact b4,
              by rw [List.append_nil]; exact b5⟩⟩
    · have hp : ∀ r, p ≠ .done r := fun r e => hp ⟨r, e⟩
      have hs : w.step E j = { w.setThread j { w.threads j with cur := some (EWorld.access p w.obj).2 } with
          obj := (EWorld.access p w.obj).1 } := by
        unfold EWorld.step; simp only [hcur]
      have hj : (w.step E j).threads j = { w.threads j with cur := some (EWorld.access p w.obj).2 } := by
        rw [hs]; exact w.setThread_same j _
      have hi : ∀ i, i ≠ j → (w.step E j).threads i = w.threads i := fun i e => by
        rw [hs]; exact w.setThread_other _ e
      have ho : (w.step E j).obj = (EWorld.access p w.obj).1 := by rw [hs]
      have hrun : ∀ i n, (w.step E j).Running i n → w.Running i n := fun i n hn => by
        unfold EWorld.Running at hn ⊢
        by_cases e : i = j
        · subst e; rw [hj] at hn; rw [hcur]; exact ⟨hn.1, rfl⟩
        · rw [hi i e] at hn; exact hn
      rcases hh.2 with ⟨a1, a2⟩ | ⟨j0, p0, c0, b1, b2, b3, b4, b5⟩
      · have ho' : (w.step E j).obj = w.obj := h.step_obj a1 j
        exact ⟨[], by rw [List.append_nil, ho']; exact hh.1,
          .inl ⟨fun i n c' hn hc' => a1 i n c' (hrun i n hn) hc', by rw [List.append_nil]; exact a2⟩⟩
      · by_cases e : j0 = j
        · subst e
          rw [hcur] at b1
          injection b1 with b1
          subst b1
          refine ⟨[(w.step E j0).obj], by simp, .inr ⟨j0, _, c0, by rw [hj], by rw [hj]; exact b2, b3, ?_,
            let ⟨pre, op, d1, d2⟩ := b5; ⟨pre, op, d1, d2.trans (List.prefix_append _ _)⟩⟩⟩
          rw [b4, ho, EProg.states_access hp, EProg.alone_access]
          simp
        · have hop : c.op? = none := by
            cases hop : c.op? with
            | none => rfl
            | some op =>
              exact absurd (h0 j0 _ c0 j _ c (running_of b1) b2 b3 (running_of hcur) hc (by rw [hop]; simp)) e
          have ho' : (w.step E j).obj = w.obj := by rw [ho]; exact ((hst hop).access w.obj).1
          exact ⟨[], by rw [List.append_nil, ho']; exact hh.1,
            .inr ⟨j0, p0, c0, by rw [hi _ e]; exact b1, by rw [hi _ e]; exact b2, b3,
              by rw [List.append_nil, ho']; exact b4, by rw [List.append_nil]; exact b5⟩⟩

theorem EMPT.passes_prefix (E : Env) (s : EMPT) (ops ops' : List EOp) :
    EMPT.passes E s ops <+: EMPT.passes E s (ops ++ ops') := by
  rw [← List.reverse_reverse ops']
  generalize ops'.reverse = ops'
  induction ops' with
  | nil => simp
  | cons op ops' ih =>
    rw [List.reverse_cons, ← List.append_assoc, EMPT.passes_snoc]
    exact ih.trans (List.prefix_append _ _)

theorem order_take_prefix {q : Nat} :
    ((EWorld.new E secure calls).order E (sched.take q)).map Prod.snd <+:
      ((EWorld.new E secure calls).order E sched).map Prod.snd := by
  conv => rhs; rw [← List.take_append_drop q sched, EWorld.order_append, List.map_append]
  exact List.prefix_append _ _

theorem EWorld.Past.sub {hist : List EMPT} (h : w.Past E secure calls order hist) :
    hist <+: EMPT.passes E (EMPT.new E secure) (order.map Prod.snd) := by
  rcases h.2 with ⟨_, h⟩ | ⟨_, _, _, _, _, _, h, _⟩
  · rw [h]; exact List.prefix_rfl
  · rw [h, List.append_assoc]; exact List.prefix_append _ _

/-- The place of the present state among the states of a single client: not before the end of the calls that have
ended. -/
def EWorld.Place (E : Env) (secure : Bool) (calls : Nat → List ECall) (w : EWorld) (order : List (Nat × EOp))
    (n : Nat) : Prop :=
  (EMPT.passes E (EMPT.new E secure) (order.map Prod.snd))[n]? = some w.obj ∧
  ∃ pre, (order = pre ∨ (¬ w.Unwritten calls ∧ ∃ x, order = pre ++ [x])) ∧
    (EMPT.passes E (EMPT.new E secure) (pre.map Prod.snd)).length ≤ n + 1

theorem EWorld.Past.place {hist : List EMPT} (h : w.Past E secure calls order hist) :
    w.Place E secure calls order (hist.length - 1) := by
  have hl : 0 < hist.length := by
    cases hist with
    | nil => exact (nomatch h.1)
    | cons a l => simp
  refine ⟨?_, ?_⟩
  · obtain ⟨l, hl'⟩ := h.sub
    rw [← hl', List.getElem?_append_left (by omega), ← List.getLast?_eq_getElem?]
    exact h.1
  · rcases h.2 with ⟨_, h2⟩ | ⟨j, p, c, b1, b2, b3, _, pre, op, b4, b5⟩
    · exact ⟨order, .inl rfl, by rw [h2]; omega⟩
    · refine ⟨pre, .inr ⟨fun hu => ?_, _, b4⟩, ?_⟩
      · exact absurd (hu j _ c (running_of b1) b2) b3
      · have := b5.length_le
        omega

/-- The object, step by step, goes through the states of a single client. -/
theorem ETurns.places (ht : ETurns E secure calls sched) :
    ∃ pos : Nat → Nat, (∀ q q', q ≤ q' → pos q ≤ pos q') ∧ ∀ q, q ≤ sched.length →
      (eworldAt E secure calls sched q).Place E secure calls ((EWorld.new E secure calls).order E (sched.take q))
        (pos q) := by
  have key : ∀ Q, Q ≤ sched.length → ∃ (pos : Nat → Nat) (hist : List EMPT),
      (eworldAt E secure calls sched Q).Past E secure calls
        ((EWorld.new E secure calls).order E (sched.take Q)) hist ∧
      (∀ q q', q ≤ q' → pos q ≤ pos q') ∧ (∀ q, pos q ≤ hist.length - 1) ∧ ∀ q, q ≤ Q →
      (eworldAt E secure calls sched q).Place E secure calls ((EWorld.new E secure calls).order E (sched.take q))
        (pos q) := by
    intro Q
    induction Q with
    | zero =>
      intro _
      have h0 : (eworldAt E secure calls sched 0).Past E secure calls
          ((EWorld.new E secure calls).order E (sched.take 0)) [EMPT.new E secure] :=
        ⟨rfl, .inl ⟨fun j n c h _ => (nomatch h.2), rfl⟩⟩
      refine ⟨fun _ => 0, _, h0, fun _ _ _ => Nat.le_refl _, fun _ => Nat.zero_le _, fun q hq => ?_⟩
      have : q = 0 := by omega
      subst this
      exact h0.place
    | succ Q ih =>
      intro hQ
      obtain ⟨pos, hist, h1, h2, h3, h4⟩ := ih (by omega)
      have h5 := ht (Q + 1) hQ
      rw [eworldAt_next hQ] at h5
      obtain ⟨new, h6⟩ := (ht.ok Q (by omega)).past sched[Q] (ht Q (by omega)) h5 h1
      have h7 : (eworldAt E secure calls sched (Q + 1)).Past E secure calls
          ((EWorld.new E secure calls).order E (sched.take (Q + 1))) (hist ++ new) := by
        rw [eworldAt_next hQ, ← List.take_append_getElem (show Q < sched.length from hQ), EWorld.order_append]
        have e : ∀ w : EWorld, ∀ j, w.order E [j] = w.begins j := fun w j => by
          show w.begins j ++ [] = _
          rw [List.append_nil]
        rw [e]
        exact h6
      have hlen : (hist ++ new).length = hist.length + new.length := List.length_append
      refine ⟨fun q => if q ≤ Q then pos q else (hist ++ new).length - 1, hist ++ new, h7, fun q q' hq => ?_,
        fun q => ?_, fun q hq => ?_⟩
      · have := h3 q
        have := h3 q'
        have := h2 q q' hq
        show (if q ≤ Q then pos q else _) ≤ if q' ≤ Q then pos q' else _
        split <;> split <;> omega
      · have := h3 q
        simp only
        split <;> omega
      · by_cases e : q ≤ Q
        · simp only [if_pos e]; exact h4 q e
        · have : q = Q + 1 := by omega
          subst this
          simp only [if_neg e]
          exact h7.place
  obtain ⟨pos, _, _, h2, _, h4⟩ := key sched.length (Nat.le_refl _)
  exact ⟨pos, h2, h4⟩

/-! ## Readers, while others write -/

/-- The accesses of a reader. -/
theorem ETurns.accesses (ht : ETurns E secure calls sched) {j n : Nat} {c : ECall} (hc : (calls j)[n]? = some c)
    (hop : c.op? = none) (q : Nat) (hq : q ≤ sched.length) :
    let W := eworldAt E secure calls sched
    ((W q).Running j n → ∃ (p : EProg EAns) (qs : List Nat), ((W q).threads j).cur = some p ∧ qs.Pairwise (· ≤ ·) ∧
      (∀ a ∈ qs, a ≤ q ∧ (W a).Running j n) ∧
      ∀ V : Nat → EMPT, (∀ i a, qs[i]? = some a → V i = (W a).obj) →
        (c.prog E secure).along V 0 = p.along V qs.length) ∧
    ∀ x, ((W q).threads j).outs[n]? = some x → ∃ (qs : List Nat) (q1 : Nat), q1 ≤ q ∧ (W q1).Running j n ∧ qs.Pairwise (· ≤ ·) ∧
      (∀ a ∈ qs, a ≤ q1 ∧ (W a).Running j n) ∧
      ∀ V : Nat → EMPT, (∀ i a, qs[i]? = some a → V i = (W a).obj) → (c.prog E secure).watch V = x := by
  intro W
  induction q with
  | zero => exact ⟨fun h => (nomatch h.2), fun x h => (nomatch h)⟩
  | succ q ih =>
    obtain ⟨ih1, ih2⟩ := ih (by omega)
    have ok := ht.ok q (by omega)
    have hw : W (q + 1) = (W q).step E sched[q] := eworldAt_next hq
    have old : ∀ x, ((W q).threads j).outs[n]? = some x → ∃ (qs : List Nat) (q1 : Nat), q1 ≤ q + 1 ∧ (W q1).Running j n ∧
        qs.Pairwise (· ≤ ·) ∧ (∀ a ∈ qs, a ≤ q1 ∧ (W a).Running j n) ∧
        ∀ V : Nat → EMPT, (∀ i a, qs[i]? = some a → V i = (W a).obj) → (c.prog E secure).watch V = x :=
      fun x hx => let ⟨qs, q1, a, b⟩ := ih2 x hx; ⟨qs, q1, by omega, b⟩
    have wide : ∀ qs : List Nat, (∀ a ∈ qs, a ≤ q ∧ (W a).Running j n) → ∀ a ∈ qs, a ≤ q + 1 ∧ (W a).Running j n :=
      fun qs h a ha => ⟨by have := (h a ha).1; omega, (h a ha).2⟩
    generalize sched[q] = i at hw
    by_cases e : j = i
    · subst e
      cases hcur : ((W q).threads j).cur with
      | none =>
        cases hrest : ((W q).threads j).rest with
        | nil =>
          have hs : (W q).step E j = W q := by unfold EWorld.step; simp only [hcur, hrest]
          rw [hw, hs]
          refine ⟨fun hr => ?_, old⟩
          have := hr.2
          rw [hcur] at this
          exact (nomatch this)
        | cons c' rest =>
          have hs : (W q).step E j = (W q).setThread j
              { (W q).threads j with cur := some (c'.prog E (W q).obj.trie.secure), rest := rest } := by
            unfold EWorld.step; simp only [hcur, hrest]
          have hj : ((W q).step E j).threads j =
              { (W q).threads j with cur := some (c'.prog E (W q).obj.trie.secure), rest := rest } := by
            rw [hs]; exact (W q).setThread_same j _
          rw [hw]
          refine ⟨fun hr => ?_, fun x hx => ?_⟩
          · have hn := hr.1
            rw [hj] at hn
            simp only at hn
            have := ok.later j hcur
            rw [show ((eworldAt E secure calls sched q).threads j).rest = c' :: rest from hrest,
              show ((eworldAt E secure calls sched q).threads j).outs.length = n from hn] at this
            have := congrArg (·[0]?) this
            have hcc : (calls j)[n]? = some c' := by simpa using this.symm
            rw [hc] at hcc
            injection hcc with hcc
            subst hcc
            refine ⟨_, [], by rw [hj], .nil, fun a ha => (nomatch ha), fun V _ => ?_⟩
            rw [show (W q).obj.trie.secure = secure from ok.sec]
            rfl
          · rw [hj] at hx; exact old x hx
      | some p =>
        by_cases hp : ∃ r, p = .done r
        · obtain ⟨r, rfl⟩ := hp
          have hs : (W q).step E j =
              (W q).setThread j { (W q).threads j with cur := none, outs := ((W q).threads j).outs ++ [r] } := by
            unfold EWorld.step; simp only [hcur]
          have hj : ((W q).step E j).threads j =
              { (W q).threads j with cur := none, outs := ((W q).threads j).outs ++ [r] } := by
            rw [hs]; exact (W q).setThread_same j _
          rw [hw]
          refine ⟨fun hr => ?_, fun x hx => ?_⟩
          · have := hr.2
            rw [hj] at this
            exact (nomatch this)
          · rw [hj] at hx
            simp only at hx
            by_cases hl : n < ((W q).threads j).outs.length
            · rw [List.getElem?_append_left hl] at hx
              exact old x hx
            · rw [List.getElem?_append_right (by omega)] at hx
              have hz : n = ((W q).threads j).outs.length := by
                have := (List.getElem?_eq_some_iff.1 hx).1
                simp at this
                omega
              rw [← hz, Nat.sub_self] at hx
              injection hx with hx
              subst hx
              have hr : (W q).Running j n := ⟨hz.symm, by rw [hcur]; rfl⟩
              obtain ⟨p, qs, hp1, hp2, hp3, hp4⟩ := ih1 hr
              rw [hcur] at hp1
              injection hp1 with hp1
              subst hp1
              refine ⟨qs, q, by omega, hr, hp2, hp3, fun V hV => ?_⟩
              unfold EProg.watch
              rw [hp4 V hV]
              rfl
        · have hnd : ∀ r, p ≠ .done r := fun r e => hp ⟨r, e⟩
          have hs : (W q).step E j =
              { (W q).setThread j { (W q).threads j with cur := some (EWorld.access p (W q).obj).2 } with
                obj := (EWorld.access p (W q).obj).1 } := by
            unfold EWorld.step; simp only [hcur]
          have hj : ((W q).step E j).threads j =
              { (W q).threads j with cur := some (EWorld.access p (W q).obj).2 } := by
            rw [hs]; exact (W q).setThread_same j _
          rw [hw]
          refine ⟨fun hr => ?_, fun x hx => ?_⟩
          · have hn := hr.1
            rw [hj] at hn
            have hr0 : (W q).Running j n := ⟨hn, by rw [hcur]; rfl⟩
            obtain ⟨p', qs, hp1, hp2, hp3, hp4⟩ := ih1 hr0
            rw [hcur] at hp1
            injection hp1 with hp1
            subst hp1
            obtain ⟨c', d1, _, d3⟩ := ok.busy j _ hcur
            have hn' : ((eworldAt E secure calls sched q).threads j).outs.length = n := hn
            rw [hn', hc] at d1
            injection d1 with d1
            subst d1
            refine ⟨_, qs ++ [q], by rw [hj], ?_, ?_, fun V hV => ?_⟩
            · refine List.pairwise_append.2 ⟨hp2, by simp, fun a ha b hb => ?_⟩
              simp only [List.mem_singleton] at hb
              subst hb
              exact (hp3 a ha).1
            · intro a ha
              rcases List.mem_append.1 ha with ha | ha
              · exact wide qs hp3 a ha
              · simp only [List.mem_singleton] at ha
                subst ha
                exact ⟨by omega, hr0⟩
            · rw [hp4 V fun i a hi => hV i a (by
                rw [List.getElem?_append_left (List.getElem?_eq_some_iff.1 hi).1]; exact hi)]
              have hVq : V qs.length = (W q).obj := hV qs.length q (by simp)
              rw [EProg.along_access (d3 hop) hnd, hVq, List.length_append]
              rfl
          · rw [hj] at hx; exact old x hx
    · have hj := (W q).estep_other' E e
      rw [hw]
      refine ⟨fun hr => ?_, fun x hx => ?_⟩
      · have hr0 : (W q).Running j n := by unfold EWorld.Running at hr; rw [hj] at hr; exact hr
        obtain ⟨p, qs, hp1, hp2, hp3, hp4⟩ := ih1 hr0
        rw [hj]
        exact ⟨p, qs, hp1, hp2, wide qs hp3, hp4⟩
      · rw [hj] at hx; exact old x hx

theorem EMPT.passes_length_pos (E : Env) (s : EMPT) (ops : List EOp) : 0 < (EMPT.passes E s ops).length := by
  cases ops <;> simp [EMPT.passes]

theorem EMPT.passes_append (E : Env) (s : EMPT) (ops ops' : List EOp) :
    (EMPT.passes E s (ops ++ ops')).drop ((EMPT.passes E s ops).length - 1) =
      EMPT.passes E (EMPT.run E ops s) ops' := by
  induction ops generalizing s with
  | nil => rfl
  | cons op ops ih =>
    rw [show EMPT.run E (op :: ops) s = EMPT.run E ops (EMPT.exec E op s).2 from rfl, ← ih]
    show (s :: (op.prog E s.trie.secure).states s ++ EMPT.passes E (EMPT.exec E op s).2 (ops ++ ops')).drop
      ((s :: (op.prog E s.trie.secure).states s ++ EMPT.passes E (EMPT.exec E op s).2 ops).length - 1) = _
    have := EMPT.passes_length_pos E (EMPT.exec E op s).2 ops
    rw [List.length_append, Nat.add_sub_assoc this, List.drop_append, List.drop_eq_nil_of_le (by omega)]
    simp

theorem order_mono {q q' : Nat} (h : q ≤ q') :
    (EWorld.new E secure calls).order E (sched.take q) <+: (EWorld.new E secure calls).order E (sched.take q') := by
  have : sched.take q' = sched.take q ++ (sched.take q').drop q := by
    conv => lhs; rw [← List.take_append_drop q (sched.take q'), List.take_take, Nat.min_eq_left h]
  rw [this, EWorld.order_append]
  exact List.prefix_append _ _

theorem getElem?_prefix {α : Type} {l l' : List α} (h : l <+: l') {n : Nat} {a : α} (hn : l[n]? = some a) :
    l'[n]? = some a := by
  obtain ⟨r, rfl⟩ := h
  rw [List.getElem?_append_left (List.getElem?_eq_some_iff.1 hn).1]
  exact hn

/-- A reader sees some of the states of a single client, in order. -/
theorem ETurns.window (ht : ETurns E secure calls sched) {j n : Nat} {c : ECall} (hc : (calls j)[n]? = some c)
    (hop : c.op? = none) {x : Py EAns}
    (hx : (((EWorld.new E secure calls).run E sched).threads j).outs[n]? = some x) :
    let W := eworldAt E secure calls sched
    let order := fun q => (EWorld.new E secure calls).order E (sched.take q)
    ∃ q0 q1, q0 ≤ q1 ∧ q1 ≤ sched.length ∧ (W q0).Running j n ∧ (W q1).Running j n ∧ ∃ pre mid V,
      (order q0 = pre ∨ (¬ (W q0).Unwritten calls ∧ ∃ y, order q0 = pre ++ [y])) ∧ order q1 = pre ++ mid ∧
      Sees (EMPT.passes E (EMPT.after E secure (pre.map Prod.snd)) (mid.map Prod.snd)) V ∧
      (c.prog E secure).watch V = x := by
  intro W order
  have hw : W sched.length = (EWorld.new E secure calls).run E sched := by
    show eworldAt E secure calls sched _ = _
    unfold eworldAt; rw [List.take_length]
  obtain ⟨pos, hpos, hplace⟩ := ht.places
  obtain ⟨qs, q1, h1, h2, h3, h4, h5⟩ :=
    (ht.accesses hc hop sched.length (Nat.le_refl _)).2 x (by rw [← hx, ← hw])
  -- the moments of the accesses
  let mom := fun i => qs.getD i q1
  have hm1 : ∀ i, mom i ≤ q1 ∧ (W (mom i)).Running j n := by
    intro i
    show qs.getD i q1 ≤ q1 ∧ (W (qs.getD i q1)).Running j n
    rw [List.getD_eq_getElem?_getD]
    cases hi : qs[i]? with
    | none => exact ⟨Nat.le_refl _, h2⟩
    | some a => exact h4 a (List.mem_of_getElem? hi)
  have hm2 : ∀ i i', i ≤ i' → mom i ≤ mom i' := by
    intro i i' hi
    show qs.getD i q1 ≤ qs.getD i' q1
    rw [List.getD_eq_getElem?_getD (i := i')]
    cases hi' : qs[i']? with
    | none => exact (hm1 i).1
    | some a =>
      obtain ⟨h6, rfl⟩ := List.getElem?_eq_some_iff.1 hi'
      rw [List.getD_eq_getElem?_getD, List.getElem?_eq_getElem (by omega)]
      rcases Nat.lt_or_ge i i' with h7 | h7
      · exact List.pairwise_iff_getElem.1 h3 _ _ (by omega) h6 h7
      · have : i = i' := by omega
        subst this
        exact Nat.le_refl _
  obtain ⟨p1, pre, p2, p3⟩ := hplace (mom 0) (Nat.le_trans (hm1 0).1 h1)
  have hpre : pre <+: order q1 := by
    refine List.IsPrefix.trans ?_ (order_mono (hm1 0).1)
    rcases p2 with p2 | ⟨_, y, p2⟩
    · rw [p2]; exact List.prefix_rfl
    · rw [p2]; exact List.prefix_append _ _
  obtain ⟨mid, hmid⟩ := hpre
  refine ⟨mom 0, q1, (hm1 0).1, h1, (hm1 0).2, h2, pre, mid, fun i => (W (mom i)).obj, p2, hmid.symm, ?_, ?_⟩
  · refine ⟨fun i => pos (mom i) - ((EMPT.passes E (EMPT.new E secure) (pre.map Prod.snd)).length - 1), fun i => ?_,
      fun i => ?_⟩
    · have := hpos _ _ (hm2 i (i + 1) (by omega))
      simp only
      omega
    · have hge := hpos _ _ (hm2 0 i (by omega))
      have hpl := (hplace (mom i) (Nat.le_trans (hm1 i).1 h1)).1
      have hsub : EMPT.passes E (EMPT.new E secure) ((order (mom i)).map Prod.snd) <+:
          EMPT.passes E (EMPT.new E secure) (pre.map Prod.snd ++ mid.map Prod.snd) := by
        rw [← List.map_append, hmid]
        obtain ⟨r, hr⟩ := order_mono (E := E) (secure := secure) (calls := calls) (sched := sched) (hm1 i).1
        show _ <+: EMPT.passes E _ (((EWorld.new E secure calls).order E (sched.take q1)).map Prod.snd)
        rw [← hr, List.map_append]
        exact EMPT.passes_prefix E _ _ _
      have := getElem?_prefix hsub hpl
      show (EMPT.passes E (EMPT.run E (pre.map Prod.snd) (EMPT.new E secure)) (mid.map Prod.snd))[_]? = _
      rw [← EMPT.passes_append, List.getElem?_drop, ← this]
      congr 1
      show _ + (pos (mom i) - _) = pos (mom i)
      omega
  · refine h5 _ fun i a hi => ?_
    show (W (qs.getD i q1)).obj = _
    rw [List.getD_eq_getElem?_getD, hi]
    rfl

theorem EWorld.outs_step (E : Env) (w : EWorld) (i j : Nat) :
    (w.threads j).outs.length ≤ ((w.step E i).threads j).outs.length := by
  by_cases e : j = i
  · subst e
    unfold EWorld.step
    simp only
    split
    · split
      · exact Nat.le_refl _
      · rw [w.setThread_same]; exact Nat.le_refl _
    · rw [w.setThread_same]; simp
    · simp only [w.setThread_same]; exact Nat.le_refl _
  · rw [w.estep_other' E e]; exact Nat.le_refl _

theorem EWorld.running_step (E : Env) {w : EWorld} {j n : Nat} (h : w.Running j n) (i : Nat) :
    (w.step E i).Running j n ∨ n < ((w.step E i).threads j).outs.length := by
  by_cases e : j = i
  · subst e
    obtain ⟨h1, h2⟩ := h
    unfold EWorld.Running EWorld.step
    simp only
    split
    · rename_i hcur; rw [hcur] at h2; exact (nomatch h2)
    · right; rw [w.setThread_same]; simp [h1]
    · left; simp only [w.setThread_same]; exact ⟨h1, rfl⟩
  · left
    unfold EWorld.Running
    rw [w.estep_other' E e]
    exact h

theorem eouts_mono {q q' : Nat} (hle : q ≤ q') (hq' : q' ≤ sched.length) (j : Nat) :
    ((eworldAt E secure calls sched q).threads j).outs.length ≤
      ((eworldAt E secure calls sched q').threads j).outs.length := by
  induction hle with
  | refl => exact Nat.le_refl _
  | step h ih =>
    refine Nat.le_trans (ih (by omega)) ?_
    rw [eworldAt_next hq']
    exact EWorld.outs_step E _ _ _

theorem erunning_between {q p q' j n : Nat} (h : (eworldAt E secure calls sched q).Running j n)
    (h' : (eworldAt E secure calls sched q').Running j n) (h1 : q ≤ p) (h2 : p ≤ q') (hq' : q' ≤ sched.length) :
    (eworldAt E secure calls sched p).Running j n := by
  have key : ∀ p, q ≤ p → p ≤ q' → (eworldAt E secure calls sched p).Running j n ∨
      n < ((eworldAt E secure calls sched p).threads j).outs.length := by
    intro p h1
    induction h1 with
    | refl => exact fun _ => .inl h
    | @step m hm ih =>
      intro hp
      rcases ih (by omega) with h3 | h3
      · rw [eworldAt_next (by omega)]
        exact EWorld.running_step E h3 _
      · right
        have := eouts_mono (E := E) (secure := secure) (calls := calls) (sched := sched) (Nat.le_add_right m 1)
          (by omega) j
        exact Nat.lt_of_lt_of_le h3 this
  rcases key p h1 h2 with h3 | h3
  · exact h3
  · have := eouts_mono (E := E) (secure := secure) (calls := calls) (sched := sched) h2 hq' j
    have := h'.1
    omega

/-- The calls that begin while a thread is in the middle of a call are under way at some moment of that call. -/
theorem ETurns.meanwhile (ht : ETurns E secure calls sched) {j n q0 q1 : Nat}
    (h0 : (eworldAt E secure calls sched q0).Running j n) (h1 : (eworldAt E secure calls sched q1).Running j n)
    (hle : q0 ≤ q1) (hq1 : q1 ≤ sched.length) :
    ∀ q, q0 ≤ q → q ≤ q1 → ∀ r, (EWorld.new E secure calls).order E (sched.take q) =
        (EWorld.new E secure calls).order E (sched.take q0) ++ r →
      ∀ e ∈ r, ∃ p, p ≤ sched.length ∧ (eworldAt E secure calls sched p).Running j n ∧
        ∃ m c, (eworldAt E secure calls sched p).Running e.1 m ∧ (calls e.1)[m]? = some c ∧ c.op? = some e.2 := by
  intro q hq
  induction hq with
  | refl =>
    intro _ r hr e he
    have : r = [] := by simpa using hr.symm
    subst this
    exact (nomatch he)
  | @step m hm ih =>
    intro hle' r hr e he
    have hm' : m < sched.length := by omega
    have hb : (EWorld.new E secure calls).order E (sched.take (m + 1)) =
        (EWorld.new E secure calls).order E (sched.take m) ++ (eworldAt E secure calls sched m).begins sched[m] := by
      rw [← List.take_append_getElem hm', EWorld.order_append]
      show _ ++ ((eworldAt E secure calls sched m).begins sched[m] ++ []) = _
      rw [List.append_nil]
    obtain ⟨r', hr'⟩ := order_mono (E := E) (secure := secure) (calls := calls) (sched := sched) hm
    have ih := ih (by omega) r' hr'.symm
    have hr2 : r = r' ++ (eworldAt E secure calls sched m).begins sched[m] := by
      have hr : (EWorld.new E secure calls).order E (sched.take (m + 1)) = _ := hr
      rw [hb, ← hr', List.append_assoc] at hr
      exact (List.append_cancel_left hr).symm
    rw [hr2] at he
    rcases List.mem_append.1 he with he | he
    · exact ih e he
    · refine ⟨m + 1, hm', erunning_between h0 h1 (Nat.le_succ_of_le hm) hle' hq1, ?_⟩
      rw [eworldAt_next hm']
      have ok := ht.ok m (by omega)
      generalize eworldAt E secure calls sched m = w at he ok
      generalize sched[m] = i at he
      unfold EWorld.begins at he
      split at he
      · rename_i c rest hcur hrest
        obtain ⟨op, ho1, ho2⟩ := List.mem_map.1 he
        subst ho2
        have hs : w.step E i = w.setThread i
            { w.threads i with cur := some (c.prog E w.obj.trie.secure), rest := rest } := by
          unfold EWorld.step; simp only [hcur, hrest]
        have hj : (w.step E i).threads i =
            { w.threads i with cur := some (c.prog E w.obj.trie.secure), rest := rest } := by
          rw [hs]; exact w.setThread_same i _
        refine ⟨(w.threads i).outs.length, c, ?_, ?_, by simpa using ho1⟩
        · unfold EWorld.Running
          simp only [hj]
          exact ⟨trivial, rfl⟩
        · have := ok.later i hcur
          rw [hrest] at this
          have := congrArg (·[0]?) this
          simpa using this.symm
      · exact (nomatch he)

end
end Pymt
