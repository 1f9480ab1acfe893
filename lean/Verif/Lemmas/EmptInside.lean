import Verif.Lemmas.Crowd
import Verif.Lemmas.EmptCrowd
import Verif.Spec.EmptCrowd

/-!
# Lemmas: the trie inside an `EMPT` that several threads write to

What threads do to the trie inside an `EMPT` they could do to a trie of their own: every interleaving of calls on the
`EMPT` has a shadow, an interleaving of calls on a trie, chosen in hindsight.
-/

namespace Pymt

/-! ## Calls on an `EMPT` as calls on the trie inside -/

theorem EProg.trie_bind {α β : Type} (p : Prog α) (f : α → Prog β) :
    EProg.trie (p >>= f) = EProg.trie p >>= fun a => EProg.trie (f a) := by
  show EProg.trie (p.bind f) = (EProg.trie p).bind fun a => EProg.trie (f a)
  induction p with
  | done r => cases r <;> rfl
  | load k n ih => simp only [Prog.bind, EProg.trie, EProg.bind, ih]
  | save k v n ih => simp only [Prog.bind, EProg.trie, EProg.bind, ih]
  | root n ih => simp only [Prog.bind, EProg.trie, EProg.bind, ih]
  | setRoot r n ih => simp only [Prog.bind, EProg.trie, EProg.bind, ih]

/-- What is known of the outcome of a call on the trie. -/
def Plausible : Call → Py Ans → Prop
  | .update _ _, x => x = .ok .none
  | .contains _, x => (∃ b, x = .ok (.bool b)) ∨ x = .error .typeError ∨ x = .error .keyError
  | _, _ => True

/-- A program that touches the data storage and makes calls on the trie.  `ok`: the calls on the trie; `post`: the
outcomes. -/
inductive EForm (E : Env) (sec : Bool) (ok : Call → Prop) (post : Py EAns → Prop) : EProg EAns → Prop
  | done (r : Py EAns) (h : post r) : EForm E sec ok post (.done r)
  | data (k : Bytes) (n : Value → EProg EAns) (h : ∀ v, EForm E sec ok post (n v)) (he : post (.error .keyError)) :
      EForm E sec ok post (.data k n)
  | setData (k : Bytes) (v : Value) (n : EProg EAns) (h : EForm E sec ok post n) : EForm E sec ok post (.setData k v n)
  | delData (k : Bytes) (n : EProg EAns) (h : EForm E sec ok post n) (he : post (.error .keyError)) :
      EForm E sec ok post (.delData k n)
  | call (c : Call) (g : Ans → EProg EAns) (hc : ok c) (h : ∀ a, Plausible c (.ok a) → EForm E sec ok post (g a))
      (he : ∀ e, Plausible c (.error e) → post (.error e)) : EForm E sec ok post ((EProg.trie (c.prog E sec)).bind g)

/-- The calls on the trie that the calls on the `EMPT` make. -/
def Inner (E : Env) (calls : Nat → List ECall) : Call → Prop
  | .update k r => ∃ j v, ECall.update k v ∈ calls j ∧ v.storable = true ∧ r = refOf E k v
  | .delete k => ∃ j, ECall.delete k ∈ calls j
  | .get k => ∃ j, ECall.get k ∈ calls j
  | .contains k => ∃ j, ECall.contains k ∈ calls j ∨ ECall.delete k ∈ calls j

/-- What is known of the outcome of a call on the `EMPT`. -/
def EPlausible : ECall → Py EAns → Prop
  | .update _ v, x => v.storable = true → x = .ok .none
  | .contains _, x => (∃ b, x = .ok (.bool b)) ∨ x = .error .typeError ∨ x = .error .keyError
  | _, _ => True

/-- A call on the trie is the program of the call, followed by a look at the answer. -/
theorem EProg.trie_call {α : Type} (p : Prog α) (w : α → Ans) (g : Ans → EProg EAns) (f : α → EProg EAns)
    (h : ∀ a, g (w a) = f a) :
    EProg.trie p >>= f = (EProg.trie (p >>= fun a => pure (w a))).bind g := by
  rw [EProg.trie_bind]
  show _ = (EProg.trie p >>= fun a => _) >>= g
  rw [EProg.bind_assoc]
  congr 1
  funext a
  exact (h a).symm

theorem eform_call (E : Env) (sec : Bool) (calls : Nat → List ECall) {c : ECall} {j : Nat} (hc : c ∈ calls j) :
    EForm E sec (Inner E calls) (EPlausible c) (c.prog E sec) := by
  cases c with
  | update k v =>
    show EForm _ _ _ _ (EMPT.updateCallP E sec k v >>= fun _ => _)
    cases hv : v.storable with
    | false =>
      obtain ⟨e, h1, _⟩ := EMPT.updateCallP_other E sec k hv
      rw [h1]
      exact .done _ (fun h => absurd h (by simp [hv]))
    | true =>
      rw [EMPT.updateCallP_storable E _ k hv]
      unfold EMPT.putP
      rw [Props.ofValue_storable hv]
      show EForm _ _ _ _ ((EProg.trie (MPT.updateCallP E _ (refOf E k v)) >>= fun _ => _) >>= fun _ => _)
      rw [EProg.bind_assoc, EProg.trie_call (w := fun _ => .none) 
        (g := fun _ => EProg.setData k v (EProg.done (.ok ())) >>= fun _ => pure EAns.none) (h := fun _ => rfl)]
      refine EForm.call (.update k (refOf E k v)) _ ⟨j, v, hc, hv, rfl⟩ (fun a _ => .setData _ _ _ (.done _ fun _ => rfl))
        fun e he => ?_
      exact (nomatch he)
  | delete k =>
    show EForm _ _ _ _ (EMPT.deleteCallP E sec k >>= fun _ => _)
    unfold EMPT.deleteCallP EMPT.containsCallP
    rw [EProg.bind_assoc, EProg.trie_call (w := .bool) (g := fun a => match a with
      | .bool true => EMPT.dropP E sec k >>= fun _ => pure EAns.none
      | _ => .done (.error .keyNotFound)) (h := fun b => by cases b <;> rfl)]
    refine EForm.call (.contains k) _ ⟨j, .inr hc⟩ (fun a _ => ?_) fun e _ => trivial
    match a with
    | .none => exact .done _ trivial
    | .value _ => exact .done _ trivial
    | .bool false => exact .done _ trivial
    | .bool true =>
      show EForm _ _ _ _ (.delData k (EProg.trie (MPT.deleteCallP E _) >>= fun _ => _))
      rw [EProg.trie_call (w := fun _ => .none) (g := fun _ => pure EAns.none) (h := fun _ => rfl)]
      exact .delData _ _ (EForm.call (.delete k) _ ⟨j, hc⟩ (fun a _ => .done _ trivial) fun e _ => trivial) trivial
  | get k =>
    show EForm _ _ _ _ (EMPT.getCallP E sec k >>= fun _ => _)
    unfold EMPT.getCallP EProg.dataItem
    refine EForm.data _ _ (fun v => ?_) trivial
    show EForm _ _ _ _
      ((EProg.trie (MPT.getCallP E (if sec then E.keccak k else k)) >>= fun enc =>
        EProg.lift (EMPT.compareRef E k enc v)) >>= fun v => EProg.done (.ok (.value v)))
    rw [EProg.bind_assoc, EProg.trie_call (w := .value) (g := fun a => match a with
      | .value enc => EProg.lift (EMPT.compareRef E k enc v) >>= fun v => EProg.done (.ok (.value v))
      | _ => .done (.ok .none)) (h := fun _ => rfl)]
    refine EForm.call (.get k) _ ⟨j, hc⟩ (fun a _ => ?_) fun e _ => trivial
    match a with
    | .none => exact .done _ trivial
    | .bool _ => exact .done _ trivial
    | .value enc =>
      show EForm _ _ _ _ (EProg.lift (EMPT.compareRef E k enc v) >>= fun v => EProg.done (.ok (.value v)))
      unfold EProg.lift
      cases EMPT.compareRef E k enc v with
      | error e => exact .done _ trivial
      | ok w => exact .done _ trivial
  | contains k =>
    show EForm _ _ _ _ (EMPT.containsCallP E sec k >>= fun _ => _)
    unfold EMPT.containsCallP
    rw [EProg.trie_call (w := .bool) (f := fun b => pure (EAns.bool b)) (g := fun a => match a with
      | .bool b => .done (.ok (.bool b))
      | _ => .done (.ok (.bool false))) (h := fun b => rfl)]
    refine EForm.call (.contains k) _ ⟨j, .inl hc⟩ (fun a _ => ?_) fun e he => ?_
    · match a with
      | .none => exact .done _ (.inl ⟨_, rfl⟩)
      | .value _ => exact .done _ (.inl ⟨_, rfl⟩)
      | .bool b => exact .done _ (.inl ⟨_, rfl⟩)
    · rcases he with ⟨b, h⟩ | h | h
      · exact (nomatch h)
      · injection h with h; subst h; exact .inr (.inl rfl)
      · injection h with h; subst h; exact .inr (.inr rfl)

/-- A call begins by reading the root. -/
theorem Call.prog_root (E : Env) (sec : Bool) (c : Call) : ∃ n, c.prog E sec = .root n := by
  cases c <;> exact ⟨_, rfl⟩

/-! ## Shadows -/

/-- One access of a call on a trie: the trie afterwards, and what is left of the call. -/
def Prog.access : Prog Ans → MPT → MPT × Prog Ans
  | .done r, t => (t, .done r)
  | .load k n, t =>
    match dget t.store.kv k with
    | some v => (t, n v)
    | none => (t, .done (.error .keyError))
  | .save k v n, t => ({ t with store := t.store.set k v }, n)
  | .root n, t => (t, n t.root)
  | .setRoot r n, t => ({ t with root := r }, n)

theorem eaccess_trie {P : Prog Ans} (hP : ∀ r, P ≠ .done r) (g : Ans → EProg EAns) (s : EMPT) :
    EWorld.access ((EProg.trie P).bind g) s =
      ({ s with trie := (P.access s.trie).1 }, (EProg.trie (P.access s.trie).2).bind g) := by
  cases P with
  | done r => exact absurd rfl (hP r)
  | load k n =>
    simp only [EProg.trie, EProg.bind, EWorld.access, Prog.access]
    cases dget s.trie.store.kv k <;> rfl
  | save => rfl
  | root => rfl
  | setRoot => rfl

theorem trie_not_done {P : Prog Ans} (hP : ∀ r, P ≠ .done r) (g : Ans → EProg EAns) (r : Py EAns) :
    (EProg.trie P).bind g ≠ .done r := by
  cases P with
  | done r => exact absurd rfl (hP r)
  | load | save | root | setRoot => exact fun h => (nomatch h)

theorem World.step_access (E : Env) {w : World} {i j : Nat} {P : Prog Ans} (hP : ∀ r, P ≠ .done r)
    (hcur : (w.threads j).cur = some (i, P)) :
    (w.step E j).store = (P.access (w.obj i)).1.store ∧ (w.step E j).roots i = (P.access (w.obj i)).1.root ∧
    (w.step E j).threads j = { w.threads j with cur := some (i, (P.access (w.obj i)).2) } := by
  unfold World.step
  cases P with
  | done r => exact absurd rfl (hP r)
  | load k n =>
    simp only [hcur, Prog.access, World.obj]
    cases hv : dget w.store.kv k with
    | none => simp only [World.setThread_same, and_true]; exact ⟨rfl, rfl⟩
    | some v => simp only [World.setThread_same, and_true]; exact ⟨rfl, rfl⟩
  | save => simp [hcur, Prog.access, World.obj, World.setThread]
  | root => simp [hcur, Prog.access, World.obj, World.setThread]
  | setRoot => simp [hcur, Prog.access, World.obj, World.setThread]

theorem EWorld.run_append (E : Env) (w : EWorld) (a b : List Nat) : w.run E (a ++ b) = (w.run E a).run E b := by
  unfold EWorld.run; rw [List.foldl_append]

theorem EWorld.step_access (E : Env) {w : EWorld} {j : Nat} {p : EProg EAns} (hp : ∀ r, p ≠ .done r)
    (hcur : (w.threads j).cur = some p) :
    w.step E j = { w.setThread j { w.threads j with cur := some (EWorld.access p w.obj).2 } with
      obj := (EWorld.access p w.obj).1 } := by
  unfold EWorld.step
  simp only [hcur]

/-- Left alone, a thread carries its call on the trie to the end. -/
theorem EWorld.run_trie (E : Env) (j : Nat) (P : Prog Ans) (g : Ans → EProg EAns) (w : EWorld)
    (h : (w.threads j).cur = some ((EProg.trie P).bind g)) :
    ∃ n, (w.run E (List.replicate n j)).obj.trie = (P.alone w.obj.trie).2 := by
  have go : ∀ (P P' : Prog Ans) (w : EWorld), (∀ r, P ≠ .done r) → (w.threads j).cur = some ((EProg.trie P).bind g) →
      P' = (P.access w.obj.trie).2 → P.alone w.obj.trie = P'.alone (P.access w.obj.trie).1 →
      (∀ w' : EWorld, (w'.threads j).cur = some ((EProg.trie P').bind g) →
        ∃ n, (w'.run E (List.replicate n j)).obj.trie = (P'.alone w'.obj.trie).2) →
      ∃ n, (w.run E (List.replicate n j)).obj.trie = (P.alone w.obj.trie).2 := by
    intro P P' w hP hcur hP' hal ih
    have hs := EWorld.step_access E (trie_not_done hP g) hcur
    rw [eaccess_trie hP] at hs
    obtain ⟨n, hn⟩ := ih (w.step E j) (by
      rw [hs, hP']
      simp only
      exact congrArg EThread.cur (EWorld.setThread_same _ _ _))
    refine ⟨n + 1, ?_⟩
    rw [List.replicate_succ]
    refine Eq.trans hn ?_
    rw [hal, hs]
  induction P generalizing w with
  | done r => exact ⟨0, rfl⟩
  | load k n ih =>
    cases hv : dget w.obj.trie.store.kv k with
    | none => exact ⟨0, by simp only [Prog.alone, hv]; rfl⟩
    | some v =>
      exact go _ (n v) w (fun _ e => (nomatch e)) h (by simp only [Prog.access, hv]) (by simp only [Prog.access, Prog.alone, hv])
        (fun w' h' => ih v w' h')
  | save k v n ih => exact go _ n w (fun _ e => (nomatch e)) h rfl rfl (fun w' h' => ih w' h')
  | root n ih => exact go _ (n w.obj.trie.root) w (fun _ e => (nomatch e)) h rfl rfl (fun w' h' => ih _ w' h')
  | setRoot r n ih => exact go _ n w (fun _ e => (nomatch e)) h rfl rfl (fun w' h' => ih w' h')

/-- More calls to make. -/
def World.addCalls (w : World) (ex : Nat → List (Nat × Call)) : World :=
  { w with threads := fun j => { w.threads j with rest := (w.threads j).rest ++ ex j } }

theorem World.addCalls_set (w : World) (ex : Nat → List (Nat × Call)) (j : Nat) (th : Thread) :
    (w.addCalls ex).setThread j { th with rest := th.rest ++ ex j } = (w.setThread j th).addCalls ex := by
  unfold World.addCalls World.setThread
  congr 1
  funext i
  by_cases h : i = j
  · subst h; simp
  · simp [h]

theorem World.step_addCalls (E : Env) (w : World) (ex : Nat → List (Nat × Call)) (j : Nat)
    (h : (w.threads j).cur ≠ none ∨ (w.threads j).rest ≠ []) :
    (w.addCalls ex).step E j = (w.step E j).addCalls ex := by
  unfold World.step
  have hc : ((w.addCalls ex).threads j).cur = (w.threads j).cur := rfl
  have hr : ((w.addCalls ex).threads j).rest = (w.threads j).rest ++ ex j := rfl
  cases hcur : (w.threads j).cur with
  | none =>
    rw [hcur] at hc
    cases hrest : (w.threads j).rest with
    | nil => rw [hcur, hrest] at h; rcases h with h | h <;> exact absurd rfl h
    | cons c rest =>
      obtain ⟨i, c⟩ := c
      rw [hrest] at hr
      simp only [hc, hr, hcur, hrest, List.cons_append]
      exact World.addCalls_set w ex j { (w.threads j) with cur := some (i, c.prog E (w.secure i)), rest := rest }
  | some x =>
    obtain ⟨i, p⟩ := x
    rw [hcur] at hc
    cases p with
    | done r =>
      simp only [hc, hcur]
      exact World.addCalls_set w ex j { (w.threads j) with cur := none, outs := (w.threads j).outs ++ [r] }
    | load k n =>
      simp only [hc, hcur]
      have hs : (w.addCalls ex).store = w.store := rfl
      rw [hs]
      cases dget w.store.kv k with
      | none => exact World.addCalls_set w ex j { (w.threads j) with cur := some (i, .done (.error .keyError)) }
      | some v => exact World.addCalls_set w ex j { (w.threads j) with cur := some (i, n v) }
    | save k v n =>
      simp only [hc, hcur]
      exact congrArg (fun w' : World => { w' with store := w.store.set k v })
        (World.addCalls_set w ex j { (w.threads j) with cur := some (i, n) })
    | root n =>
      simp only [hc, hcur]
      exact World.addCalls_set w ex j { (w.threads j) with cur := some (i, n (w.roots i)) }
    | setRoot r n =>
      simp only [hc, hcur]
      exact congrArg (fun w' : World => { w' with roots := fun i' => if i' = i then r else w.roots i' })
        (World.addCalls_set w ex j { (w.threads j) with cur := some (i, n) })

theorem World.step_rest (E : Env) (w : World) {j : Nat} (h : (w.threads j).cur ≠ none) (j' : Nat) :
    ((w.step E j).threads j').rest = (w.threads j').rest := by
  by_cases hj : j' = j
  · subst hj
    unfold World.step
    cases hcur : (w.threads j').cur with
    | none => exact absurd hcur h
    | some x =>
      obtain ⟨i, p⟩ := x
      cases p with
      | load k n =>
        simp only [hcur]
        cases dget w.store.kv k <;> simp only [World.setThread_same]
      | done | save | root | setRoot => simp only [hcur, World.setThread_same]
  · rw [w.step_other E hj]

theorem worldAt_snoc (E : Env) (secure : Nat → Bool) (cs : Nat → List (Nat × Call)) (s : List Nat) (j q : Nat) :
    worldAt E secure cs (s ++ [j]) q =
      if q ≤ s.length then worldAt E secure cs s q else (worldAt E secure cs s s.length).step E j := by
  unfold worldAt
  split
  · rename_i h; rw [List.take_append_of_le_length h]
  · rename_i h
    rw [List.take_of_length_le (by simp; omega), World.run_append, List.take_length]
    rfl

/-- An interleaving of calls on a trie, each thread's calls being those it has begun. -/
structure Shadow (E : Env) (sec : Bool) (ok : Call → Prop) (log : List Bytes) (cs : Nat → List (Nat × Call))
    (s : List Nat) (w : World) : Prop where
  run : worldAt E (fun _ => sec) cs s s.length = w
  more : ∀ q ex, worldAt E (fun _ => sec) (fun j => cs j ++ ex j) s q = (worldAt E (fun _ => sec) cs s q).addCalls ex
  bounded : ∀ q, (worldAt E (fun _ => sec) cs s q).Bounded log
  allowed : ∀ j, ∀ c ∈ cs j, c.1 = 0 ∧ ok c.2
  rest : ∀ j, (w.threads j).rest = []

section
variable {E : Env} {sec : Bool} {ok : Call → Prop} {log : List Bytes} {cs : Nat → List (Nat × Call)} {s : List Nat}
  {w : World}

theorem Shadow.move (h : Shadow E sec ok log cs s w) {j : Nat} (hcur : (w.threads j).cur ≠ none)
    (hb : (w.step E j).Bounded log) : Shadow E sec ok log cs (s ++ [j]) (w.step E j) where
  run := by
    rw [worldAt_snoc, if_neg (by simp), h.run]
  more := by
    intro q ex
    rw [worldAt_snoc, worldAt_snoc]
    split
    · exact h.more q ex
    · rw [h.more, World.step_addCalls _ _ _ _ (.inl (by rw [h.run]; exact hcur))]
  bounded := by
    intro q
    rw [worldAt_snoc]
    split
    · exact h.bounded q
    · rw [h.run]; exact hb
  allowed := h.allowed
  rest := by
    intro j'
    rw [World.step_rest E w hcur]
    exact h.rest j'

/-- One more call for thread `j`. -/
def oneCall (j : Nat) (c : Call) : Nat → List (Nat × Call) := fun i => if i = j then [(0, c)] else []

theorem World.addCalls_append (w : World) (a b : Nat → List (Nat × Call)) :
    w.addCalls (fun j => a j ++ b j) = (w.addCalls a).addCalls b := by
  unfold World.addCalls
  simp only [List.append_assoc]

theorem Shadow.begin (h : Shadow E sec ok log cs s w) {j : Nat} {c : Call} (hcur : (w.threads j).cur = none) (hc : ok c)
    (hb : (w.setThread j { w.threads j with cur := some (0, c.prog E sec) }).Bounded log) :
    Shadow E sec ok log (fun i => cs i ++ oneCall j c i) (s ++ [j])
      (w.setThread j { w.threads j with cur := some (0, c.prog E sec) }) := by
  have hsec : w.secure = fun _ => sec := by rw [← h.run]; exact worldAt_secure _ _
  have hrest := h.rest j
  have hstep : (w.addCalls (oneCall j c)).step E j = w.setThread j { w.threads j with cur := some (0, c.prog E sec) } := by
    have h1 : ((w.addCalls (oneCall j c)).threads j).cur = none := hcur
    have h2 : ((w.addCalls (oneCall j c)).threads j).rest = [(0, c)] := by
      show (w.threads j).rest ++ oneCall j c j = _
      rw [hrest]; simp [oneCall]
    unfold World.step
    simp only [h1, h2]
    unfold World.setThread World.addCalls oneCall
    simp only [hsec, hrest]
    congr 1
    funext i
    by_cases hi : i = j
    · subst hi; simp
    · simp [hi]
  have hlast : (worldAt E (fun _ => sec) (fun i => cs i ++ oneCall j c i) s s.length).step E j =
      w.setThread j { w.threads j with cur := some (0, c.prog E sec) } := by
    rw [h.more, h.run, hstep]
  constructor
  · rw [worldAt_snoc, if_neg (by simp), hlast]
  · intro q ex
    have hm : ∀ q, worldAt E (fun _ => sec) (fun i => cs i ++ oneCall j c i ++ ex i) s q =
        (worldAt E (fun _ => sec) (fun i => cs i ++ oneCall j c i) s q).addCalls ex := by
      intro q
      simp only [List.append_assoc]
      rw [h.more q (fun i => oneCall j c i ++ ex i), h.more q (oneCall j c), World.addCalls_append]
    rw [worldAt_snoc, worldAt_snoc]
    split
    · exact hm q
    · rw [hm, World.step_addCalls]
      right
      rw [h.more]
      show ((worldAt E (fun _ => sec) cs s s.length).threads j).rest ++ oneCall j c j ≠ []
      simp [oneCall]
  · intro q
    rw [worldAt_snoc]
    split
    · rw [h.more]; exact h.bounded q
    · rw [hlast]; exact hb
  · intro j' c' hc'
    rcases List.mem_append.1 hc' with h1 | h1
    · exact h.allowed j' c' h1
    · unfold oneCall at h1
      split at h1
      · rw [List.mem_singleton] at h1; subst h1; exact ⟨rfl, hc⟩
      · exact (nomatch h1)
  · intro j'
    by_cases hj : j' = j
    · subst hj; rw [World.setThread_same]; exact hrest
    · rw [World.setThread_other _ _ hj]; exact h.rest j'

theorem Shadow.on (h : Shadow E sec ok log cs s w) (hf : ∀ c, ok c → Fits E sec c.key) (hL : LogOk E log) :
    CrowdOn E (fun _ => sec) cs log s :=
  ⟨fun j c hc => hf _ (h.allowed j c hc).2, fun q => (h.bounded q).1, fun q j _ i p hp => (h.bounded q).2 j i p hp, hL⟩

/-- What a call on the trie may return. -/
theorem Shadow.plausible (h : Shadow E sec ok log cs s w) (hf : ∀ c, ok c → Fits E sec c.key) (hL : LogOk E log)
    {j : Nat} {c : Call} {x : Py Ans} (hcur : (w.threads j).cur = some (0, .done x))
    (hc : (cs j).getLast? = some (0, c)) : Plausible c x := by
  have hcr := h.on hf hL
  have hok := CrowdOk.all hcr s.length (Nat.le_refl _)
  obtain ⟨c', hd, hst⟩ := hok.busy j 0 (.done x) (by rw [h.run]; exact hcur)
  have hmem := List.mem_of_getElem? (drop_get hd)
  rw [h.run, h.rest j] at hd
  have hcc : c' = c := by
    have h1 : (cs j).getLast? = some (0, c') := by
      rw [← List.take_append_drop (w.threads j).outs.length (cs j), hd]
      simp
    rw [hc] at h1
    injection h1 with h1
    injection h1 with _ h1
    exact h1.symm
  subst hcc
  have hb : ∀ q, During E (fun _ => sec) cs s j (w.threads j).outs.length s.length q →
      ((worldAt E (fun _ => sec) cs s q).obj 0).secure = sec ∧ ∃ a, Bears E ((worldAt E (fun _ => sec) cs s q).obj 0) a := by
    intro q hq
    have ok' := CrowdOk.all hcr q hq.1
    obtain ⟨_, _, h2⟩ := ok'.made 0
    exact ⟨congrFun ok'.sec 0, _, h2⟩
  rw [h.run] at hst
  cases c' with
  | update k v => exact hst.update_ok hL (hcr.fits j _ hmem) hb
  | delete k => trivial
  | get k => trivial
  | contains k =>
    have := hst.ofDone
    unfold Outcome at this
    rw [if_pos (show (Call.contains k).op? = none from rfl)] at this
    rcases this with ⟨q, hq, hx⟩ | ⟨hx, _⟩ | ⟨hx, _⟩
    · obtain ⟨hs, a, hb'⟩ := hb q hq
      left
      refine ⟨T.has a (toNibs (((worldAt E (fun _ => sec) cs s q).obj 0).keyOf E k)), hx.trans ?_⟩
      show (MPT.contains E _ k).map _ = _
      rw [hb'.holds.contains (hL.mono (h.bounded q).1) (fits_nibs (by rw [hs]; exact hcr.fits j _ hmem))]
      rfl
    · exact .inr (.inl hx)
    · exact .inr (.inr hx)

end

/-! ## The shadow of an interleaving of calls on an `EMPT` -/

/-- The program is not in the middle of a call on the trie. -/
def EProg.Settled : EProg EAns → Prop
  | .done _ => True
  | .data _ _ => True
  | .setData _ _ _ => True
  | .delData _ _ => True
  | _ => False

/-- Where a call on the `EMPT` is, and what its shadow does. -/
inductive Track (E : Env) (sec : Bool) (ok : Call → Prop) (cs : List (Nat × Call)) (post : Py EAns → Prop) :
    EProg EAns → Option (Nat × Prog Ans) → Prop
  | out (p : EProg EAns) (h : EForm E sec ok post p) (hs : p.Settled) : Track E sec ok cs post p none
  | inside (c : Call) (P : Prog Ans) (g : Ans → EProg EAns) (hP : ∀ r, P ≠ .done r) (hc : cs.getLast? = some (0, c))
      (h : ∀ a, Plausible c (.ok a) → EForm E sec ok post (g a)) (he : ∀ e, Plausible c (.error e) → post (.error e)) :
      Track E sec ok cs post ((EProg.trie P).bind g) (some (0, P))

/-- Where a thread is, and what its shadow does. -/
def Tracked (E : Env) (sec : Bool) (calls : Nat → List ECall) (cs : Nat → List (Nat × Call)) (W : EWorld) (w : World)
    (j : Nat) : Prop :=
  match (W.threads j).cur with
  | none => (w.threads j).cur = none ∧ (calls j).drop (W.threads j).outs.length = (W.threads j).rest
  | some p => ∃ c, (calls j).drop (W.threads j).outs.length = c :: (W.threads j).rest ∧
      Track E sec (Inner E calls) (cs j) (EPlausible c) p (w.threads j).cur

/-- Outcomes so far. -/
def EPast (calls : Nat → List ECall) (W : EWorld) : Prop :=
  ∀ (j n : Nat) (c : ECall) (x : Py EAns), (calls j)[n]? = some c → (W.threads j).outs[n]? = some x → EPlausible c x

/-- The threads and their shadow. -/
structure EShadow (E : Env) (sec : Bool) (calls : Nat → List ECall) (log : List Bytes) (W : EWorld)
    (cs : Nat → List (Nat × Call)) (s : List Nat) (w : World) : Prop where
  shadow : Shadow E sec (Inner E calls) log cs s w
  store : w.store = W.obj.trie.store
  root : w.roots 0 = W.obj.trie.root
  secure : W.obj.trie.secure = sec
  tracked : ∀ j, Tracked E sec calls cs W w j
  past : EPast calls W

section
variable {E : Env} {sec : Bool} {calls : Nat → List ECall} {log : List Bytes} {cs : Nat → List (Nat × Call)}
  {s : List Nat} {w : World} {W : EWorld}

/-- Nothing that can still be written from here on is missing from the list. -/
def EWorld.Covered (E : Env) (log : List Bytes) (W : EWorld) : Prop :=
  ∀ s, ∀ x ∈ (W.run E s).obj.trie.store.written, x ∈ log

theorem EWorld.Covered.step (h : W.Covered E log) (j : Nat) : (W.step E j).Covered E log :=
  fun s => h (j :: s)

theorem bounded_of (hall : W.Covered E log) (hs : w.store = W.obj.trie.store) (hr : w.roots 0 = W.obj.trie.root)
    (hsec : w.secure 0 = W.obj.trie.secure)
    (h : ∀ j i P, (w.threads j).cur = some (i, P) →
      i = 0 ∧ ((∃ r, P = .done r) ∨ ∃ g, (W.threads j).cur = some ((EProg.trie P).bind g))) : w.Bounded log := by
  refine ⟨fun x hx => hall [] x (hs ▸ hx), fun j i P hP x hx => ?_⟩
  obtain ⟨rfl, h1⟩ := h j i P hP
  have hobj : w.obj 0 = W.obj.trie := by unfold World.obj; rw [hs, hr, hsec]
  rw [hobj] at hx
  rcases h1 with ⟨r, rfl⟩ | ⟨g, hg⟩
  · exact hall [] x hx
  · obtain ⟨n, hn⟩ := EWorld.run_trie E j P g W hg
    rw [← hn] at hx
    exact hall _ x hx

theorem Tracked.inside {j : Nat} (h : Tracked E sec calls cs W w j) {i : Nat} {P : Prog Ans}
    (hP : (w.threads j).cur = some (i, P)) :
    i = 0 ∧ ((∃ r, P = .done r) ∨ ∃ g, (W.threads j).cur = some ((EProg.trie P).bind g)) := by
  unfold Tracked at h
  cases hcur : (W.threads j).cur with
  | none => rw [hcur] at h; rw [h.1] at hP; exact (nomatch hP)
  | some p =>
    rw [hcur] at h
    obtain ⟨c, _, ht⟩ := h
    rw [hP] at ht
    cases ht with
    | inside c P g => exact ⟨rfl, .inr ⟨g, rfl⟩⟩

theorem Tracked.congr {j : Nat} (h : Tracked E sec calls cs W w j) {cs' : Nat → List (Nat × Call)} {W' : EWorld}
    {w' : World} (h1 : cs' j = cs j) (h2 : W'.threads j = W.threads j) (h3 : w'.threads j = w.threads j) :
    Tracked E sec calls cs' W' w' j := by
  unfold Tracked
  rw [h1, h2, h3]
  exact h

/-- A program between calls on the trie either goes on without one, or begins one. -/
theorem eshadow_settle (hall : W.Covered E log) (hsh : Shadow E sec (Inner E calls) log cs s w)
    (hs : w.store = W.obj.trie.store) (hr : w.roots 0 = W.obj.trie.root) (hsec : W.obj.trie.secure = sec) {j : Nat}
    (hoth : ∀ j', j' ≠ j → Tracked E sec calls cs W w j') {p : EProg EAns} (hcur : (W.threads j).cur = some p)
    {c : ECall} (hd : (calls j).drop (W.threads j).outs.length = c :: (W.threads j).rest)
    (hf : EForm E sec (Inner E calls) (EPlausible c) p) (hw : (w.threads j).cur = none) (hpast : EPast calls W) :
    ∃ cs' s' w', EShadow E sec calls log W cs' s' w' := by
  have stay : p.Settled → ∃ cs' s' w', EShadow E sec calls log W cs' s' w' := by
    intro hset
    refine ⟨cs, s, w, hsh, hs, hr, hsec, fun j' => ?_, hpast⟩
    by_cases hj : j' = j
    · subst hj
      unfold Tracked
      rw [hcur, hw]
      exact ⟨c, hd, .out p hf hset⟩
    · exact hoth j' hj
  have hf' := hf
  cases hf with
  | done => exact stay trivial
  | data => exact stay trivial
  | setData => exact stay trivial
  | delData => exact stay trivial
  | call c' g hc h he =>
    have hwsec : w.secure = fun _ => sec := by rw [← hsh.run]; exact worldAt_secure _ _
    obtain ⟨n, hn⟩ := Call.prog_root E sec c'
    have hnd : ∀ r, c'.prog E sec ≠ .done r := by rw [hn]; exact fun r e => (nomatch e)
    have hnew := hsh.begin (c := c') hw hc (bounded_of hall hs hr (by rw [hsec]; exact congrFun hwsec 0) (by
      intro j' i P hP
      by_cases hj : j' = j
      · subst hj
        rw [World.setThread_same] at hP
        injection hP with hP
        injection hP with e1 e2
        subst e1 e2
        exact ⟨rfl, .inr ⟨g, hcur⟩⟩
      · rw [World.setThread_other _ _ hj] at hP
        exact (hoth j' hj).inside hP))
    refine ⟨_, _, _, hnew, hs, hr, hsec, fun j' => ?_, hpast⟩
    by_cases hj : j' = j
    · subst hj
      unfold Tracked
      rw [hcur, World.setThread_same]
      exact ⟨c, hd, .inside c' _ g hnd (by simp [oneCall]) h he⟩
    · exact (hoth j' hj).congr (by simp [oneCall, hj]) rfl (World.setThread_other _ _ hj)

theorem EForm.not_trie {post : Py EAns → Prop} {ok : Call → Prop} {p : EProg EAns} (h : EForm E sec ok post p)
    (hs : p.Settled) :
    (∃ r, p = .done r ∧ post r) ∨
    (∃ k n, p = .data k n ∧ (∀ v, EForm E sec ok post (n v)) ∧ post (.error .keyError)) ∨
    (∃ k v n, p = .setData k v n ∧ EForm E sec ok post n) ∨
    (∃ k n, p = .delData k n ∧ EForm E sec ok post n ∧ post (.error .keyError)) := by
  cases h with
  | done r h => exact .inl ⟨r, rfl, h⟩
  | data k n h he => exact .inr (.inl ⟨k, n, rfl, h, he⟩)
  | setData k v n h => exact .inr (.inr (.inl ⟨k, v, n, rfl, h⟩))
  | delData k n h he => exact .inr (.inr (.inr ⟨k, n, rfl, h, he⟩))
  | call c g =>
    obtain ⟨n, hn⟩ := Call.prog_root E sec c
    rw [hn] at hs
    exact hs.elim

theorem EShadow.step (hf : ∀ c, Inner E calls c → Fits E sec c.key) (hL : LogOk E log) (hall : W.Covered E log)
    (h : EShadow E sec calls log W cs s w) (j : Nat) :
    ∃ cs' s' w', EShadow E sec calls log (W.step E j) cs' s' w' := by
  have hall' := hall.step j
  have ht := h.tracked j
  have hoth : ∀ j', j' ≠ j → (W.step E j).threads j' = W.threads j' := fun j' hj => by
    unfold EWorld.step
    simp only
    split
    · split
      · rfl
      · exact EWorld.setThread_other _ _ hj
    · exact EWorld.setThread_other _ _ hj
    · exact EWorld.setThread_other _ _ hj
  have hwsec : w.secure = fun _ => sec := by rw [← h.shadow.run]; exact worldAt_secure _ _
  unfold Tracked at ht
  cases hcur : (W.threads j).cur with
  | none =>
    rw [hcur] at ht
    cases hrest : (W.threads j).rest with
    | nil =>
      have : W.step E j = W := by unfold EWorld.step; simp only [hcur, hrest]
      rw [this]
      exact ⟨cs, s, w, h⟩
    | cons c rest =>
      have hst : W.step E j = W.setThread j { W.threads j with cur := some (c.prog E W.obj.trie.secure), rest := rest } := by
        unfold EWorld.step; simp only [hcur, hrest]
      rw [hst] at hall' hoth ⊢
      rw [hrest] at ht
      refine eshadow_settle hall' h.shadow h.store h.root h.secure (j := j) (p := c.prog E W.obj.trie.secure) (c := c)
        (fun j' hj => (h.tracked j').congr rfl (hoth j' hj) rfl) ?_ ?_ ?_ ht.1 ?_
      · rw [EWorld.setThread_same]
      · rw [EWorld.setThread_same]; exact ht.2
      · rw [h.secure]
        refine eform_call E sec calls (j := j) ?_
        have : c ∈ (calls j).drop (W.threads j).outs.length := by rw [ht.2]; simp
        exact List.mem_of_mem_drop this
      · intro j' n c' x hc' hx
        refine h.past j' n c' x hc' ?_
        by_cases hj : j' = j
        · subst hj; rw [EWorld.setThread_same] at hx; exact hx
        · rw [hoth j' hj] at hx; exact hx
  | some p =>
    rw [hcur] at ht
    obtain ⟨c, hd, ht⟩ := ht
    -- an access to the object
    have acc : ∀ (p' : EProg EAns) (o : EMPT), (∀ r, p ≠ .done r) → EWorld.access p W.obj = (o, p') →
        ((W.step E j).threads j) = { W.threads j with cur := some p' } ∧ (W.step E j).obj = o := by
      intro p' o hnd ha
      rw [EWorld.step_access E hnd hcur, ha]
      exact ⟨EWorld.setThread_same _ _ _, rfl⟩
    have pastOf : ((W.step E j).threads j).outs = (W.threads j).outs → EPast calls (W.step E j) := by
      intro ho j' n c' x hc' hx
      refine h.past j' n c' x hc' ?_
      by_cases hj : j' = j
      · subst hj; rw [ho] at hx; exact hx
      · rw [hoth j' hj] at hx; exact hx
    -- no call on the trie is running, and the trie has not been touched
    have calm : ∀ (p' : EProg EAns) (o : EMPT), (∀ r, p ≠ .done r) → EWorld.access p W.obj = (o, p') →
        o.trie = W.obj.trie → EForm E sec (Inner E calls) (EPlausible c) p' → (w.threads j).cur = none →
        ∃ cs' s' w', EShadow E sec calls log (W.step E j) cs' s' w' := by
      intro p' o hnd ha ho hform hw
      obtain ⟨h1, h2⟩ := acc p' o hnd ha
      refine eshadow_settle hall' h.shadow (by rw [h2, ho]; exact h.store) (by rw [h2, ho]; exact h.root)
        (by rw [h2, ho]; exact h.secure) (j := j) (p := p') (c := c)
        (fun j' hj => (h.tracked j').congr rfl (hoth j' hj) rfl) (by rw [h1]) (by rw [h1]; exact hd) hform hw
        (pastOf (by rw [h1]))
    generalize hwc : (w.threads j).cur = wc at ht
    cases ht with
    | out _ hform hset =>
      rcases hform.not_trie hset with ⟨r, rfl, hr⟩ | ⟨k, n, rfl, hn, he⟩ | ⟨k, v, n, rfl, hn⟩ | ⟨k, n, rfl, hn, he⟩
      · have hst : W.step E j = W.setThread j { W.threads j with cur := none, outs := (W.threads j).outs ++ [r] } := by
          unfold EWorld.step; simp only [hcur]
        rw [hst] at hoth ⊢
        refine ⟨cs, s, w, h.shadow, h.store, h.root, h.secure, fun j' => ?_, ?_⟩
        · by_cases hj : j' = j
          · subst hj
            unfold Tracked
            rw [EWorld.setThread_same]
            refine ⟨hwc, ?_⟩
            simp only [List.length_append, List.length_cons, List.length_nil]
            rw [← List.drop_drop, hd]
            rfl
          · exact (h.tracked j').congr rfl (hoth j' hj) rfl
        · intro j' n c' x hc' hx
          by_cases hj : j' = j
          · subst hj
            rw [EWorld.setThread_same] at hx
            simp only at hx
            rw [List.getElem?_append] at hx
            split at hx
            · exact h.past j' n c' x hc' hx
            · rename_i hlt
              have hn : n - (W.threads j').outs.length = 0 := by
                cases e : n - (W.threads j').outs.length with
                | zero => rfl
                | succ m => rw [e] at hx; exact (nomatch hx)
              rw [hn] at hx
              injection hx with hx
              subst hx
              have hn' : n = (W.threads j').outs.length := by omega
              subst hn'
              rw [drop_get hd] at hc'
              injection hc' with hc'
              subst hc'
              exact hr
          · rw [hoth j' hj] at hx; exact h.past j' n c' x hc' hx
      · cases hv : dget W.obj.data k with
        | none => exact calm _ _ (fun r e => (nomatch e)) (by simp only [EWorld.access, hv]) rfl (.done _ he) hwc
        | some v => exact calm _ _ (fun r e => (nomatch e)) (by simp only [EWorld.access, hv]) rfl (hn v) hwc
      · exact calm _ _ (fun r e => (nomatch e)) rfl rfl hn hwc
      · cases hv : dget W.obj.data k with
        | none => exact calm _ _ (fun r e => (nomatch e)) (by simp only [EWorld.access, hv]) rfl (.done _ he) hwc
        | some v => exact calm n { W.obj with data := ddel W.obj.data k } (fun r e => (nomatch e)) (by simp only [EWorld.access, hv]) rfl hn hwc
    | inside c' P g hP hc' hg he =>
      obtain ⟨h1, h2⟩ := acc _ _ (trie_not_done hP g) (eaccess_trie hP g W.obj)
      obtain ⟨g1, g2, g3⟩ := World.step_access E hP hwc
      have hobj : w.obj 0 = W.obj.trie := by
        unfold World.obj; rw [h.store, h.root, hwsec, ← h.secure]
      have gsec : (w.step E j).secure = fun _ => sec := by rw [World.step_secure, hwsec]
      have goth : ∀ j', j' ≠ j → (w.step E j).threads j' = w.threads j' := fun j' hj => w.step_other E hj
      rw [hobj] at g1 g2 g3
      have asec : (P.access W.obj.trie).1.secure = sec := by
        rw [← h.secure]
        cases P with
        | load k n => simp only [Prog.access]; cases dget W.obj.trie.store.kv k <;> rfl
        | done | save | root | setRoot => rfl
      have hother : ∀ j', j' ≠ j → Tracked E sec calls cs (W.step E j) (w.step E j) j' :=
        fun j' hj => (h.tracked j').congr rfl (hoth j' hj) (goth j' hj)
      have hstore : (w.step E j).store = (W.step E j).obj.trie.store := by rw [g1, h2]
      have hroot : (w.step E j).roots 0 = (W.step E j).obj.trie.root := by rw [g2, h2]
      have hsecure : (W.step E j).obj.trie.secure = sec := by rw [h2]; exact asec
      generalize hQ : (P.access W.obj.trie).2 = Q at h1 g3
      have hnew := h.shadow.move (j := j) (by rw [hwc]; exact fun e => (nomatch e))
        (bounded_of hall' hstore hroot (by rw [gsec, hsecure]) (by
          intro j' i P' hP'
          by_cases hj : j' = j
          · subst hj
            rw [g3] at hP'
            injection hP' with hP'
            injection hP' with e1 e2
            subst e1 e2
            exact ⟨rfl, .inr ⟨g, by rw [h1]⟩⟩
          · exact (hother j' hj).inside hP'))
      by_cases hdone : ∃ r, Q = .done r
      · obtain ⟨r, rfl⟩ := hdone
        have hpl := hnew.plausible hf hL (j := j) (c := c') (x := r) (by rw [g3]) hc'
        generalize hw1 : w.step E j = w1 at *
        have hst : w1.step E j = w1.setThread j { w1.threads j with cur := none, outs := (w1.threads j).outs ++ [r] } := by
          unfold World.step; simp only [g3]
        have hnew2 := hnew.move (j := j) (by rw [g3]; exact fun e => (nomatch e))
          (bounded_of hall' (W := W.step E j) (by rw [hst]; exact hstore) (by rw [hst]; exact hroot)
            (by rw [hst, hsecure]; exact congrFun gsec 0) (by
              intro j' i P' hP'
              rw [hst] at hP'
              by_cases hj : j' = j
              · subst hj; rw [World.setThread_same] at hP'; exact (nomatch hP')
              · rw [World.setThread_other _ _ hj] at hP'
                exact (hother j' hj).inside hP'))
        rw [hst] at hnew2
        have hform : EForm E sec (Inner E calls) (EPlausible c) ((EProg.trie (.done r)).bind g) := by
          cases r with
          | ok a => exact hg a hpl
          | error e => exact .done _ (he e hpl)
        refine eshadow_settle hall' hnew2 hstore hroot hsecure (j := j) (p := (EProg.trie (.done r)).bind g) (c := c)
          (fun j' hj => (hother j' hj).congr rfl rfl (World.setThread_other _ _ hj)) (by rw [h1]) (by rw [h1]; exact hd)
          hform (by rw [World.setThread_same]) (pastOf (by rw [h1]))
      · refine ⟨cs, _, _, hnew, hstore, hroot, hsecure, fun j' => ?_, pastOf (by rw [h1])⟩
        by_cases hj : j' = j
        · subst hj
          unfold Tracked
          rw [h1, g3]
          exact ⟨c, hd, .inside c' Q g (fun r e => hdone ⟨r, e⟩) hc' hg he⟩
        · exact hother j' hj

theorem EShadow.new (hL : W = EWorld.new E sec calls) (hall : W.Covered E log) :
    EShadow E sec calls log W (fun _ => []) [] (World.new E (fun _ => sec) (fun _ => [])) := by
  subst hL
  have hb : (World.new E (fun _ => sec) (fun _ => [])).Bounded log :=
    ⟨fun x hx => (nomatch hx), fun j i P hP => (nomatch hP)⟩
  refine ⟨⟨rfl, ?_, ?_, fun j c hc => (nomatch hc), fun _ => rfl⟩, rfl, rfl, rfl, fun j => ⟨rfl, rfl⟩, ?_⟩
  · intro q ex
    unfold worldAt
    rw [List.take_nil]
    rfl
  · intro q
    unfold worldAt
    rw [List.take_nil]
    exact hb
  · intro j n c x _ hx
    exact (nomatch hx)

/-- Every interleaving of calls on an `EMPT` has a shadow. -/
theorem EShadow.all (hf : ∀ c, Inner E calls c → Fits E sec c.key) (hL : LogOk E log)
    (hall : (EWorld.new E sec calls).Covered E log) (sched : List Nat) :
    ∃ cs s w, EShadow E sec calls log ((EWorld.new E sec calls).run E sched) cs s w := by
  have go : ∀ (sched : List Nat) (W : EWorld), W.Covered E log → (∃ cs s w, EShadow E sec calls log W cs s w) →
      ∃ cs s w, EShadow E sec calls log (W.run E sched) cs s w := by
    intro sched
    induction sched with
    | nil => exact fun W _ h => h
    | cons j sched ih =>
      intro W hall ⟨cs, s, w, h⟩
      exact ih (W.step E j) (hall.step j) (h.step hf hL hall j)
  exact go sched _ hall ⟨_, _, _, EShadow.new rfl hall⟩

end

end Pymt
