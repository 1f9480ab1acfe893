import Verif.Lemmas.EmptTurns
import Verif.Props.Empt
import Verif.Props.EmptCrowd
import Verif.Props.EmptWatching

/-!
# Property C109: several threads that take turns to write to one `EMPT`
-/

namespace Pymt.Props

theorem _root_.Pymt.ETurns.now {E : Env} {secure : Bool} {calls : Nat → List ECall} {sched : List Nat}
    (ht : ETurns E secure calls sched) : ETurnOk E secure calls ((EWorld.new E secure calls).run E sched)
      ((EWorld.new E secure calls).order E sched) := by
  have := ht.ok sched.length (Nat.le_refl _)
  unfold eworldAt at this
  rwa [List.take_length] at this

/-- **C109** If writers of an `EMPT` take turns (readers need not), then whenever no `update` or `delete` is under way
the object is, field by field, the one that a single client would have after the same calls in the order in which they
began: nothing is lost, and there is nothing left over in either storage.  No assumption about hashes, keys, values or
exceptions. -/
theorem C109_state (E : Env) (secure : Bool) (calls : Nat → List ECall) (sched : List Nat)
    (ht : ETurns E secure calls sched) :
    let w := (EWorld.new E secure calls).run E sched
    w.Unwritten calls →
    w.obj = EMPT.after E secure (((EWorld.new E secure calls).order E sched).map Prod.snd) := by
  intro w hu
  rcases ht.now.state with ⟨_, h, _⟩ | ⟨j, p, c, op, pre, b1, b2, b3, _⟩
  · exact h
  · have := hu j _ c (running_of b1) b2
    rw [b3] at this
    exact (nomatch this)

/-- **C109** Every finished `update` and `delete` of every thread has the outcome it has for the single client, and the
single client makes the calls of each thread in the thread's own order.  A call that is under way comes last. -/
theorem C109_outcomes (E : Env) (secure : Bool) (calls : Nat → List ECall) (sched : List Nat)
    (ht : ETurns E secure calls sched) :
    let w := (EWorld.new E secure calls).run E sched
    let order := (EWorld.new E secure calls).order E sched
    (w.Unwritten calls → ∀ j, w.finished calls j = oneByOne E secure order j) ∧
    (¬ w.Unwritten calls → ∃ pre j op, order = pre ++ [(j, op)] ∧
      ∀ i, w.finished calls i = oneByOne E secure pre i) := by
  intro w order
  rcases ht.now.state with ⟨hu, _, h⟩ | ⟨j, p, c, op, pre, b1, b2, b3, b4, _, b6⟩
  · exact ⟨fun _ => h, fun hn => absurd hu hn⟩
  · refine ⟨fun hu => ?_, fun _ => ⟨pre, j, op, b4, b6⟩⟩
    have := hu j _ c (running_of b1) b2
    rw [b3] at this
    exact (nomatch this)

/-- **C109** The order in which calls begin does not change as time goes on: calls that began in the first part of a
schedule come before those that begin later. -/
theorem C109_order (E : Env) (secure : Bool) (calls : Nat → List ECall) (sched sched' : List Nat) :
    (EWorld.new E secure calls).order E sched <+: (EWorld.new E secure calls).order E (sched ++ sched') :=
  ⟨_, (EWorld.order_append E _ sched sched').symm⟩

/-- **C109** A `get` or `contains` during which no `update` or `delete` is under way has the outcome it has for the
single client after the calls that had begun by then. -/
theorem C109_reads (E : Env) (secure : Bool) (calls : Nat → List ECall) (sched : List Nat)
    (ht : ETurns E secure calls sched) (j n : Nat) (c : ECall) (x : Py EAns) (hc : (calls j)[n]? = some c)
    (hx : (((EWorld.new E secure calls).run E sched).threads j).outs[n]? = some x)
    (hu : ∀ q, q ≤ sched.length → (eworldAt E secure calls sched q).Running j n →
      (eworldAt E secure calls sched q).Unwritten calls) :
    ∃ q, q ≤ sched.length ∧ (eworldAt E secure calls sched q).Running j n ∧
      x = (c.seq E (EMPT.after E secure (((EWorld.new E secure calls).order E (sched.take q)).map Prod.snd))).1 := by
  have hw : eworldAt E secure calls sched sched.length = (EWorld.new E secure calls).run E sched := by
    unfold eworldAt; rw [List.take_length]
  obtain ⟨q, h1, h2, h3⟩ := (ht.reader hc hu sched.length (Nat.le_refl _)).2 x (by rw [hw]; exact hx)
  refine ⟨q, h1, h2, ?_⟩
  rw [h3]
  rcases (ht.ok q h1).state with ⟨_, h, _⟩ | ⟨j, p, c, op, pre, b1, b2, b3, _⟩
  · rw [← h]
  · have := hu q h1 h2 j _ c (running_of b1) b2
    rw [b3] at this
    exact (nomatch this)

/-- **C109** So between calls the `EMPT` is the mapping that the calls describe, in the order in which they began
(compare C27). -/
theorem C109_mapping (E : Env) (secure : Bool) (calls : Nat → List ECall) (sched : List Nat)
    (ht : ETurns E secure calls sched) (k : Bytes) :
    let w := (EWorld.new E secure calls).run E sched
    let ops := ((EWorld.new E secure calls).order E sched).map Prod.snd
    w.Unwritten calls → EValid E secure ops [k] →
    (∀ v, econtents ops k = some v → w.obj.get E k = .ok v) ∧
    (econtents ops k = none → w.obj.get E k = .error .keyError) ∧
    w.obj.iter.Nodup ∧ (∀ k', k' ∈ w.obj.iter ↔ econtents ops k' ≠ none) := by
  intro w ops hu hv
  rw [show w.obj = _ from C109_state E secure calls sched ht hu]
  obtain ⟨h1, h2, _, h4, h5, _⟩ := C27_mapping_partial hv
  exact ⟨h1, h2, h4, h5⟩

/-- **C109** A `get` or `contains` that runs while others take turns to write: it sees, in order, some of the states
that the object of the single client goes through during the calls `mid`.  All calls `pre` before those were made before
the read ended; at the first access at most one call of `mid` had begun. -/
theorem C109_watch (E : Env) (secure : Bool) (calls : Nat → List ECall) (sched : List Nat)
    (ht : ETurns E secure calls sched) (j n : Nat) (c : ECall) (x : Py EAns) (hc : (calls j)[n]? = some c)
    (hop : c.op? = none) (hx : (((EWorld.new E secure calls).run E sched).threads j).outs[n]? = some x) :
    let W := eworldAt E secure calls sched
    let order := fun q => (EWorld.new E secure calls).order E (sched.take q)
    ∃ q0 q1, q0 ≤ q1 ∧ q1 ≤ sched.length ∧ (W q0).Running j n ∧ (W q1).Running j n ∧ ∃ pre mid V,
      (order q0 = pre ∨ (¬ (W q0).Unwritten calls ∧ ∃ y, order q0 = pre ++ [y])) ∧ order q1 = pre ++ mid ∧
      Sees (EMPT.passes E (EMPT.after E secure (pre.map Prod.snd)) (mid.map Prod.snd)) V ∧
      x = (c.prog E secure).watch V := by
  intro W order
  obtain ⟨q0, q1, h1, h2, h3, h4, pre, mid, V, h5, h6, h7, h8⟩ := ht.window hc hop hx
  exact ⟨q0, q1, h1, h2, h3, h4, pre, mid, V, h5, h6, h7, h8.symm⟩

theorem watch_getCall (E : Env) (secure : Bool) (k : Bytes) (V : Nat → EMPT) :
    ((ECall.get k).prog E secure).watch V = ((EMPT.getCallP E secure k).watch V).map EAns.value := by
  show (EMPT.getCallP E secure k >>= fun v => EProg.done (.ok (EAns.value v))).watch V = _
  unfold EProg.watch
  rw [EProg.along_bind]
  cases (EMPT.getCallP E secure k).along V 0 with
  | mk r m => cases r <;> rfl

theorem evalid_head {E : Env} {secure : Bool} {ops ops' : List EOp} {k : Bytes} (hp : ops <+: ops')
    (h : EValid E secure ops' [k]) : EValid E secure ops [k] := by
  obtain ⟨r, rfl⟩ := hp
  exact h.prefix

/-- **C109** So a value that `get` returns while others take turns to write was the value of the key after some of the
calls: those of `pre`, which had begun before the read ended, and perhaps some that began while it ran. -/
theorem C109_value (E : Env) (secure : Bool) (calls : Nat → List ECall) (sched : List Nat)
    (ht : ETurns E secure calls sched) (j n : Nat) (k : Bytes) (v : Value) (hc : (calls j)[n]? = some (.get k))
    (hx : (((EWorld.new E secure calls).run E sched).threads j).outs[n]? = some (.ok (.value v)))
    (hv : EValid E secure (((EWorld.new E secure calls).order E sched).map Prod.snd) [k]) :
    let W := eworldAt E secure calls sched
    let order := fun q => (EWorld.new E secure calls).order E (sched.take q)
    ∃ q0 q1 m, q0 ≤ q1 ∧ q1 ≤ sched.length ∧ (W q0).Running j n ∧ (W q1).Running j n ∧
      (order q0).length ≤ m + 1 ∧ ((W q0).Unwritten calls → (order q0).length ≤ m) ∧ m ≤ (order q1).length ∧
      econtents (((order q1).take m).map Prod.snd) k = some v := by
  intro W order
  obtain ⟨q0, q1, h1, h2, h3, h4, pre, mid, V, h5, h6, h7, h8⟩ := C109_watch E secure calls sched ht j n _ _ hc rfl hx
  have hv1 : EValid E secure (pre.map Prod.snd ++ mid.map Prod.snd) [k] := by
    rw [← List.map_append, ← h6]
    exact evalid_head order_take_prefix hv
  rw [watch_getCall] at h8
  have h9 : (EMPT.getCallP E secure k).watch V = .ok v := by
    cases hr : (EMPT.getCallP E secure k).watch V with
    | error e => rw [hr] at h8; exact (nomatch h8)
    | ok v' => rw [hr] at h8; injection h8 with h8; injection h8 with h8; rw [h8]
  obtain ⟨q, g1, g2, _⟩ := C95_value_partial hv1 h7 h9
  rw [List.length_map] at g1
  have e1 : order q1 = pre ++ mid := h6
  refine ⟨q0, q1, pre.length + q, h1, h2, h3, h4, ?_, fun hu => ?_, by rw [e1, List.length_append]; omega, ?_⟩
  · rcases h5 with h5 | ⟨_, y, h5⟩
    · rw [show order q0 = pre from h5]; omega
    · rw [show order q0 = pre ++ [y] from h5, List.length_append, List.length_singleton]; omega
  · rcases h5 with h5 | ⟨h5, _⟩
    · rw [show order q0 = pre from h5]; omega
    · exact absurd hu h5
  · rw [e1, List.take_append, List.take_of_length_le (by omega), Nat.add_sub_cancel_left, List.map_append, List.map_take]
    exact g2

/-- **C109** A `get` of a key that no call names that is under way while it runs has the outcome it has for the single
client, after the calls that began before. -/
theorem C109_untouched (E : Env) (secure : Bool) (calls : Nat → List ECall) (sched : List Nat)
    (ht : ETurns E secure calls sched) (j n : Nat) (k : Bytes) (x : Py EAns) (hc : (calls j)[n]? = some (.get k))
    (hx : (((EWorld.new E secure calls).run E sched).threads j).outs[n]? = some x)
    (hv : EValid E secure (((EWorld.new E secure calls).order E sched).map Prod.snd) [k])
    (hk : ∀ q, q ≤ sched.length → (eworldAt E secure calls sched q).Running j n → ∀ i m c,
      (eworldAt E secure calls sched q).Running i m → (calls i)[m]? = some c → c.op? ≠ none → c.key ≠ k) :
    ∃ q, q ≤ sched.length ∧ (eworldAt E secure calls sched q).Running j n ∧
      x = ((EMPT.after E secure (((EWorld.new E secure calls).order E (sched.take q)).map Prod.snd)).get E k).map
        EAns.value := by
  obtain ⟨q0, q1, h1, h2, h3, h4, pre, mid, V, h5, h6, h7, h8⟩ := C109_watch E secure calls sched ht j n _ _ hc rfl hx
  simp only at h5 h6
  have hv1 : EValid E secure (pre.map Prod.snd ++ mid.map Prod.snd) [k] := by
    rw [← List.map_append, ← h6]
    exact evalid_head order_take_prefix hv
  have hkey : ∀ {c : ECall} {op : EOp}, c.op? = some op → op.key = c.key := fun {c op} h => by
    cases c with
    | update => injection h with h; subst h; rfl
    | delete => injection h with h; subst h; rfl
    | get => exact (nomatch h)
    | contains => exact (nomatch h)
  have hnew : ∀ r, (EWorld.new E secure calls).order E (sched.take q1) =
      (EWorld.new E secure calls).order E (sched.take q0) ++ r → ∀ e ∈ r, e.2.key ≠ k := by
    intro r hr e he
    obtain ⟨p, g1, g2, m, c, g3, g4, g5⟩ := ht.meanwhile h3 h4 h1 h2 q1 h1 (Nat.le_refl _) r hr e he
    rw [hkey g5]
    exact hk p g1 g2 e.1 m c g3 g4 (by rw [g5]; simp)
  obtain ⟨r, hr⟩ := order_mono (E := E) (secure := secure) (calls := calls) (sched := sched) h1
  have hr' := hnew r hr.symm
  have hmid : ∀ op ∈ mid.map Prod.snd, op.key ≠ k := by
    intro op hop
    obtain ⟨e, he, rfl⟩ := List.mem_map.1 hop
    rcases h5 with h5 | ⟨h5, y, h5'⟩
    · rw [← hr, h5] at h6
      have := List.append_cancel_left h6
      rw [← this] at he
      exact hr' e he
    · rw [← hr, h5', List.append_assoc] at h6
      have := List.append_cancel_left h6
      rw [← this] at he
      rcases List.mem_append.1 he with he | he
      · rw [List.mem_singleton] at he
        subst he
        rcases (ht.ok q0 (Nat.le_trans h1 h2)).state with ⟨hu, _⟩ | ⟨i, p, c, op, pre', b1, b2, b3, b4, _⟩
        · exact absurd hu h5
        · rw [h5'] at b4
          have := List.append_inj_right' b4 rfl
          injection this with this
          rw [this]
          show op.key ≠ k
          rw [hkey b3]
          exact hk q0 (Nat.le_trans h1 h2) h3 i _ c (running_of b1) b2 (by rw [b3]; simp)
      · exact hr' e he
  refine ⟨q0, Nat.le_trans h1 h2, h3, ?_⟩
  rw [h8, watch_getCall, C95_untouched_partial hv1 h7 hmid]
  congr 1
  rcases h5 with h5 | ⟨_, y, h5⟩
  · rw [h5]
  · rw [h5]
    have hv0 : EValid E secure ((pre ++ [y]).map Prod.snd) [k] := by
      rw [← h5]; exact evalid_head order_take_prefix hv
    have hvp := hv1.prefix
    have hy : y.2.key ≠ k := by
      refine hmid y.2 (List.mem_map.2 ⟨y, ?_, rfl⟩)
      rw [← hr, h5, List.append_assoc] at h6
      rw [← List.append_cancel_left h6]
      simp
    have hsame : econtents ((pre ++ [y]).map Prod.snd) k = econtents (pre.map Prod.snd) k := by
      rw [List.map_append]
      refine econtents_untouched fun op ho => ?_
      simp only [List.map_cons, List.map_nil, List.mem_singleton] at ho
      subst ho
      exact hy
    cases he : econtents (pre.map Prod.snd) k with
    | none => rw [hvp.get_none he, hv0.get_none (by rw [hsame]; exact he)]
    | some v => rw [hvp.get_some he, hv0.get_some (by rw [hsame]; exact he)]

/-! ### An example -/

/-- Two threads: one inserts, replaces and reads, the other inserts, deletes and tries to delete again. -/
def eguests : Nat → List ECall
  | 0 => [.update [1, 2] (.bytes [5]), .update [1, 2] (.bytes [7]), .get [1, 2]]
  | 1 => [.update [1, 3] (.bytes [6]), .delete [1, 3], .delete [9]]
  | _ => []

theorem eguests_idle (sched : List Nat) (j : Nat) :
    ((EWorld.new toyEnv false eguests).run toyEnv sched).threads (j + 2) =
      (EWorld.new toyEnv false eguests).threads (j + 2) := by
  have : ∀ w : EWorld, EWorld.idle w (j + 2) = true → (w.run toyEnv sched).threads (j + 2) = w.threads (j + 2) := by
    induction sched with
    | nil => intro w _; rfl
    | cons a sched ih =>
      intro w hw
      show ((w.step toyEnv a).run toyEnv sched).threads _ = _
      have : (w.step toyEnv a).threads (j + 2) = w.threads (j + 2) := by
        by_cases e : j + 2 = a
        · rw [← e, estep_idle hw]
        · exact estep_other toyEnv w e
      rw [← this]
      refine ih _ ?_
      unfold EWorld.idle
      rw [this]
      exact hw
  exact this _ rfl

/-- Each call runs to its end before the next one begins. -/
def epolite : List Nat :=
  List.replicate 6 0 ++ List.replicate 10 1 ++ List.replicate 25 0 ++ List.replicate 60 1

/-- Thread `j` is in the middle of an `update` or `delete`. -/
def ewrites (w : EWorld) (j : Nat) : Bool :=
  (w.threads j).cur.isSome && ((eguests j)[(w.threads j).outs.length]?.any fun c => c.op?.isSome)

theorem ewrites_of {w : EWorld} {j n : Nat} {c : ECall} (h : w.Running j n) (hc : (eguests j)[n]? = some c)
    (ho : c.op? ≠ none) : ewrites w j = true := by
  unfold ewrites
  rw [h.1, hc, h.2]
  exact Option.isSome_iff_ne_none.2 ho

/-- How to see that the two threads take turns. -/
theorem eturns_of {sched : List Nat} (h : ∀ q, q < sched.length + 1 →
    (ewrites (eworldAt toyEnv false eguests sched q) 0 && ewrites (eworldAt toyEnv false eguests sched q) 1) = false) :
    ETurns toyEnv false eguests sched := by
  have hrest : ∀ q j n, ¬ (eworldAt toyEnv false eguests sched q).Running (j + 2) n := by
    intro q j n h
    have := h.2
    unfold eworldAt at this
    rw [eguests_idle] at this
    exact (nomatch this)
  intro q hq j n c j' n' c' h1 h2 h3 h4 h5 h6
  have hk := h q (Nat.lt_succ_of_le hq)
  match j, j' with
  | 0, 0 => rfl
  | 1, 1 => rfl
  | 0, 1 => rw [ewrites_of h1 h2 h3, ewrites_of h4 h5 h6] at hk; exact (nomatch hk)
  | 1, 0 => rw [ewrites_of h1 h2 h3, ewrites_of h4 h5 h6] at hk; exact (nomatch hk)
  | j + 2, _ => exact absurd h1 (hrest _ _ _)
  | _, j + 2 => exact absurd h4 (hrest _ _ _)

theorem epolite_turns : ETurns toyEnv false eguests epolite := eturns_of (by decide +kernel)

theorem epolite_done : ((EWorld.new toyEnv false eguests).run toyEnv epolite).Unwritten eguests := by
  have key : ∀ j, (((EWorld.new toyEnv false eguests).run toyEnv epolite).threads j).cur.isSome = false := by
    intro j
    match j with
    | 0 => decide +kernel
    | 1 => decide +kernel
    | j + 2 => rw [eguests_idle]; rfl
  intro j n c h
  have h := h.2
  rw [key] at h
  exact (nomatch h)

/-- The calls alternate between the threads. -/
example : (EWorld.new toyEnv false eguests).order toyEnv epolite =
    [(0, .update [1, 2] (.bytes [5])), (1, .update [1, 3] (.bytes [6])), (0, .update [1, 2] (.bytes [7])),
      (1, .delete [1, 3]), (1, .delete [9])] := by decide +kernel
example := C109_state toyEnv false eguests epolite epolite_turns epolite_done
example : oneByOne toyEnv false ((EWorld.new toyEnv false eguests).order toyEnv epolite) 1 =
    [(.update [1, 3] (.bytes [6]), .ok .none), (.delete [1, 3], .ok .none), (.delete [9], .error .keyNotFound)] := by
  decide +kernel
example := (C109_outcomes toyEnv false eguests epolite epolite_turns).1 epolite_done 1
/-- In the middle of the second call of thread 0. -/
example : ¬ ((EWorld.new toyEnv false eguests).run toyEnv (epolite.take 20)).Unwritten eguests := by
  intro h
  have := h 0 1 (.update [1, 2] (.bytes [7])) ⟨by decide +kernel, by decide +kernel⟩ rfl
  exact (nomatch this)
example := C109_reads toyEnv false eguests epolite epolite_turns 0 2 (.get [1, 2]) (.ok (.value (.bytes [7]))) rfl
  (by decide +kernel) (by
    intro q hq hr j n c hj hc
    have key : ∀ q, q < epolite.length + 1 →
        ((eworldAt toyEnv false eguests epolite q).threads 0).cur.isSome = true →
        ((eworldAt toyEnv false eguests epolite q).threads 1).cur.isSome = false := by decide +kernel
    match j with
    | 0 =>
      have : n = 2 := hj.1.symm.trans hr.1
      subst this
      injection hc with hc
      subst hc
      rfl
    | 1 =>
      have := key q (Nat.lt_succ_of_le hq) hr.2
      rw [hj.2] at this
      exact (nomatch this)
    | j + 2 => exact (nomatch hc))

/-- Thread 0 reads while thread 1 deletes. -/
def ebusy : List Nat :=
  List.replicate 6 0 ++ List.replicate 10 1 ++ List.replicate 11 0 ++
    (List.replicate 4 [1, 0, 1]).flatten ++ (List.replicate 4 [0, 1, 1]).flatten ++ List.replicate 40 1

theorem ebusy_turns : ETurns toyEnv false eguests ebusy := eturns_of (by decide +kernel)

/-- The calls overlap. -/
example : ((eworldAt toyEnv false eguests ebusy 33).threads 0).cur.isSome = true ∧
    ewrites (eworldAt toyEnv false eguests ebusy 33) 1 = true := by decide +kernel

theorem ebusy_valid :
    EValid toyEnv false (((EWorld.new toyEnv false eguests).order toyEnv ebusy).map Prod.snd) [[1, 2]] :=
  evalid_of (by decide +kernel)

example := C109_mapping toyEnv false eguests epolite epolite_turns [1, 2] epolite_done (evalid_of (by decide +kernel))
example := C109_watch toyEnv false eguests ebusy ebusy_turns 0 2 (.get [1, 2]) (.ok (.value (.bytes [7]))) rfl rfl
  (by decide +kernel)
example := C109_value toyEnv false eguests ebusy ebusy_turns 0 2 [1, 2] (.bytes [7]) rfl (by decide +kernel) ebusy_valid
example := C109_untouched toyEnv false eguests ebusy ebusy_turns 0 2 [1, 2] (.ok (.value (.bytes [7]))) rfl
  (by decide +kernel) ebusy_valid (by
    intro q hq hr i m c hi hc ho
    match i with
    | 0 =>
      have : m = 2 := hi.1.symm.trans hr.1
      subst this
      injection hc with hc
      subst hc
      exact absurd rfl ho
    | 1 =>
      have hall : ∀ c ∈ eguests 1, c.key ≠ [1, 2] := by decide
      exact hall c (List.mem_of_getElem? hc)
    | i + 2 => exact (nomatch hc))

/-- Without taking turns the object is not that of a single client, whatever the order (C96). -/
theorem C109_needed :
    let w := (EWorld.new toyEnv false erivals).run toyEnv erace
    (∀ j, w.idle j = true) ∧
    w.obj ≠ EMPT.after toyEnv false [.update [1, 2] (.bytes [5]), .update [1, 3] (.bytes [6])] ∧
    w.obj ≠ EMPT.after toyEnv false [.update [1, 3] (.bytes [6]), .update [1, 2] (.bytes [5])] := by
  refine ⟨fun j => ?_, fun h => ?_, fun h => ?_⟩
  · match j with
    | 0 => decide +kernel
    | 1 => decide +kernel
    | j + 2 =>
      have e : ∀ (sched : List Nat) (w : EWorld), (∀ a ∈ sched, a < 2) →
          (w.run toyEnv sched).threads (j + 2) = w.threads (j + 2) := by
        intro sched
        induction sched with
        | nil => exact fun _ _ => rfl
        | cons a sched ih =>
          intro w ha
          have h2 := ha a (by simp)
          exact (ih _ fun b hb => ha b (by simp [hb])).trans (estep_other toyEnv w (by omega))
      unfold EWorld.idle
      rw [e _ _ (by decide)]
      rfl
  · have := congrArg (fun s => s.get toyEnv [1, 2]) h
    revert this
    decide +kernel
  · have := congrArg (fun s => s.get toyEnv [1, 2]) h
    revert this
    decide +kernel

end Pymt.Props
