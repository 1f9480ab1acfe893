import Verif.Spec.Choosing
import Verif.Props.Threads
import Verif.Props.EmptCrowd
import Verif.Props.MerkleLists

/-!
# Property C151: clients that choose their calls as they go
-/

namespace Pymt.Props

/-- **C151** (`MPT`) Threads that choose their calls as they go bring about nothing that threads with lists of calls, namely of
the calls they turned out to make, could not bring about: the same dict, roots, outcomes and calls in progress. -/
theorem C151_mpt (E : Env) (secure : Nat → Bool) (choose : World → Nat → Option (Nat × Call)) (sched : List Nat) :
    let (w, made) := (mptThreads E).choosing choose sched (World.new E secure fun _ => [])
    ∃ sched', sched'.Sublist sched ∧
      let w' := (World.new E secure made).run E sched'
      w'.store = w.store ∧ w'.roots = w.roots ∧
        ∀ j, (w'.threads j).outs = (w.threads j).outs ∧ (w'.threads j).cur = (w.threads j).cur ∧ (w'.threads j).rest = [] := by
  obtain ⟨s', h1, h2⟩ := (mptThreads E).choosing_run choose sched (World.new E secure fun _ => [])
  refine ⟨s', h1, ?_⟩
  have h3 : (World.new E secure ((mptThreads E).choosing choose sched (World.new E secure fun _ => [])).2).run E s' =
      (mptThreads E).load (fun _ => []) ((mptThreads E).choosing choose sched (World.new E secure fun _ => [])).1 := h2
  rw [h3]
  exact ⟨rfl, rfl, fun _ => ⟨rfl, rfl, rfl⟩⟩

/-- **C151** (`EMPT`) The same for threads that use one `EMPT`. -/
theorem C151_empt (E : Env) (secure : Bool) (choose : EWorld → Nat → Option ECall) (sched : List Nat) :
    let (w, made) := (emptThreads E).choosing choose sched (EWorld.new E secure fun _ => [])
    ∃ sched', sched'.Sublist sched ∧
      let w' := (EWorld.new E secure made).run E sched'
      w'.obj = w.obj ∧
        ∀ j, (w'.threads j).outs = (w.threads j).outs ∧ (w'.threads j).cur = (w.threads j).cur ∧ (w'.threads j).rest = [] := by
  obtain ⟨s', h1, h2⟩ := (emptThreads E).choosing_run choose sched (EWorld.new E secure fun _ => [])
  refine ⟨s', h1, ?_⟩
  have h3 : (EWorld.new E secure ((emptThreads E).choosing choose sched (EWorld.new E secure fun _ => [])).2).run E s' =
      (emptThreads E).load (fun _ => []) ((emptThreads E).choosing choose sched (EWorld.new E secure fun _ => [])).1 := h2
  rw [h3]
  exact ⟨rfl, fun _ => ⟨rfl, rfl, rfl⟩⟩

/-- **C151** (`MerkleTree`) The same for threads that use one `MerkleTree`, in any state at the beginning. -/
theorem C151_merkle (H : HashFn) (t : MTree) (choose : HWorld → Nat → Option HCall) (sched : List Nat) :
    let (w, made) := (merkleThreads H).choosing choose sched (HWorld.new t fun _ => [])
    ∃ sched', sched'.Sublist sched ∧
      let w' := (HWorld.new t made).run H sched'
      w'.tree = w.tree ∧
        ∀ j, (w'.threads j).outs = (w.threads j).outs ∧ (w'.threads j).cur = (w.threads j).cur ∧ (w'.threads j).rest = [] := by
  obtain ⟨s', h1, h2⟩ := (merkleThreads H).choosing_run choose sched (HWorld.new t fun _ => [])
  refine ⟨s', h1, ?_⟩
  have h3 : (HWorld.new t ((merkleThreads H).choosing choose sched (HWorld.new t fun _ => [])).2).run H s' =
      (merkleThreads H).load (fun _ => []) ((merkleThreads H).choosing choose sched (HWorld.new t fun _ => [])).1 := h2
  rw [h3]
  exact ⟨rfl, fun _ => ⟨rfl, rfl, rfl⟩⟩

/-- So C86 holds for such threads: a thread that is the only one to write to its trie gets from it what it would get alone.
The hypotheses are about the calls that were made. -/
theorem C151_own (E : Env) (secure : Nat → Bool) (choose : World → Nat → Option (Nat × Call)) (sched : List Nat)
    (log : List Bytes) :
    let (w, made) := (mptThreads E).choosing choose sched (World.new E secure fun _ => [])
    Peaceful E secure made log → ∀ (j p : Nat) (c : Call) (x : Py Ans), (made j)[p]? = some (j, c) →
      (w.threads j).outs[p]? = some x → x = (c.seq E (MPT.after E (secure j) (writesOf ((made j).take p)))).1 := by
  intro h j p c x hc hx
  obtain ⟨s', _, _, _, h3⟩ := C151_mpt E secure choose sched
  refine (C86 E secure _ log h s' j).1 p c x hc ?_
  rw [(h3 j).1]
  exact hx

/-- And so does this part of C96: a value that `get` of an `EMPT` returned was passed to `update` for this key by some thread. -/
theorem C151_value (E : Env) (secure : Bool) (choose : EWorld → Nat → Option ECall) (sched : List Nat) (k : Bytes) (v : Value) :
    let (w, made) := (emptThreads E).choosing choose sched (EWorld.new E secure fun _ => [])
    ∀ j n : Nat, (made j)[n]? = some (.get k) → (w.threads j).outs[n]? = some (.ok (.value v)) →
      v.storable = true ∧ ∃ j, .update k v ∈ made j := by
  intro j n hc hx
  obtain ⟨s', _, _, h3⟩ := C151_empt E secure choose sched
  refine C96_value_partial E secure _ s' k v (.inr ⟨j, n, hc, ?_⟩)
  rw [(h3 j).1]
  exact hx

/-- And C144: outcomes of `put`, `get`, `get_count` and `reset_tree` are those of the same calls in some order. -/
theorem C151_order (H : HashFn) (t : MTree) (choose : HWorld → Nat → Option HCall) (sched : List Nat) :
    let (w, made) := (merkleThreads H).choosing choose sched (HWorld.new t fun _ => [])
    (∀ j, ∀ c ∈ made j, c.Plain) → ∃ order : List (Nat × HCall),
      ∀ j, ofClient j order <+: made j ∧ (w.threads j).outs <+: ofClient j (HCall.inTurn H order t) := by
  intro h
  obtain ⟨s', _, _, h3⟩ := C151_merkle H t choose sched
  obtain ⟨order, h4, _⟩ := C144 H t _ h s'
  refine ⟨order, fun j => ⟨(h4 j).1, ?_⟩⟩
  rw [← (h3 j).1]
  exact (h4 j).2

/-! ### A case -/

/-- Two threads with a trie each: thread 0 puts in a key if it is not there, looks again, and then waits until thread 1 has
done something; thread 1 reads what thread 0 has and copies it. -/
def copyist (w : World) (j : Nat) : Option (Nat × Call) :=
  match j, (w.threads j).outs with
  | 0, [] => some (0, .contains [1, 2])
  | 0, [.ok (.bool false)] => some (0, .update [1, 2] (bigValue 5))
  | 0, [_, .ok .none] => if (w.threads 1).outs.isEmpty then none else some (0, .delete [1, 2])
  | 1, [] => if (w.threads 0).outs.length = 2 then some (0, .get [1, 2]) else none
  | 1, [.ok (.value v)] => some (1, .update [1, 2] v)
  | 1, [_, _] => some (1, .get [1, 2])
  | _, _ => none

/-- The calls they turn out to make. -/
def copyistCalls (j : Nat) : List (Nat × Call) :=
  match j with
  | 0 => [(0, .contains [1, 2]), (0, .update [1, 2] (bigValue 5)), (0, .delete [1, 2])]
  | 1 => [(0, .get [1, 2]), (1, .update [1, 2] (bigValue 5)), (1, .get [1, 2])]
  | _ => []

/-- A run of them. -/
def copying : World × (Nat → List (Nat × Call)) :=
  (mptThreads toyEnv).choosing copyist (zigzag 40) (World.new toyEnv (fun _ => false) fun _ => [])

-- What they get; the calls made meet the hypotheses of `C151_own`.
example : (copying.1.threads 0).outs = [.ok (.bool false), .ok .none, .ok .none] ∧
    (copying.1.threads 1).outs = [.ok (.value (bigValue 5)), .ok .none, .ok (.value (bigValue 5))] ∧
    ∀ j ∈ [0, 1], copying.2 j = copyistCalls j := by decide +kernel

example : Peaceful toyEnv (fun _ => false) copyistCalls
    ((MPT.after toyEnv false (writesOf (copyistCalls 0))).store.written ++
      (MPT.after toyEnv false (writesOf (copyistCalls 1))).store.written) :=
  peaceful_of (fun _ => rfl) (by decide +kernel)

/-- A thread of an `EMPT` that reads and writes what it has read under another key. -/
def echo (w : EWorld) (j : Nat) : Option ECall :=
  match j, (w.threads j).outs with
  | 0, [] => some (.update [1, 2] (.bytes [5]))
  | 1, [] => if (w.threads 0).outs.isEmpty then none else some (.get [1, 2])
  | 1, [.ok (.value v)] => some (.update [7, 7] v)
  | 1, [_, _] => some (.get [7, 7])
  | _, _ => none

/-- A run of it with another. -/
def echoing : EWorld × (Nat → List ECall) :=
  (emptThreads toyEnv).choosing echo (zigzag 60) (EWorld.new toyEnv false fun _ => [])

example : (echoing.1.threads 1).outs = [.ok (.value (.bytes [5])), .ok .none, .ok (.value (.bytes [5]))] ∧
    echoing.2 1 = [.get [1, 2], .update [7, 7] (.bytes [5]), .get [7, 7]] := by decide +kernel

/-- A thread of a `MerkleTree` that puts in what another has put in, read by `get`, and starts afresh when there are three
leaves. -/
def follower (w : HWorld) (j : Nat) : Option HCall :=
  match j, (w.threads j).outs with
  | 0, [] => some (.call (.put [1]))
  | 0, [_] => some (.call (.put [2]))
  | 1, [] => some (.call (.get 0))
  | 1, [.ok (.bytes b)] => some (.call (.put b))
  | 1, [_, _] => some (.call .count)
  | 1, [_, _, .ok (.nat 3)] => some .reset
  | _, _ => none

/-- A run of it with another. -/
def following : HWorld × (Nat → List HCall) :=
  (merkleThreads toyHash).choosing follower (zigzag 60) (HWorld.new (MTree.new true) fun _ => [])

-- The second thread got to `reset_tree`: its four calls have ended.
example : (following.1.threads 1).outs.length = 4 ∧ (following.2 1).length = 4 := by decide +kernel

/-- It makes calls of `put`, `get`, `get_count` and `reset_tree` only. -/
example : ∀ c ∈ following.2 1, c.Plain := by
  have h : following.2 1 = [.call (.get 0), .call (.put (following.2 1 |>.filterMap fun
    | .call (.put b) => some b
    | _ => none).flatten), .call .count, .reset] := by rfl
  rw [h]
  simp [HCall.Plain, MCall.Plain]

end Pymt.Props
