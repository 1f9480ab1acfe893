import Verif.Lemmas.Objects
import Verif.Spec.ToyEmpt

/-!
# Objects whose `encode_rlp()` raises, returns something else, or uses the EMPT (C122, C123)
-/

namespace Pymt.Props

variable {σ : Type} {E : Env} {secure : Bool}

/-! ### An object for the examples -/

/-- Two objects, and a user's program whose state is a number.  `encode_rlp()` of object 1 returns `[1]` in state 0,
raises ValueError in state 1, KeyError in state 2, returns no bytes in state 3, and `[2]` otherwise.  `encode_rlp()` of
object 2 counts up, notes the number in the EMPT, deletes the key of object 1, and returns `[5]`. -/
def someCode : UserCode Nat := fun id s =>
  if id = 1 then
    { calls := [], user := s.user,
      reply := match s.user with
        | 0 => .returns [1]
        | 1 => .raises .valueError
        | 2 => .raises .keyError
        | 3 => .noBytes
        | _ => .returns [2] }
  else { calls := [.update [0x99] (.bytes [s.user.toUInt8]), .delete [0x12]], user := s.user + 1, reply := .returns [5] }

/-- Object 1 is stored twice, and cannot be stored a third time; then object 2 is stored. -/
def someProgram : List (SiteOp Nat) :=
  [.update [0x12] (.obj 1 true true), .update [0x12, 0x34] (.obj 1 true true), .update [0x56] (.bytes [7]), .other (· + 1),
   .update [0x77] (.obj 1 true true), .get [0x12], .update [0x78] (.obj 2 true true), .get [0x78]]

/-- The ordinary calls that come to the same. -/
def someCalls : List EOp :=
  [.update [0x12] (.obj 1 true true [1]), .update [0x12, 0x34] (.obj 1 true true [1]), .update [0x56] (.bytes [7]),
   .update [0x99] (.bytes [1]), .delete [0x12], .update [0x78] (.obj 2 true true [5]),
   .update [0x99] (.bytes [2]), .delete [0x12]]

/-! ### C122 -/

/-- **C122** Whatever the methods `encode_rlp` of the values do (return bytes or not, raise, change the state of the
user's program, call `update` and `delete` of the same EMPT), the EMPT is that of a history of ordinary calls: those that
`encode_rlp()` made, and the calls of `update` whose `encode_rlp()` returned bytes, with these bytes.  So all that is
proved about ordinary histories holds. -/
theorem C122 {B : UserCode σ} {u : σ} {ops : List (SiteOp σ)}
    (hv : EValid E secure (ordinary E B secure u ops).1 (ops.flatMap SiteOp.reads)) :
    let s := Site.after E B secure u ops
    let h := ordinary E B secure u ops
    s.trie = (EMPT.after E secure h.1).trie ∧
    s.data = (EMPT.after E secure h.1).data.map (fun e => (e.1, e.2.thing)) ∧
    (∀ k, dget s.data k = (econtents h.1 k).map Value.thing) ∧
    s.user = h.2 := by
  have hp := Site.after_plain (B := B) (u := u) ops (fun op ho k hk => List.mem_flatMap.2 ⟨op, ho, hk⟩) hv
  intro s h
  refine ⟨by rw [show s = _ from hp]; rfl, by rw [show s = _ from hp]; rfl, fun k => ?_, by rw [show s = _ from hp]; rfl⟩
  rw [show s = _ from hp, ← hv.mirror.data]
  exact dget_map ..

example : (ordinary toyEnv someCode false 0 someProgram) = (someCalls, 3) ∧
    EValid toyEnv false someCalls (someProgram.flatMap SiteOp.reads) ∧
    (Site.after toyEnv someCode false 0 someProgram).iter = [[0x12, 0x34], [0x56], [0x99], [0x78]] :=
  ⟨by decide +kernel, evalid_of (by decide +kernel), by decide +kernel⟩

/-- **C122** `update` with an object: when `encode_rlp()` returns bytes, the object is stored; when it raises, the
exception is passed on, and TypeError is raised when it does not return bytes.  In these cases nothing changes but what
`encode_rlp()` itself did. -/
theorem C122_update {B : UserCode σ} {u : σ} {calls : List EOp} {k : Bytes} {id : Nat} :
    let s := Site.plain E secure calls u
    let act := B id s
    let r := Site.update E B k (.obj id true true) s
    (∀ b, act.reply = .returns b →
      EValid E secure (calls ++ act.calls ++ [.update k (.obj id true true b)]) [] →
      r = (.ok (), Site.plain E secure (calls ++ act.calls ++ [.update k (.obj id true true b)]) act.user)) ∧
    (∀ x, act.reply = .raises x → r = (.error x, Site.plain E secure (calls ++ act.calls) act.user)) ∧
    (act.reply = .noBytes → r = (.error .typeError, Site.plain E secure (calls ++ act.calls) act.user)) := by
  intro s act r
  have hr : r = _ := Site.update_obj_plain (E := E) (secure := secure) B k id calls u
  refine ⟨fun b hb hv => ?_, fun x hx => ?_, fun hn => ?_⟩
  · rw [hr]
    simp only [show (B id (Site.plain E secure calls u)).reply = _ from hb]
    rw [(C27_update_total hv).1 rfl]
  · rw [hr]
    simp only [show (B id (Site.plain E secure calls u)).reply = _ from hx]
    rfl
  · rw [hr]
    simp only [show (B id (Site.plain E secure calls u)).reply = _ from hn]
    rfl

example :
    (someCode 1 (Site.plain toyEnv false someCalls 0)).reply = .returns [1] ∧
    EValid toyEnv false (someCalls ++ [] ++ [.update [0x12] (.obj 1 true true [1])]) [] ∧
    (someCode 1 (Site.plain toyEnv false someCalls 1)).reply = .raises .valueError ∧
    (someCode 1 (Site.plain toyEnv false someCalls 3)).reply = .noBytes ∧
    (someCode 2 (Site.plain toyEnv false someCalls 3)).calls = [.update [0x99] (.bytes [3]), .delete [0x12]] :=
  ⟨by decide +kernel, evalid_of (by decide +kernel), by decide +kernel, by decide +kernel, by decide +kernel⟩

/-- **C122** `get` of a key with an object: the object that was stored when `get` began, if `encode_rlp()` returns the
bytes it returned when the object was stored; InvalidReferenceError if it returns others, TypeError if it returns no
bytes, and its exception if it raises.  Nothing changes but what `encode_rlp()` itself did.  Keys with bytes give these;
keys without a value raise KeyError. -/
theorem C122_get {B : UserCode σ} {u : σ} {calls : List EOp} {k : Bytes} (h : EValid E secure calls [k]) :
    let s := Site.plain E secure calls u
    (∀ id e d enc, econtents calls k = some (.obj id e d enc) →
      let act := B id s
      (∀ b, act.reply = .returns b → CollFree E [k ++ enc, k ++ b] →
        (Site.get E B k s).1 = if b = enc then .ok (.obj id e d) else .error .invalidReference) ∧
      (∀ x, act.reply = .raises x → (Site.get E B k s).1 = .error x) ∧
      (act.reply = .noBytes → (Site.get E B k s).1 = .error .typeError) ∧
      (Site.get E B k s).2 = Site.plain E secure (calls ++ act.calls) act.user) ∧
    (∀ b, econtents calls k = some (.bytes b) → Site.get E B k s = (.ok (.bytes b), s)) ∧
    (econtents calls k = none → Site.get E B k s = (.error .keyError, s)) := by
  intro s
  refine ⟨fun id e d enc hk => ?_, fun b hk => Site.get_bytes_plain h hk, fun hk => Site.get_none_plain h hk⟩
  have hg := Site.get_obj_plain (B := B) (u := u) h hk
  intro act
  refine ⟨fun b hb hc => ?_, fun x hx => ?_, fun hn => ?_, by rw [hg]⟩
  · rw [hg]
    simp only [show (B id (Site.plain E secure calls u)).reply = _ from hb, Reply.result]
    by_cases hq : b = enc
    · subst hq; rw [if_pos rfl, if_pos rfl]
    · rw [if_neg hq, if_neg]
      exact fun e => hq (List.append_cancel_left (hc _ (by simp) _ (by simp) e)).symm
  · rw [hg]
    simp only [show (B id (Site.plain E secure calls u)).reply = _ from hx, Reply.result]
  · rw [hg]
    simp only [show (B id (Site.plain E secure calls u)).reply = _ from hn, Reply.result]

example : EValid toyEnv false someCalls [[0x12, 0x34]] ∧
    econtents someCalls [0x12, 0x34] = some (.obj 1 true true [1]) ∧
    CollFree toyEnv [[0x12, 0x34] ++ [1], [0x12, 0x34] ++ [2]] ∧
    ((List.range 5).map fun n => (Site.get toyEnv someCode [0x12, 0x34] (Site.plain toyEnv false someCalls n)).1) =
      [.ok (.obj 1 true true), .error .valueError, .error .keyError, .error .typeError, .error .invalidReference] :=
  ⟨evalid_of (by decide +kernel), by decide +kernel, collFree_of (by decide +kernel), by decide +kernel⟩

/-- An object whose `encode_rlp()` deletes it. -/
def shyCode : UserCode Unit := fun _ _ => { calls := [.delete [0x12]], reply := .returns [1], user := () }

-- an object that deletes itself while it is read is still returned
example : EValid toyEnv false [.update [0x12] (.obj 1 true true [1])] [[0x12]] ∧
    (Site.get toyEnv shyCode [0x12] (Site.plain toyEnv false [.update [0x12] (.obj 1 true true [1])] ())).1 =
      .ok (.obj 1 true true) ∧
    (Site.get toyEnv shyCode [0x12] (Site.plain toyEnv false [.update [0x12] (.obj 1 true true [1])] ())).2.iter = [] :=
  ⟨evalid_of (by decide +kernel), by decide +kernel, by decide +kernel⟩

/-- **C122** `contains`, the iteration and `delete` do not call `encode_rlp()`: keys whose objects cannot be read can be
found and deleted as any others. -/
theorem C122_rest {u : σ} {calls : List EOp} {k : Bytes} :
    let s := Site.plain E secure calls u
    s.contains E k = (EMPT.after E secure calls).contains E k ∧
    s.iter = (EMPT.after E secure calls).iter ∧
    (Site.delete E k s).1 = (EMPT.delete E k (EMPT.after E secure calls)).1 ∧
    (Site.delete E k s).2 = Site.plain E secure (calls ++ [.delete k]) u := by
  intro s
  refine ⟨rfl, ?_, by rw [Site.delete_plain], by rw [Site.delete_plain]⟩
  simp [s, Site.iter, Site.plain, EMPT.iter]

example : (Site.plain toyEnv false someCalls 1).contains toyEnv [0x12, 0x34] = .ok true ∧
    (Site.delete toyEnv [0x12, 0x34] (Site.plain toyEnv false someCalls 1)).1 = .ok () ∧
    (Site.delete toyEnv [0x12, 0x34] (Site.plain toyEnv false someCalls 1)).2.iter = [[0x56], [0x99], [0x78]] :=
  ⟨by decide +kernel, by decide +kernel, by decide +kernel⟩

/-! ### C123 -/

/-- The claim: an exception of `encode_rlp()` reaches the caller of every method that reads the object. -/
def C123 : Prop := ∀ (E : Env) (secure : Bool) (B : UserCode Nat) (u : Nat) (calls : List EOp) (k : Bytes) (id : Nat)
  (e d : Bool) (enc : Bytes) (x : Err),
  EValid E secure calls [k] → econtents calls k = some (.obj id e d enc) →
  (B id (Site.plain E secure calls u)).reply = .raises x →
  let s := Site.plain E secure calls u
  (Site.get E B k s).1 = .error x ∧ (Site.pop E B k s).1 = .error x ∧
  (∀ v, (Site.popDefault E B k v s).1 = .error x) ∧ (∀ v, (Site.setdefault E B k v s).1 = .error x) ∧
  (∀ rest n, s.iter = k :: rest → (Site.clear E B (n + 1) s).1 = .error x)

theorem C123_false : ¬ C123 := by
  intro h
  have := (h toyEnv false someCode 2 someCalls [0x12, 0x34] 1 true true [1] .keyError (evalid_of (by decide +kernel))
    (by decide +kernel) (by decide +kernel)).2.2.1 (.bytes [])
  revert this
  decide +kernel

/-- C123 in part: `get`, `pop` without default and `popitem` pass on every exception; `pop` with default, `setdefault` and
`clear` pass on every exception but KeyError.  Nothing changes but what `encode_rlp()` itself did.
Missing: KeyError, which these take for the sign that the key is absent (`C123_swallowed`). -/
theorem C123_raises_partial {B : UserCode σ} {u : σ} {calls : List EOp} {k : Bytes} {id : Nat} {e d : Bool} {enc : Bytes}
    {x : Err} (h : EValid E secure calls [k]) (hk : econtents calls k = some (.obj id e d enc))
    (hx : (B id (Site.plain E secure calls u)).reply = .raises x) :
    let s := Site.plain E secure calls u
    let s' := Site.plain E secure (calls ++ (B id s).calls) (B id s).user
    Site.get E B k s = (.error x, s') ∧ Site.pop E B k s = (.error x, s') ∧
    (∀ rest, s.iter = k :: rest → Site.popitem E B s = (.error x, s')) ∧
    (x ≠ .keyError → (∀ v, Site.popDefault E B k v s = (.error x, s')) ∧
      (∀ v, Site.setdefault E B k v s = (.error x, s')) ∧
      (∀ rest n, s.iter = k :: rest → Site.clear E B (n + 1) s = (.error x, s'))) := by
  intro s s'
  have hg : Site.get E B k s = (.error x, s') := by
    have := Site.get_obj_plain (B := B) (u := u) h hk
    simp only [hx, Reply.result] at this
    exact this
  have hp : ∀ rest, s.iter = k :: rest → Site.popitem E B s = (.error x, s') := by
    intro rest hi
    unfold Site.popitem
    simp only [M.bind_apply, M.get_apply, hi, hg]
  refine ⟨hg, ?_, hp, fun hne => ⟨fun v => ?_, fun v => ?_, fun rest n hi => ?_⟩⟩
  · unfold Site.pop
    simp only [M.bind_apply, hg]
  · unfold Site.popDefault
    rw [hg]
    cases x <;> first | rfl | exact absurd rfl hne
  · unfold Site.setdefault
    rw [hg]
    cases x <;> first | rfl | exact absurd rfl hne
  · unfold Site.clear
    rw [hp rest hi]
    cases x <;> first | rfl | exact absurd rfl hne

example : EValid toyEnv false someCalls [[0x12, 0x34]] ∧
    econtents someCalls [0x12, 0x34] = some (.obj 1 true true [1]) ∧
    (someCode 1 (Site.plain toyEnv false someCalls 1)).reply = .raises .valueError ∧
    (Site.plain toyEnv false someCalls 1).iter = [0x12, 0x34] :: [[0x56], [0x99], [0x78]] :=
  ⟨evalid_of (by decide +kernel), by decide +kernel, by decide +kernel, by decide +kernel⟩

/-- When `encode_rlp()` raises KeyError: `pop` with default returns the default and removes nothing, `setdefault` replaces
the object, which is there, by the default, and `clear` ends without an exception and leaves everything. -/
theorem C123_swallowed {B : UserCode σ} {u : σ} {calls : List EOp} {k : Bytes} {id : Nat} {e d : Bool} {enc : Bytes}
    (h : EValid E secure calls [k]) (hk : econtents calls k = some (.obj id e d enc))
    (hx : (B id (Site.plain E secure calls u)).reply = .raises .keyError) :
    let s := Site.plain E secure calls u
    let more := calls ++ (B id s).calls
    let s' := Site.plain E secure more (B id s).user
    (∀ v, Site.popDefault E B k v s = (.ok v, s')) ∧
    (∀ b, EValid E secure (more ++ [.update k (.bytes b)]) [] → Site.setdefault E B k (.bytes b) s =
      (.ok (.bytes b), Site.plain E secure (more ++ [.update k (.bytes b)]) (B id s).user)) ∧
    (∀ rest n, s.iter = k :: rest → Site.clear E B (n + 1) s = (.ok (), s')) := by
  intro s more s'
  obtain ⟨hg, -, hp, -⟩ := C123_raises_partial h hk hx
  refine ⟨fun v => ?_, fun b hb => ?_, fun rest n hi => ?_⟩
  · unfold Site.popDefault
    rw [hg]
  · unfold Site.setdefault
    rw [hg]
    have hs := Site.store_plain (E := E) (secure := secure) (k := k) (v := .bytes b) rfl more (B id s).user
    rw [(C27_update_total hb).1 rfl] at hs
    simp only [Site.update]
    change (match Site.store E k (Value.bytes b).thing ⟨k, (Value.bytes b).payload⟩
      (Site.plain E secure more (B id s).user) with
      | (Except.ok (), s'') => ((Except.ok (Thing.bytes b) : Py Thing), s'')
      | (Except.error e, s'') => (Except.error e, s'')) = _
    rw [hs]
  · unfold Site.clear
    rw [hp rest hi]

example : EValid toyEnv false someCalls [[0x12, 0x34]] ∧
    (someCode 1 (Site.plain toyEnv false someCalls 2)).reply = .raises .keyError ∧
    EValid toyEnv false (someCalls ++ [] ++ [.update [0x12, 0x34] (.bytes [3])]) [] ∧
    (Site.clear toyEnv someCode 5 (Site.plain toyEnv false someCalls 2)).1 = .ok () ∧
    (Site.clear toyEnv someCode 5 (Site.plain toyEnv false someCalls 2)).2.iter = [[0x12, 0x34], [0x56], [0x99], [0x78]] ∧
    (Site.clear toyEnv someCode 5 (Site.plain toyEnv false someCalls 0)).2.iter = [] :=
  ⟨evalid_of (by decide +kernel), by decide +kernel, evalid_of (by decide +kernel), by decide +kernel, by decide +kernel,
    by decide +kernel⟩

end Pymt.Props
