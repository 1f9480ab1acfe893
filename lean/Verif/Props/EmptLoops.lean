import Verif.Lemmas.EmptLoops
import Verif.Spec.ToyEmpt

/-!
# Property C114: loops over an `EMPT` that change it
-/

namespace Pymt
namespace Props

/-- C114, replacing values: a loop `for key in empt` whose body makes one call that gives a present key (this one
or another) another value visits every key once, in the order of the iterator, and ends normally.  The calls
made are those of the body, in this order, and the keys stay in this order. -/
theorem C114_replace {E : Env} {secure : Bool} {ops : List EOp} {f : Bytes → EOp} {keys : List Bytes}
    (hk : (EMPT.after E secure ops).iter = keys) (h : EValid E secure (ops ++ keys.map f) [])
    (hf : ∀ k ∈ keys, (f k).Replaces keys) :
    EMPT.loop (fun k => EMPT.exec E (f k)) (EMPT.after E secure ops) =
      (.ok (), EMPT.after E secure (ops ++ keys.map f)) ∧
    (EMPT.after E secure (ops ++ keys.map f)).iter = keys := by
  obtain ⟨h1, h2⟩ := EMPT.loopFrom_replaces (f := f) (rest := []) keys [] h hk (by simp) hf
  refine ⟨?_, h2⟩
  unfold EMPT.loop
  simp only [M.bind_apply, M.get_apply]
  rw [EMPT.len_iter, hk]
  simp only [List.length_nil, Nat.add_zero] at h1
  rw [h1, EMPT.loopFrom]
  simp only [M.bind_apply, M.get_apply]
  rw [EMPT.len_iter, h2, if_neg (by simp)]
  rfl

/-- C114, replacing the values of all items: `for key, value in empt.items(): empt[key] = f(key, value)` ends
normally, each value is read once before it is replaced, and afterwards every key has the new value. -/
theorem C114_items {E : Env} {secure : Bool} {ops : List EOp} {f : Bytes → Value → Value}
    {l : List (Bytes × Value)} (h0 : EValid E secure ops []) (hl : (EMPT.after E secure ops).items E = .ok l)
    (h : EValid E secure (ops ++ l.map fun e => .update e.1 (f e.1 e.2)) [])
    (hf : ∀ k v, econtents ops k = some v → (f k v).storable = true) :
    ∃ s', EMPT.loopItems E (fun k v => EMPT.update E k (f k v)) (EMPT.after E secure ops) = (.ok (), s') ∧
      s' = EMPT.after E secure (ops ++ l.map fun e => .update e.1 (f e.1 e.2)) ∧
      s'.iter = (EMPT.after E secure ops).iter ∧
      ∀ k, econtents (ops ++ l.map fun e => .update e.1 (f e.1 e.2)) k = (econtents ops k).map (f k) := by
  rw [h0.items] at hl
  cases hl
  have hm := h0.mirror
  have hin : ∀ e ∈ (EMPT.after E secure ops).data, econtents ops e.1 = some e.2 := fun e he => by
    rw [← hm.data]; exact dget_mem hm.nodup he
  obtain ⟨h1, h2⟩ := EMPT.loopFrom_items (f := f) (EMPT.after E secure ops).data [] h rfl rfl hm.nodup
    fun e he => ⟨hin e he, hf _ _ (hin e he)⟩
  refine ⟨_, ?_, rfl, h2, fun k => ?_⟩
  · rw [← h1, ← EMPT.len_iter]
    rfl
  · have hfold : ∀ (l : List (Bytes × Value)) (o : List EOp), (l.map (·.1)).Nodup →
        (∀ e ∈ l, (f e.1 e.2).storable = true) →
        econtents (o ++ l.map fun e => .update e.1 (f e.1 e.2)) k =
          match dget l k with
          | some v => some (f k v)
          | none => econtents o k := by
      intro l
      induction l with
      | nil => intro o _ _; simp [dget]
      | cons e l ih =>
        intro o hn hs
        simp only [List.map_cons, List.nodup_cons] at hn
        rw [List.map_cons, ← List.singleton_append, ← List.append_assoc,
          ih _ hn.2 fun x hx => hs x (List.mem_cons_of_mem _ hx)]
        by_cases hek : e.1 = k
        · subst hek
          rw [dget_of_not_mem hn.1, econtents_append]
          simp [EOp.apply, dget, hs e List.mem_cons_self]
        · have : dget (e :: l) k = dget l k := by simp [dget, hek]
          rw [this, econtents_append]
          simp [EOp.apply, Ne.symm hek]
    rw [hfold _ _ hm.nodup fun e he => hf _ _ (hin e he), hm.data]
    cases econtents ops k <;> rfl

/-- C114, adding and removing keys: as soon as the body has removed a key, or added one, the loop raises
RuntimeError at its next step, also when this was the last key.  The calls made up to then took effect, no
others were made, and the object is as if they had been made outside of a loop. -/
theorem C114_resize {E : Env} {secure : Bool} {ops : List EOp} {f : Bytes → EOp} {keys pre rest : List Bytes}
    {k : Bytes} (hk : (EMPT.after E secure ops).iter = keys) (hs : keys = pre ++ k :: rest)
    (h : EValid E secure (ops ++ (pre ++ [k]).map f) [])
    (hpre : ∀ x ∈ pre, (f x).Replaces keys) (hf : (f k).Resizes keys) :
    EMPT.loop (fun k => EMPT.exec E (f k)) (EMPT.after E secure ops) =
      (.error .runtime, EMPT.after E secure (ops ++ (pre ++ [k]).map f)) := by
  have hsplit : ops ++ (pre ++ [k]).map f = (ops ++ pre.map f) ++ [f k] := by simp
  rw [hsplit] at h ⊢
  obtain ⟨h1, h2⟩ := EMPT.loopFrom_replaces (f := f) (rest := k :: rest) pre [] h.cut.drop hk hs hpre
  obtain ⟨g1, g2⟩ := h.resizes (by rw [h2]; exact hf)
  have hlen : (EMPT.after E secure (ops ++ pre.map f)).len = keys.length := by rw [EMPT.len_iter, h2]
  have step := EMPT.loopFrom_step (body := fun k => EMPT.exec E (f k))
    (s := EMPT.after E secure (ops ++ pre.map f)) (a := pre) (k := k) (rest := rest) (by rw [h2, hs])
  rw [hlen] at step g2
  unfold EMPT.loop
  simp only [M.bind_apply, M.get_apply]
  rw [EMPT.len_iter, hk]
  have hl : keys.length = pre.length + (k :: rest).length := by rw [hs, List.length_append]
  conv => lhs; arg 3; rw [hl]
  rw [h1, List.length_cons, step]
  simp only [M.bind_apply, g1]
  cases rest with
  | nil =>
    simp only [List.length_nil, EMPT.loopFrom, M.bind_apply, M.get_apply]
    rw [if_pos g2]
    rfl
  | cons x rest =>
    simp only [List.length_cons, EMPT.loopFrom, M.bind_apply, M.get_apply]
    rw [if_pos g2]
    rfl

/-- So `for key in empt: del empt[key]` removes the first key and raises. -/
theorem C114_delete {E : Env} {secure : Bool} {ops : List EOp} {k : Bytes} {rest : List Bytes}
    (hk : (EMPT.after E secure ops).iter = k :: rest) (h : EValid E secure (ops ++ [.delete k]) []) :
    EMPT.loop (EMPT.delete E) (EMPT.after E secure ops) =
      (.error .runtime, EMPT.after E secure (ops ++ [.delete k])) :=
  C114_resize (f := EOp.delete) (pre := []) hk rfl h (by simp) List.mem_cons_self

/-- Every key of the sample gets another value; or the value of the next key is overwritten. -/
example : EValid toyEnv false (sampleEOps ++ (EMPT.after toyEnv false sampleEOps).iter.map
      fun k => .update k (.bytes (k ++ [7]))) [] ∧
    (∀ k ∈ (EMPT.after toyEnv false sampleEOps).iter, (EOp.update k (.bytes (k ++ [7]))).Replaces
      (EMPT.after toyEnv false sampleEOps).iter) ∧
    (EMPT.after toyEnv false sampleEOps).iter = [[0x12, 0x34], [0x12, 0x56], [0x99]] :=
  ⟨evalid_of (by decide +kernel), fun _ hk => ⟨hk, rfl⟩, by decide +kernel⟩

/-- A value is appended to each byte string, and the object is replaced. -/
def sampleReplace (_ : Bytes) : Value → Value
  | .bytes b => .bytes (b ++ [1])
  | _ => .bytes [3]

example : EValid toyEnv false sampleEOps [] ∧
    (EMPT.after toyEnv false sampleEOps).items toyEnv = .ok (EMPT.after toyEnv false sampleEOps).data ∧
    EValid toyEnv false (sampleEOps ++ (EMPT.after toyEnv false sampleEOps).data.map
      fun e => .update e.1 (sampleReplace e.1 e.2)) [] ∧
    (∀ k v, (sampleReplace k v).storable = true) ∧
    (EMPT.loopItems toyEnv (fun k v => EMPT.update toyEnv k (sampleReplace k v))
      (EMPT.after toyEnv false sampleEOps)).2.data =
      [([0x12, 0x34], .bytes [2, 3, 1]), ([0x12, 0x56], .bytes [1]), ([0x99], .bytes [3])] :=
  ⟨evalid_of (by decide +kernel), by decide +kernel, evalid_of (by decide +kernel),
    fun _ v => by cases v <;> rfl, by decide +kernel⟩

/-- The first key gets another value, the second is removed, the third is not reached; and a key is added when
the last one is reached. -/
example :
    let s := EMPT.after toyEnv false sampleEOps
    let f : Bytes → EOp := fun k => if k = [0x12, 0x34] then .update k (.bytes [8]) else .delete k
    let g : Bytes → EOp := fun k => if k = [0x99] then .update [0x98] (.bytes [8]) else .update k (.bytes [8])
    EValid toyEnv false (sampleEOps ++ ([[0x12, 0x34]] ++ [[0x12, 0x56]] : List Bytes).map f) [] ∧
    s.iter = [[0x12, 0x34]] ++ [0x12, 0x56] :: [[0x99]] ∧
    (f [0x12, 0x34]).Replaces s.iter ∧ (f [0x12, 0x56]).Resizes s.iter ∧
    EValid toyEnv false (sampleEOps ++ ([[0x12, 0x34], [0x12, 0x56]] ++ [[0x99]] : List Bytes).map g) [] ∧
    (g [0x99]).Resizes s.iter ∧ (EMPT.loop (fun k => EMPT.exec toyEnv (g k)) s).1 = .error .runtime :=
  ⟨evalid_of (by decide +kernel), by decide +kernel, ⟨by decide +kernel, rfl⟩,
    show [0x12, 0x56] ∈ _ by decide +kernel, evalid_of (by decide +kernel),
    show [0x98] ∉ _ ∧ _ by decide +kernel, by decide +kernel⟩

end Props
end Pymt
