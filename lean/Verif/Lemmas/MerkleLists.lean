import Verif.Spec.MerkleLists
import Verif.Lemmas.MerkleWorld

/-!
# Threads that share a `MerkleTree` and may reset it: `put`, `get`, `get_count` and `reset_tree`

The calls that use one list, in the order in which they use it, come between the call of `reset_tree` that made the list and
the one that made the next.
-/

namespace Pymt

namespace HWorld

theorem run_snoc (H : HashFn) (sched : List Nat) (j : Nat) (w : HWorld) : w.run H (sched ++ [j]) = (w.run H sched).step H j := by
  simp [run]

theorem threads_set (w : HWorld) (j : Nat) (th : HThread) (i : Nat) :
    (w.setThread j th).threads i = if i = j then th else w.threads i := rfl

theorem step_cases (H : HashFn) (j : Nat) (w : HWorld) :
    ((w.threads j).cur = none ∧ (w.threads j).rest = [] ∧ w.step H j = w) ∨
    (∃ c rest, (w.threads j).cur = none ∧ (w.threads j).rest = c :: rest ∧
      w.step H j = w.setThread j { (w.threads j) with cur := some (c.prog H w.tree.secure), rest := rest }) ∨
    (∃ r, (w.threads j).cur = some (.done r) ∧
      w.step H j = w.setThread j { (w.threads j) with cur := none, outs := (w.threads j).outs ++ [r] }) ∨
    (∃ p, (w.threads j).cur = some p ∧ (∀ r, p ≠ .done r) ∧
      w.step H j = { w.setThread j { (w.threads j) with cur := some (p.step H w.tree).1 } with tree := (p.step H w.tree).2 }) := by
  unfold step
  cases hc : (w.threads j).cur with
  | none =>
    cases hr : (w.threads j).rest with
    | nil => exact .inl ⟨rfl, rfl, by simp only [hc, hr]⟩
    | cons c rest => exact .inr (.inl ⟨c, rest, rfl, rfl, by simp only [hc, hr]⟩)
  | some p =>
    cases p with
    | done r => exact .inr (.inr (.inl ⟨r, rfl, by simp only [hc]⟩))
    | _ => exact .inr (.inr (.inr ⟨_, rfl, (by intro r h; cases h), by simp only [hc]⟩))

end HWorld

/-- A thread without calls does nothing. -/
theorem hidle_run {H : HashFn} {j : Nat} (w : HWorld) (sched : List Nat)
    (h : (w.threads j).rest = [] ∧ (w.threads j).cur = none) :
    ((w.run H sched).threads j).rest = [] ∧ ((w.run H sched).threads j).cur = none := by
  induction sched using snocRec with
  | nil => exact h
  | append_singleton sched i ih =>
    rw [HWorld.run_snoc]
    generalize w.run H sched = w at ih
    by_cases hij : j = i
    · subst hij
      rcases HWorld.step_cases H j w with ⟨_, _, e⟩ | ⟨c, rest, _, e2, _⟩ | ⟨r, e1, _⟩ | ⟨p, e1, _, _⟩
      · rw [e]; exact ih
      · rw [ih.1] at e2; cases e2
      · rw [ih.2] at e1; cases e1
      · rw [ih.2] at e1; cases e1
    · rcases HWorld.step_cases H i w with ⟨_, _, e⟩ | ⟨c, rest, _, _, e⟩ | ⟨r, _, e⟩ | ⟨p, _, _, e⟩ <;> rw [e]
      · exact ih
      · rw [HWorld.threads_set, if_neg hij]; exact ih
      · rw [HWorld.threads_set, if_neg hij]; exact ih
      · show ((w.setThread i _).threads j).rest = [] ∧ ((w.setThread i _).threads j).cur = none
        rw [HWorld.threads_set, if_neg hij]; exact ih

theorem modify_split {α : Type} (f : α → α) : ∀ (A : List α) (e : α) (B : List α), (A ++ e :: B).modify A.length f = A ++ f e :: B
  | [], e, B => by simp
  | a :: A, e, B => by simp [modify_split f A e B]

theorem split_at {α : Type} {l : List α} {o : Nat} (h : o < l.length) : ∃ A e B, l = A ++ e :: B ∧ A.length = o :=
  ⟨l.take o, l[o], l.drop (o + 1), by rw [List.getElem_cons_drop, List.take_append_drop], by simp; omega⟩

namespace HCall

variable {H : HashFn}

theorem inTurn_append (a b : List (Nat × HCall)) (t : MTree) :
    inTurn H (a ++ b) t = inTurn H a t ++ inTurn H b (afterTurns H a t) := by
  induction a generalizing t with
  | nil => rfl
  | cons x a ih => obtain ⟨j, c⟩ := x; simp only [List.cons_append, inTurn, ih]; rfl

theorem afterTurns_append (a b : List (Nat × HCall)) (t : MTree) :
    afterTurns H (a ++ b) t = afterTurns H b (afterTurns H a t) := by simp [afterTurns]

theorem inTurn_length (j : Nat) (a : List (Nat × HCall)) (t : MTree) :
    (ofClient j (inTurn H a t)).length = (ofClient j a).length := by
  induction a generalizing t with
  | nil => rfl
  | cons x a ih =>
    obtain ⟨i, c⟩ := x
    have e1 : inTurn H ((i, c) :: a) t = [(i, (c.alone H t).1)] ++ inTurn H a (c.alone H t).2 := rfl
    have e2 : (i, c) :: a = [(i, c)] ++ a := rfl
    rw [e1, e2, ofClient_append, ofClient_append, List.length_append, List.length_append, ih, ofClient_one, ofClient_one]
    by_cases h : i = j <;> simp [h]

theorem inTurn_none {j : Nat} {a : List (Nat × HCall)} {t : MTree} (h : ofClient j a = []) : ofClient j (inTurn H a t) = [] := by
  have := inTurn_length (H := H) j a t
  rw [h] at this
  exact List.length_eq_zero_iff.mp this

/-- What a call other than those that ask for the root does to the object. -/
theorem plain_alone {c : HCall} (hc : c.Plain) (t : MTree) : (c.alone H t).2.secure = t.secure := by
  cases c with
  | reset => rfl
  | call c => cases c <;> first | rfl | exact absurd hc id

theorem plain_secure : ∀ {a : List (Nat × HCall)} (_ : ∀ e ∈ a, e.2.Plain) (t : MTree), (afterTurns H a t).secure = t.secure
  | [], _, _ => rfl
  | x :: a, h, t => by
    show (afterTurns H a (x.2.alone H t).2).secure = _
    rw [plain_secure (fun e he => h e (.tail _ he)), plain_alone (h x (.head _))]

/-- `put`, `get` and `get_count` leave the levels alone. -/
theorem unreset_same : ∀ {a : List (Nat × HCall)} (_ : ∀ e ∈ a, e.2.Plain) (_ : ∀ e ∈ a, e.2 ≠ .reset) (t : MTree),
    (afterTurns H a t).secure = t.secure ∧ (afterTurns H a t).upper = t.upper ∧ (afterTurns H a t).ready = t.ready
  | [], _, _, _ => ⟨rfl, rfl, rfl⟩
  | (j, .reset) :: a, _, h, _ => absurd rfl (h _ (.head _))
  | (j, .call c) :: a, hp, h, t => by
    obtain ⟨h1, h2, h3⟩ := unreset_same (fun e he => hp e (.tail _ he)) (fun e he => h e (.tail _ he)) (HCall.alone H t (.call c)).2
    have hc : c.Plain := hp _ (.head _)
    have : (HCall.alone H t (.call c)).2.secure = t.secure ∧ (HCall.alone H t (.call c)).2.upper = t.upper ∧
        (HCall.alone H t (.call c)).2.ready = t.ready := by
      cases c <;> first | exact ⟨rfl, rfl, rfl⟩ | exact absurd hc id
    exact ⟨h1.trans this.1, h2.trans this.2.1, h3.trans this.2.2⟩

/-- Nor do they or `reset_tree` make levels. -/
theorem unmade_same : ∀ {a : List (Nat × HCall)} (_ : ∀ e ∈ a, e.2.Plain) (t : MTree), t.upper = none → t.ready = false →
    (afterTurns H a t).upper = none ∧ (afterTurns H a t).ready = false
  | [], _, _, h1, h2 => ⟨h1, h2⟩
  | (j, c) :: a, hp, t, h1, h2 => by
    have hc : c.Plain := hp _ (.head _)
    have : (HCall.alone H t c).2.upper = none ∧ (HCall.alone H t c).2.ready = false := by
      cases c with
      | reset => exact ⟨rfl, rfl⟩
      | call c => cases c <;> first | exact ⟨h1, h2⟩ | exact absurd hc id
    exact unmade_same (fun e he => hp e (.tail _ he)) _ this.1 this.2

/-- Calls that begin with `reset_tree` do not depend on the state before. -/
theorem reset_same {r : Nat} {a : List (Nat × HCall)} {t t' : MTree} (hs : t'.secure = t.secure) :
    inTurn H ((r, .reset) :: a) t' = inTurn H ((r, .reset) :: a) t ∧
    afterTurns H ((r, .reset) :: a) t' = afterTurns H ((r, .reset) :: a) t := by
  have e : (HCall.alone H t' .reset).2 = (HCall.alone H t .reset).2 := by
    show ({ t' with leaves := [], upper := none, ready := false } : MTree) = { t with leaves := [], upper := none, ready := false }
    rw [hs]
  constructor
  · show (r, (HCall.alone H t' .reset).1) :: inTurn H a (HCall.alone H t' .reset).2 = _
    rw [e]; rfl
  · show afterTurns H a (HCall.alone H t' .reset).2 = _
    rw [e]; rfl

/-- The calls begin with `reset_tree`. -/
def Resets (a : List (Nat × HCall)) : Prop := ∃ r b, a = (r, .reset) :: b

theorem inTurn_resets : ∀ (eps : List (List (Nat × HCall))) (t t' : MTree), t'.secure = t.secure →
    (∀ e ∈ eps, Resets e ∧ ∀ x ∈ e, x.2.Plain) →
    inTurn H eps.flatten t' = (eps.map fun e => inTurn H e t).flatten
  | [], _, _, _, _ => rfl
  | e :: eps, t, t', hs, h => by
    obtain ⟨⟨r, b, he⟩, hp⟩ := h e (.head _)
    rw [List.flatten_cons, inTurn_append, List.map_cons, List.flatten_cons]
    rw [inTurn_resets eps t _ (by rw [plain_secure hp, hs]) (fun x hx => h x (.tail _ hx))]
    rw [he, (reset_same hs).1]

theorem inTurn_flatten (e0 : List (Nat × HCall)) (eps : List (List (Nat × HCall))) (t : MTree)
    (h0 : ∀ x ∈ e0, x.2.Plain) (h : ∀ e ∈ eps, Resets e ∧ ∀ x ∈ e, x.2.Plain) :
    inTurn H (e0 :: eps).flatten t = ((e0 :: eps).map fun e => inTurn H e t).flatten := by
  rw [List.flatten_cons, inTurn_append, inTurn_resets eps t _ (plain_secure h0 t) h]
  rfl

theorem afterTurns_flatten (e0 : List (Nat × HCall)) (eps : List (List (Nat × HCall))) (t : MTree)
    (h0 : ∀ x ∈ e0, x.2.Plain) (h : ∀ e ∈ eps, Resets e ∧ ∀ x ∈ e, x.2.Plain) (l : List (Nat × HCall))
    (hl : (e0 :: eps).getLast? = some l) : afterTurns H (e0 :: eps).flatten t = afterTurns H l t := by
  induction eps using snocRec with
  | nil =>
    have : e0 = l := by simpa using hl
    subst this
    simp
  | append_singleton eps e _ =>
    have he : e = l := by rw [← List.cons_append, List.getLast?_concat] at hl; exact Option.some.inj hl
    subst he
    obtain ⟨⟨r, b, he⟩, hp⟩ := h e (by simp)
    rw [← List.cons_append, List.flatten_append, afterTurns_append]
    have hpl : ∀ x ∈ (e0 :: eps).flatten, x.2.Plain := by
      intro x hx
      rw [List.mem_flatten] at hx
      obtain ⟨e', he', hx⟩ := hx
      cases he' with
      | head => exact h0 x hx
      | tail _ he' => exact (h e' (List.mem_append_left _ he')).2 x hx
    have := plain_secure (H := H) hpl t
    rw [List.flatten_singleton, he, (reset_same this).2]

end HCall

/-- The calls of client `j` among those of all lists. -/
def Epochs.made (j : Nat) (eps : List (List (Nat × HCall))) : List HCall := ofClient j eps.flatten

/-- The outcomes of the calls of client `j`. -/
def Epochs.got (H : HashFn) (t : MTree) (j : Nat) (eps : List (List (Nat × HCall))) : List (Py MAns) :=
  ofClient j (eps.map fun e => HCall.inTurn H e t).flatten

open Epochs

theorem ofClient_flatten {α : Type} (j : Nat) (L : List (List (Nat × α))) : ofClient j L.flatten = (L.map (ofClient j)).flatten := by
  induction L with
  | nil => rfl
  | cons a L ih => rw [List.flatten_cons, ofClient_append, ih]; rfl

theorem ofClient_other {α : Type} {i j : Nat} (h : i ≠ j) (a : α) : ofClient i [(j, a)] = [] := by
  rw [ofClient_one, if_neg (fun e => h e.symm)]

theorem ofClient_self {α : Type} (j : Nat) (a : α) : ofClient j [(j, a)] = [a] := by rw [ofClient_one, if_pos rfl]

section
variable {H : HashFn} {t : MTree} {i j : Nat} {c : HCall} {e : List (Nat × HCall)} {A B : List (List (Nat × HCall))}

theorem made_other (h : i ≠ j) (n : Nat) :
    made i ((A ++ (e ++ [(j, c)]) :: B).drop n) = made i ((A ++ e :: B).drop n) := by
  simp only [made, ofClient_flatten, List.map_drop, List.map_append, List.map_cons, ofClient_append, ofClient_other h, List.append_nil]

theorem got_other (h : i ≠ j) : got H t i (A ++ (e ++ [(j, c)]) :: B) = got H t i (A ++ e :: B) := by
  simp only [got, List.map_append, List.map_cons, List.flatten_append, List.flatten_cons, ofClient_append, HCall.inTurn_append]
  simp only [HCall.inTurn, ofClient_other h, List.append_nil]

theorem made_self (hB : made j B = []) : made j (A ++ (e ++ [(j, c)]) :: B) = made j (A ++ e :: B) ++ [c] := by
  unfold made at *
  simp only [List.flatten_append, List.flatten_cons, ofClient_append, hB, ofClient_self, List.append_nil, List.append_assoc]

theorem got_none : ∀ {B : List (List (Nat × HCall))}, made j B = [] → got H t j B = []
  | [], _ => rfl
  | b :: B, h => by
    unfold made at h
    rw [List.flatten_cons, ofClient_append, List.append_eq_nil_iff] at h
    have ih := got_none (show made j B = [] from h.2)
    unfold got at ih ⊢
    rw [List.map_cons, List.flatten_cons, ofClient_append, ih, HCall.inTurn_none h.1]
    rfl

theorem got_self (hB : made j B = []) : got H t j (A ++ (e ++ [(j, c)]) :: B) =
    got H t j (A ++ e :: B) ++ [(c.alone H (HCall.afterTurns H e t)).1] := by
  have := got_none (H := H) (t := t) hB
  unfold got at *
  simp only [List.map_append, List.map_cons, List.flatten_append, List.flatten_cons, ofClient_append, HCall.inTurn_append, this]
  simp only [HCall.inTurn, ofClient_self, List.append_nil, List.append_assoc]

theorem made_new_other (h : i ≠ j) (n : Nat) : made i ((A ++ [[(j, c)]]).drop n) = made i (A.drop n) := by
  by_cases hn : n ≤ A.length
  · rw [List.drop_append_of_le_length hn]
    simp [made, ofClient_append, ofClient_other h]
  · have h1 : A.drop n = [] := List.drop_eq_nil_of_le (by omega)
    have h2 : (A ++ [[(j, c)]]).drop n = [] := List.drop_eq_nil_of_le (by simp; omega)
    rw [h1, h2]

theorem got_new_other (h : i ≠ j) : got H t i (A ++ [[(j, c)]]) = got H t i A := by
  simp [got, ofClient_append, HCall.inTurn, ofClient_other h]

theorem made_new_self : made j (A ++ [[(j, c)]]) = made j A ++ [c] := by
  simp [made, ofClient_append, ofClient_self]

theorem got_new_self : got H t j (A ++ [[(j, c)]]) = got H t j A ++ [(c.alone H t).1] := by
  simp [got, ofClient_append, HCall.inTurn, ofClient_self]

end

/-- The rest of `reset_tree` after the first assignment. -/
def restOfReset : HProg MAns := .setLevels none (.setReady false (.done (.ok .none)))

/-- The rest of `reset_tree` after the second assignment. -/
def endOfReset : HProg MAns := .setReady false (.done (.ok .none))

/-- Where a thread is, given the calls that have used the lists so far: between two calls; about to begin; about to use list
`o`; done with what other threads see. -/
inductive Phase (H : HashFn) (t : MTree) (j : Nat) (calls : List HCall) (eps : List (List (Nat × HCall))) (th : HThread) : Prop
  | idle (hc : th.cur = none) (hm : made j eps ++ th.rest = calls) (ho : th.outs = got H t j eps)
  | begun (c : HCall) (hc : th.cur = some (c.prog H t.secure)) (hm : made j eps ++ c :: th.rest = calls)
      (ho : th.outs = got H t j eps)
  | has (c : MCall) (o : Nat) (q : Nat → HProg MAns) (hq : HCall.prog H t.secure (.call c) = .leaves q)
      (hc : th.cur = some (q o)) (hm : made j eps ++ .call c :: th.rest = calls) (ho : th.outs = got H t j eps)
      (hlt : o < eps.length) (hlate : made j (eps.drop (o + 1)) = [])
  | resetting (p : HProg MAns) (hp : p = restOfReset ∨ p = endOfReset) (hc : th.cur = some p) (hm : made j eps ++ th.rest = calls)
      (ho : th.outs ++ [.ok .none] = got H t j eps) (h1 : 1 < eps.length)
  | past (r : Py MAns) (hc : th.cur = some (.done r)) (hm : made j eps ++ th.rest = calls)
      (ho : th.outs ++ [r] = got H t j eps)

/-- The state of the threads and of the tree, given the calls that have used the lists so far. -/
structure Epochs (H : HashFn) (t : MTree) (calls : Nat → List HCall) (w : HWorld) (eps : List (List (Nat × HCall))) : Prop where
  ne : eps ≠ []
  resets : ∀ e ∈ eps.tail, HCall.Resets e
  unreset : ∀ e, eps.head? = some e → ∀ x ∈ e, x.2 ≠ .reset
  plain : ∀ e ∈ eps, ∀ x ∈ e, x.2.Plain
  secure : w.tree.secure = t.secure
  lists : w.tree.lists = eps.map fun e => (HCall.afterTurns H e t).leaves
  last : w.tree.leaves + 1 = eps.length
  threads : ∀ j, Phase H t j (calls j) eps (w.threads j)
  calm : eps.length = 1 → w.tree.levels = t.objects.levels ∧ w.tree.ready = t.ready
  levels : 1 < eps.length → w.tree.levels = none ∨ ∃ j, (w.threads j).cur = some restOfReset
  ready : 1 < eps.length → w.tree.ready = false ∨
    ∃ j, (w.threads j).cur = some restOfReset ∨ (w.threads j).cur = some endOfReset

/-- Is the thread about to use one of the first `n` lists? -/
def late (n : Nat) (th : HThread) : Nat :=
  match th.cur with
  | some (.list o _) | some (.append o _ _) => if o < n then 1 else 0
  | _ => 0

/-- The calls have an order that agrees with the world `wq` of an earlier moment. -/
def Timed (calls : Nat → List HCall) (wq w : HWorld) (eps : List (List (Nat × HCall))) : Prop :=
  ∃ A first B C, eps = A ++ (first ++ B) :: C ∧ ∀ j,
    (wq.threads j).outs.length ≤ (ofClient j (A.flatten ++ first)).length ∧
    (ofClient j (A.flatten ++ first)).length + late A.length (w.threads j) + (wq.threads j).rest.length ≤ (calls j).length

theorem Phase.other {H : HashFn} {t : MTree} {i j : Nat} {c : HCall} {calls : List HCall} {e : List (Nat × HCall)}
    {A B : List (List (Nat × HCall))} {th : HThread} (hij : i ≠ j) (h : Phase H t i calls (A ++ e :: B) th) :
    Phase H t i calls (A ++ (e ++ [(j, c)]) :: B) th := by
  have hm0 := made_other (A := A) (B := B) (e := e) (c := c) hij 0
  simp only [List.drop_zero] at hm0
  have hg := got_other (H := H) (t := t) (A := A) (B := B) (e := e) (c := c) hij
  have hlen : (A ++ (e ++ [(j, c)]) :: B).length = (A ++ e :: B).length := by simp
  cases h with
  | idle hc hm ho => exact .idle hc (hm0 ▸ hm) (hg ▸ ho)
  | begun c' hc hm ho => exact .begun c' hc (hm0 ▸ hm) (hg ▸ ho)
  | has c' o q hq hc hm ho hlt hl =>
    exact .has c' o q hq hc (hm0 ▸ hm) (hg ▸ ho) (hlen ▸ hlt) (by rw [made_other hij]; exact hl)
  | resetting p hp hc hm ho h1 => exact .resetting p hp hc (hm0 ▸ hm) (hg ▸ ho) (hlen ▸ h1)
  | past r hc hm ho => exact .past r hc (hm0 ▸ hm) (hg ▸ ho)

theorem Phase.other_new {H : HashFn} {t : MTree} {i j : Nat} {c : HCall} {calls : List HCall}
    {A : List (List (Nat × HCall))} {th : HThread} (hij : i ≠ j) (h : Phase H t i calls A th) :
    Phase H t i calls (A ++ [[(j, c)]]) th := by
  have hm0 := made_new_other (A := A) (c := c) hij 0
  simp only [List.drop_zero] at hm0
  have hg := got_new_other (H := H) (t := t) (A := A) (c := c) hij
  have hlen : (A ++ [[(j, c)]]).length = A.length + 1 := by simp
  cases h with
  | idle hc hm ho => exact .idle hc (hm0 ▸ hm) (hg ▸ ho)
  | begun c' hc hm ho => exact .begun c' hc (hm0 ▸ hm) (hg ▸ ho)
  | has c' o q hq hc hm ho hlt hl =>
    exact .has c' o q hq hc (hm0 ▸ hm) (hg ▸ ho) (by omega) (by rw [made_new_other hij]; exact hl)
  | resetting p hp hc hm ho h1 => exact .resetting p hp hc (hm0 ▸ hm) (hg ▸ ho) (by omega)
  | past r hc hm ho => exact .past r hc (hm0 ▸ hm) (hg ▸ ho)


theorem late_prog {H : HashFn} {secure : Bool} {c : HCall} (hc : c.Plain) (n : Nat) (rest : List HCall) (outs : List (Py MAns)) :
    late n ⟨some (c.prog H secure), rest, outs⟩ = 0 := by
  cases c with
  | reset => rfl
  | call c => cases c <;> first | rfl | exact absurd hc id

theorem plain_leaves_first {H : HashFn} {secure : Bool} {c : MCall} (hc : c.Plain) :
    ∃ q, HCall.prog H secure (.call c) = .leaves q := by
  cases c <;> first | exact ⟨_, rfl⟩ | exact absurd hc id

theorem late_has {H : HashFn} {secure : Bool} {c : MCall} (hc : c.Plain) {q : Nat → HProg MAns}
    (hq : HCall.prog H secure (.call c) = .leaves q) (o n : Nat) (rest : List HCall) (outs : List (Py MAns)) :
    late n ⟨some (q o), rest, outs⟩ = if o < n then 1 else 0 := by
  cases c <;> first | (cases hq; rfl) | exact absurd hc id

theorem has_step {H : HashFn} {c : MCall} (hc : c.Plain) {q : Nat → HProg MAns} {t' : MTree}
    (hq : HCall.prog H t'.secure (.call c) = .leaves q) {s : HState} {X Y : List (List Bytes)}
    (hs : s.lists = X ++ t'.leaves :: Y) : (∀ r, q X.length ≠ .done r) ∧
      (q X.length).step H s = (.done (c.alone H t').1, { s with lists := X ++ (c.alone H t').2.leaves :: Y }) := by
  have hget : s.lists[X.length]?.getD [] = t'.leaves := by rw [hs]; simp
  cases c with
  | put v =>
    cases hq
    refine ⟨fun r h => (by cases h), ?_⟩
    simp only [HProg.step, hs, modify_split]
    rfl
  | get i =>
    cases hq
    refine ⟨fun r h => (by cases h), ?_⟩
    simp only [HProg.step, hget, MCall.alone, ← hs]
    rw [show MTree.get t' i = (MTree.pyIndexInt t'.leaves i).map hexOf by
      unfold MTree.get; cases MTree.pyIndexInt t'.leaves i <;> rfl]
    cases MTree.pyIndexInt t'.leaves i <;> rfl
  | count =>
    cases hq
    refine ⟨fun r h => (by cases h), ?_⟩
    simp only [HProg.step, hget, MCall.alone, ← hs]
    rfl
  | _ => exact absurd hc id

/-- A step that leaves the lists alone. -/
theorem Timed.same {calls : Nat → List HCall} {wq w w' : HWorld} {eps : List (List (Nat × HCall))} (h : Timed calls wq w eps)
    {j : Nat} (hw : ∀ i, i ≠ j → w'.threads i = w.threads i)
    (hj : ∀ n, n < eps.length → late n (w'.threads j) ≤ late n (w.threads j)) : Timed calls wq w' eps := by
  obtain ⟨A, first, B, C, he, h⟩ := h
  refine ⟨A, first, B, C, he, fun i => ?_⟩
  obtain ⟨h1, h2⟩ := h i
  refine ⟨h1, ?_⟩
  by_cases hij : i = j
  · subst hij
    have := hj A.length (by rw [he]; simp)
    omega
  · rw [hw i hij]; exact h2

theorem Timed.new {calls : Nat → List HCall} {wq w w' : HWorld} {eps : List (List (Nat × HCall))} (h : Timed calls wq w eps)
    {j : Nat} (hw : ∀ i, i ≠ j → w'.threads i = w.threads i) (hj : ∀ n, late n (w'.threads j) = 0)
    (x : List (Nat × HCall)) : Timed calls wq w' (eps ++ [x]) := by
  obtain ⟨A, first, B, C, he, h⟩ := h
  refine ⟨A, first, B, C ++ [x], by rw [he]; simp, fun i => ?_⟩
  obtain ⟨h1, h2⟩ := h i
  refine ⟨h1, ?_⟩
  by_cases hij : i = j
  · subst hij
    rw [hj]; omega
  · rw [hw i hij]; exact h2

theorem Timed.use {calls : Nat → List HCall} {wq w w' : HWorld} {X Y : List (List (Nat × HCall))} {e : List (Nat × HCall)}
    {j : Nat} {c : HCall} (h : Timed calls wq w (X ++ e :: Y)) (hw : ∀ i, i ≠ j → w'.threads i = w.threads i)
    (hj : ∀ n, late n (w.threads j) = if X.length < n then 1 else 0) (hj' : ∀ n, late n (w'.threads j) = 0) :
    Timed calls wq w' (X ++ (e ++ [(j, c)]) :: Y) := by
  obtain ⟨A, first, B, C, he, h⟩ := h
  have other : ∀ i, i ≠ j → (wq.threads i).outs.length ≤ (ofClient i (A.flatten ++ first)).length ∧
      (ofClient i (A.flatten ++ first)).length + late A.length (w'.threads i) + (wq.threads i).rest.length ≤ (calls i).length := by
    intro i hij; rw [hw i hij]; exact h i
  rcases List.append_eq_append_iff.mp he with ⟨a, h1, h2⟩ | ⟨a, h1, h2⟩
  · -- `A = X ++ a`
    cases a with
    | nil =>
      simp only [List.append_nil] at h1
      simp only [List.nil_append, List.cons.injEq] at h2
      obtain ⟨h2, h3⟩ := h2
      refine ⟨A, first, B ++ [(j, c)], C, by rw [h1, h2, h3]; simp, fun i => ?_⟩
      by_cases hij : i = j
      · subst hij
        obtain ⟨k1, k2⟩ := h i
        exact ⟨k1, by rw [hj']; omega⟩
      · exact other i hij
    | cons a0 a =>
      simp only [List.cons_append, List.cons.injEq] at h2
      obtain ⟨h2, h3⟩ := h2
      subst h2
      refine ⟨X ++ (e ++ [(j, c)]) :: a, first, B, C, by rw [h3]; simp, fun i => ?_⟩
      have hl : (X ++ (e ++ [(j, c)]) :: a).length = A.length := by rw [h1]; simp
      have hlt : X.length < A.length := by rw [h1]; simp
      by_cases hij : i = j
      · subst hij
        obtain ⟨k1, k2⟩ := h i
        rw [hj, if_pos hlt] at k2
        have : (ofClient i ((X ++ (e ++ [(i, c)]) :: a).flatten ++ first)).length = (ofClient i (A.flatten ++ first)).length + 1 := by
          rw [h1]
          simp only [List.flatten_append, List.flatten_cons, ofClient_append, ofClient_self, List.length_append, List.length_singleton]
          omega
        rw [this, hj']
        omega
      · have : ofClient i ((X ++ (e ++ [(j, c)]) :: a).flatten ++ first) = ofClient i (A.flatten ++ first) := by
          rw [h1]
          simp only [List.flatten_append, List.flatten_cons, ofClient_append, ofClient_other hij, List.append_nil]
        rw [this, hl]
        exact other i hij
  · -- `X = A ++ a`
    cases a with
    | nil =>
      simp only [List.append_nil] at h1
      simp only [List.nil_append, List.cons.injEq] at h2
      obtain ⟨h2, h3⟩ := h2
      refine ⟨A, first, B ++ [(j, c)], C, by rw [h1, ← h2, ← h3]; simp, fun i => ?_⟩
      by_cases hij : i = j
      · subst hij
        obtain ⟨k1, k2⟩ := h i
        exact ⟨k1, by rw [hj']; omega⟩
      · exact other i hij
    | cons a0 a =>
      simp only [List.cons_append, List.cons.injEq] at h2
      obtain ⟨h2, h3⟩ := h2
      refine ⟨A, first, B, a ++ (e ++ [(j, c)]) :: Y, by rw [h1, ← h2]; simp, fun i => ?_⟩
      by_cases hij : i = j
      · subst hij
        obtain ⟨k1, k2⟩ := h i
        exact ⟨k1, by rw [hj']; omega⟩
      · exact other i hij

theorem Timed.now {H : HashFn} {t : MTree} {calls : Nat → List HCall} (hc : ∀ j, ∀ c ∈ calls j, c.Plain) {w : HWorld}
    {eps : List (List (Nat × HCall))} (h : Epochs H t calls w eps) : Timed calls w w eps := by
  have hcat : eps.dropLast ++ [eps.getLast h.ne] = eps := List.dropLast_concat_getLast h.ne
  refine ⟨eps.dropLast, eps.getLast h.ne, [], [], by rw [List.append_nil]; exact hcat.symm, fun j => ?_⟩
  have hf : ofClient j (eps.dropLast.flatten ++ eps.getLast h.ne) = made j eps := by
    have e : (eps.dropLast ++ [eps.getLast h.ne]).flatten = eps.flatten := by rw [hcat]
    unfold made
    rw [← e]
    simp
  rw [hf]
  have hgl : (got H t j eps).length = (made j eps).length := by
    unfold got made
    clear hf hcat h
    induction eps with
    | nil => rfl
    | cons e eps ih =>
      simp only [List.map_cons, List.flatten_cons, ofClient_append, List.length_append, HCall.inTurn_length, ih]
  have hl : ∀ (c : HCall), made j eps ++ c :: (w.threads j).rest = calls j → c.Plain := by
    intro c e; exact hc j c (by rw [← e]; simp)
  have hth := h.threads j
  generalize w.threads j = th at hth hl
  obtain ⟨cur, rest, outs⟩ := th
  cases hth with
  | idle hc hm ho =>
    simp only at hc hm ho
    subst hc
    have := congrArg List.length hm
    have := congrArg List.length ho
    simp only [List.length_append, late] at *
    omega
  | begun c hc hm ho =>
    have hp := hl c hm
    simp only at hc hm ho
    subst hc
    rw [late_prog hp]
    have := congrArg List.length hm
    have := congrArg List.length ho
    simp only [List.length_append, List.length_cons] at *
    omega
  | has c o q hq hc hm ho hlt hlate =>
    have hp := hl _ hm
    simp only at hc hm ho
    subst hc
    rw [late_has hp hq]
    have := congrArg List.length hm
    have := congrArg List.length ho
    simp only [List.length_append, List.length_cons] at *
    split <;> omega
  | resetting p hp hc hm ho h1 =>
    simp only at hc hm ho
    subst hc
    have := congrArg List.length hm
    have := congrArg List.length ho
    have e : late eps.dropLast.length ⟨some p, rest, outs⟩ = 0 := by rcases hp with hp | hp <;> subst hp <;> rfl
    rw [e]
    simp only [List.length_append, List.length_cons, List.length_nil] at *
    omega
  | past r hc hm ho =>
    simp only at hc hm ho
    subst hc
    have := congrArg List.length hm
    have := congrArg List.length ho
    simp only [List.length_append, List.length_cons, List.length_nil, late] at *
    omega


theorem epochs_step {H : HashFn} {t : MTree} {calls : Nat → List HCall} (hc : ∀ j, ∀ c ∈ calls j, c.Plain) {w : HWorld}
    {eps : List (List (Nat × HCall))} (h : Epochs H t calls w eps) (j : Nat) :
    ∃ eps', Epochs H t calls (w.step H j) eps' ∧ ∀ wq, Timed calls wq w eps → Timed calls wq (w.step H j) eps' := by
  have hpl : ∀ (c : HCall), made j eps ++ c :: (w.threads j).rest = calls j → c.Plain := by
    intro c e; exact hc j c (by rw [← e]; simp)
  -- steps of thread `j` that leave the tree and the calls so far alone
  have quiet : ∀ th', Phase H t j (calls j) eps th' → (w.threads j).cur ≠ some restOfReset → (w.threads j).cur ≠ some endOfReset →
      (∀ n, n < eps.length → late n th' ≤ late n (w.threads j)) →
      Epochs H t calls (w.setThread j th') eps ∧ ∀ wq, Timed calls wq w eps → Timed calls wq (w.setThread j th') eps := by
    intro th' hp n1 n2 hl
    have hoth : ∀ i, i ≠ j → (w.setThread j th').threads i = w.threads i := by
      intro i hij; rw [HWorld.threads_set, if_neg hij]
    have hself : (w.setThread j th').threads j = th' := by rw [HWorld.threads_set, if_pos rfl]
    refine ⟨⟨h.ne, h.resets, h.unreset, h.plain, h.secure, h.lists, h.last, ?_, h.calm, ?_, ?_⟩, ?_⟩
    · intro i
      by_cases hij : i = j
      · subst hij; rw [hself]; exact hp
      · rw [hoth i hij]; exact h.threads i
    · intro h1
      rcases h.levels h1 with h2 | ⟨i, h2⟩
      · exact .inl h2
      · refine .inr ⟨i, ?_⟩
        rw [hoth i (fun e => n1 (e ▸ h2))]; exact h2
    · intro h1
      rcases h.ready h1 with h2 | ⟨i, h2⟩
      · exact .inl h2
      · refine .inr ⟨i, ?_⟩
        rw [hoth i (fun e => by subst e; exact h2.elim n1 n2)]; exact h2
    · intro wq ht
      exact ht.same hoth (by rw [hself]; exact hl)
  rcases HWorld.step_cases H j w with ⟨_, _, e⟩ | ⟨c, rest, e1, e2, e⟩ | ⟨r, e1, e⟩ | ⟨p, e1, e2, e⟩
  · exact ⟨eps, by rw [e]; exact ⟨h, fun _ h => h⟩⟩
  · -- a call begins
    refine ⟨eps, ?_⟩
    rw [e, h.secure]
    have hph := h.threads j
    have hmj : made j eps ++ c :: rest = calls j ∧ (w.threads j).outs = got H t j eps := by
      cases hph with
      | idle _ hm ho => rw [e2] at hm; exact ⟨hm, ho⟩
      | begun _ h' => rw [e1] at h'; cases h'
      | has _ _ _ _ h' => rw [e1] at h'; cases h'
      | resetting _ _ h' => rw [e1] at h'; cases h'
      | past _ h' => rw [e1] at h'; cases h'
    refine quiet _ (.begun c rfl hmj.1 hmj.2) (by rw [e1]; simp) (by rw [e1]; simp) ?_
    intro n _
    rw [late_prog (hc j c (by rw [← hmj.1]; simp))]
    exact Nat.zero_le _
  · -- a call ends
    refine ⟨eps, ?_⟩
    rw [e]
    have hph := h.threads j
    have hmj : made j eps ++ (w.threads j).rest = calls j ∧ (w.threads j).outs ++ [r] = got H t j eps := by
      cases hph with
      | idle h' => rw [e1] at h'; cases h'
      | begun c h' hm =>
        exfalso
        rw [e1] at h'
        have hp := hpl c hm
        cases c with
        | reset => cases h'
        | call c =>
          obtain ⟨q, hq⟩ := plain_leaves_first (H := H) (secure := t.secure) (c := c) hp
          rw [hq] at h'; cases h'
      | has c o q hq h' hm ho hlt _ =>
        exfalso
        rw [e1] at h'
        have hp := hpl _ hm
        cases c <;> first | (cases hq; cases h') | exact absurd hp id
      | resetting p hp h' => rw [e1] at h'; rcases hp with hp | hp <;> subst hp <;> cases h'
      | past r' h' hm ho => rw [e1] at h'; cases h'; exact ⟨hm, ho⟩
    refine quiet _ (.idle rfl hmj.1 hmj.2) (by rw [e1]; exact fun h => by cases h) (by rw [e1]; exact fun h => by cases h) ?_
    intro n _
    exact Nat.zero_le _
  · -- a call goes on
    have hoth : ∀ i, i ≠ j → (w.step H j).threads i = w.threads i := by
      intro i hij; rw [e]; show (w.setThread j _).threads i = _; rw [HWorld.threads_set, if_neg hij]
    have hself : (w.step H j).threads j = { (w.threads j) with cur := some (p.step H w.tree).1 } := by
      rw [e]; show (w.setThread j _).threads j = _; rw [HWorld.threads_set, if_pos rfl]
    have htree : (w.step H j).tree = (p.step H w.tree).2 := by rw [e]
    cases h.threads j with
    | idle h' => rw [e1] at h'; cases h'
    | past r h' => rw [e1] at h'; cases h'; exact absurd rfl (e2 r)
    | begun c h' hm ho =>
      rw [e1] at h'
      cases h'
      have hp := hpl c hm
      cases c with
      | call c =>
        obtain ⟨q, hq⟩ := plain_leaves_first (H := H) (secure := t.secure) (c := c) hp
        refine ⟨eps, ?_⟩
        have hst : (HCall.prog H t.secure (.call c)).step H w.tree = (q w.tree.leaves, w.tree) := by rw [hq]; rfl
        rw [e, hst]
        refine quiet _ (.has c w.tree.leaves q hq rfl hm ho (by have := h.last; omega) ?_) ?_ ?_ ?_
        · rw [h.last]; simp [made, ofClient]
        · rw [e1, hq]; exact fun h => by cases h
        · rw [e1, hq]; exact fun h => by cases h
        · intro n hn
          rw [late_has hp hq, if_neg (by have := h.last; omega)]
          exact Nat.zero_le _
      | reset =>
        have hst : (HCall.prog H t.secure .reset).step H w.tree =
          (restOfReset, { w.tree with lists := w.tree.lists ++ [[]], leaves := w.tree.lists.length }) := rfl
        rw [hst] at hself htree
        simp only at hself htree
        have hlen : w.tree.lists.length = eps.length := by rw [h.lists]; simp
        have hpos : 0 < eps.length := List.length_pos_iff.mpr h.ne
        have htl : (eps ++ [[(j, HCall.reset)]]).tail = eps.tail ++ [[(j, HCall.reset)]] := by
          cases eps with
          | nil => exact absurd rfl h.ne
          | cons a l => rfl
        refine ⟨eps ++ [[(j, .reset)]], ⟨by simp, ?_, ?_, ?_, by rw [htree]; exact h.secure, ?_, ?_, ?_, ?_, ?_, ?_⟩, ?_⟩
        · intro x hx
          rw [htl, List.mem_append, List.mem_singleton] at hx
          rcases hx with hx | hx
          · exact h.resets x hx
          · exact ⟨j, [], hx⟩
        · intro x hx
          cases eps with
          | nil => exact absurd rfl h.ne
          | cons a l => exact h.unreset x hx
        · intro x hx
          rw [List.mem_append, List.mem_singleton] at hx
          rcases hx with hx | hx
          · exact h.plain x hx
          · subst hx; intro y hy; rw [List.mem_singleton] at hy; subst hy; trivial
        · rw [htree]
          simp only [h.lists, List.map_append, List.map_cons, List.map_nil]
          rfl
        · rw [htree]; simp only [hlen, List.length_append, List.length_singleton]
        · intro i
          by_cases hij : i = j
          · subst hij
            rw [hself]
            refine .resetting restOfReset (.inl rfl) rfl ?_ ?_ (by simp; omega)
            · rw [made_new_self]; simp only [List.append_assoc, List.singleton_append]; exact hm
            · rw [got_new_self, ← ho]; rfl
          · rw [hoth i hij]; exact (h.threads i).other_new hij
        · intro h1; exact absurd h1 (by simp; exact h.ne)
        · intro _; exact .inr ⟨j, by rw [hself]⟩
        · intro _; exact .inr ⟨j, .inl (by rw [hself])⟩
        · intro wq ht
          exact ht.new hoth (fun n => by rw [hself]; rfl) _
    | has c o q hq h' hm ho hlt hlate =>
      rw [e1] at h'
      cases h'
      have hp := hpl _ hm
      obtain ⟨A, e', B, he, hA⟩ := split_at hlt
      subst hA
      subst he
      have hB : made j B = [] := by
        have : (A ++ e' :: B).drop (A.length + 1) = B := by simp
        rw [this] at hlate; exact hlate
      have hsec : (HCall.afterTurns H e' t).secure = t.secure := HCall.plain_secure (h.plain e' (by simp)) t
      have hlists := h.lists
      simp only [List.map_append, List.map_cons] at hlists
      have hst := (has_step (H := H) hp (t' := HCall.afterTurns H e' t) (by rw [hsec]; exact hq) hlists).2
      rw [List.length_map] at hst
      rw [hst] at hself htree
      simp only at hself htree
      have hlen : (A ++ (e' ++ [(j, HCall.call c)]) :: B).length = (A ++ e' :: B).length := by simp
      have hcur : ∀ x, (w.threads j).cur = some x → x = q A.length := by
        intro x hx; rw [e1] at hx; exact (Option.some.inj hx).symm
      have hnr : (w.threads j).cur ≠ some restOfReset ∧ (w.threads j).cur ≠ some endOfReset := by
        rw [e1]
        cases c <;> first | (cases hq; exact ⟨fun h => (by cases h), fun h => (by cases h)⟩) | exact absurd hp id
      refine ⟨A ++ (e' ++ [(j, .call c)]) :: B, ⟨by simp, ?_, ?_, ?_, by rw [htree]; exact h.secure, ?_, ?_, ?_, ?_, ?_, ?_⟩, ?_⟩
      · intro x hx
        cases A with
        | nil => exact h.resets x hx
        | cons a A =>
          simp only [List.cons_append, List.tail_cons, List.mem_append, List.mem_cons] at hx
          rcases hx with hx | hx | hx
          · exact h.resets x (by simp [hx])
          · obtain ⟨r, b, he⟩ := h.resets e' (by simp)
            exact ⟨r, b ++ [(j, .call c)], by rw [hx, he]; rfl⟩
          · exact h.resets x (by simp [hx])
      · intro x hx
        cases A with
        | cons a A => exact h.unreset x hx
        | nil =>
          cases hx
          intro y hy
          rw [List.mem_append, List.mem_singleton] at hy
          rcases hy with hy | hy
          · exact h.unreset e' rfl y hy
          · subst hy; exact fun h => by cases h
      · intro x hx
        simp only [List.mem_append, List.mem_cons] at hx
        rcases hx with hx | hx | hx
        · exact h.plain x (by simp [hx])
        · subst hx
          intro y hy
          rw [List.mem_append, List.mem_singleton] at hy
          rcases hy with hy | hy
          · exact h.plain e' (by simp) y hy
          · subst hy; exact hp
        · exact h.plain x (by simp [hx])
      · rw [htree]
        simp only [List.map_append, List.map_cons, HCall.afterTurns_append]
        rfl
      · rw [htree, hlen]; exact h.last
      · intro i
        by_cases hij : i = j
        · subst hij
          rw [hself]
          refine .past _ rfl ?_ ?_
          · rw [made_self hB]; simp only [List.append_assoc, List.singleton_append]; exact hm
          · rw [got_self hB, ← ho]; rfl
        · rw [hoth i hij]; exact (h.threads i).other hij
      · intro h1
        rw [htree]; exact h.calm (hlen ▸ h1)
      · intro h1
        rcases h.levels (hlen ▸ h1) with h2 | ⟨i, h2⟩
        · exact .inl (by rw [htree]; exact h2)
        · exact .inr ⟨i, by rw [hoth i (fun e => hnr.1 (e ▸ h2))]; exact h2⟩
      · intro h1
        rcases h.ready (hlen ▸ h1) with h2 | ⟨i, h2⟩
        · exact .inl (by rw [htree]; exact h2)
        · exact .inr ⟨i, by rw [hoth i (fun e => by subst e; exact h2.elim hnr.1 hnr.2)]; exact h2⟩
      · intro wq ht
        refine ht.use hoth (fun n => ?_) (fun n => by rw [hself]; rfl)
        have := late_has (H := H) hp hq A.length n (w.threads j).rest (w.threads j).outs
        rw [← this, ← e1]
    | resetting p' hp' h' hm ho h1 =>
      rw [e1] at h'
      cases h'
      rcases hp' with hp' | hp'
      · subst hp'
        have hst : restOfReset.step H w.tree = (endOfReset, { w.tree with levels := none }) := rfl
        rw [hst] at hself htree
        simp only at hself htree
        refine ⟨eps, ⟨h.ne, h.resets, h.unreset, h.plain, by rw [htree]; exact h.secure, by rw [htree]; exact h.lists,
          by rw [htree]; exact h.last, ?_, fun h2 => by omega, fun _ => .inl (by rw [htree]), fun _ => .inr ⟨j, .inr (by rw [hself])⟩⟩, ?_⟩
        · intro i
          by_cases hij : i = j
          · subst hij; rw [hself]; exact .resetting endOfReset (.inr rfl) rfl hm ho h1
          · rw [hoth i hij]; exact h.threads i
        · intro wq ht
          exact ht.same hoth (fun n _ => by rw [hself]; exact Nat.zero_le _)
      · subst hp'
        have hst : endOfReset.step H w.tree = (.done (.ok .none), { w.tree with ready := false }) := rfl
        rw [hst] at hself htree
        simp only at hself htree
        refine ⟨eps, ⟨h.ne, h.resets, h.unreset, h.plain, by rw [htree]; exact h.secure, by rw [htree]; exact h.lists,
          by rw [htree]; exact h.last, ?_, fun h2 => by omega, fun h1 => ?_, fun _ => .inl (by rw [htree])⟩, ?_⟩
        · intro i
          by_cases hij : i = j
          · subst hij; rw [hself]; exact .past _ rfl hm ho
          · rw [hoth i hij]; exact h.threads i
        · rcases h.levels h1 with h2 | ⟨i, h2⟩
          · exact .inl (by rw [htree]; exact h2)
          · refine .inr ⟨i, ?_⟩
            rw [hoth i (fun e => by subst e; rw [e1] at h2; cases h2)]; exact h2
        · intro wq ht
          exact ht.same hoth (fun n _ => by rw [hself]; exact Nat.zero_le _)

theorem epochs_run {H : HashFn} {t : MTree} {calls : Nat → List HCall} (hc : ∀ j, ∀ c ∈ calls j, c.Plain) (sched : List Nat) :
    ∃ eps, Epochs H t calls ((HWorld.new t calls).run H sched) eps ∧
      ∀ q, Timed calls ((HWorld.new t calls).run H (sched.take q)) ((HWorld.new t calls).run H sched) eps := by
  induction sched using snocRec with
  | nil =>
    have h : Epochs H t calls ((HWorld.new t calls).run H []) [[]] :=
      ⟨by simp, by simp, by simp, by simp, rfl, rfl, rfl, fun j => .idle rfl rfl rfl, fun _ => ⟨rfl, rfl⟩, by simp, by simp⟩
    refine ⟨[[]], h, fun q => ?_⟩
    rw [List.take_nil]
    exact Timed.now hc h
  | append_singleton sched j ih =>
    obtain ⟨eps, h1, h2⟩ := ih
    obtain ⟨eps', h3, h4⟩ := epochs_step hc h1 j
    rw [← HWorld.run_snoc] at h3 h4
    refine ⟨eps', h3, fun q => ?_⟩
    by_cases hq : q ≤ sched.length
    · rw [List.take_append_of_le_length hq]
      exact h4 _ (h2 q)
    · rw [List.take_of_length_le (by simp; omega)]
      exact Timed.now hc h3

end Pymt
