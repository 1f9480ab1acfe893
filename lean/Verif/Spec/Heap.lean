import Verif.Spec.Empt

/-!
# Programs that use two objects

A program makes calls on two objects in any order.  A call is any computation on the object (so the theorems
cover all methods, and sequences of them).
-/

namespace Pymt

/-- Results of the calls on one side, in order. -/
def leftResults {α β : Type} : List (Py α ⊕ Py β) → List (Py α)
  | [] => []
  | .inl r :: rs => r :: leftResults rs
  | .inr _ :: rs => leftResults rs

/-- Results of the calls on the other side, in order. -/
def rightResults {α β : Type} : List (Py α ⊕ Py β) → List (Py β)
  | [] => []
  | .inl _ :: rs => rightResults rs
  | .inr r :: rs => r :: rightResults rs

/-- The calls of a program on one side. -/
def leftCalls {γ δ : Type} : List (γ ⊕ δ) → List γ
  | [] => []
  | .inl c :: cs => c :: leftCalls cs
  | .inr _ :: cs => leftCalls cs

/-- The calls of a program on the other side. -/
def rightCalls {γ δ : Type} : List (γ ⊕ δ) → List δ
  | [] => []
  | .inl _ :: cs => rightCalls cs
  | .inr c :: cs => c :: rightCalls cs

/-- Calls on one object that nobody else touches: results and final state. -/
def runAlone {σ α : Type} : List (M σ α) → σ → List (Py α) × σ
  | [], s => ([], s)
  | m :: ms, s =>
    let (r, s1) := m s
    let (rs, s2) := runAlone ms s1
    (r :: rs, s2)

/-- A program on two `EMPT` objects. -/
def runEE {α : Type} : List (M EMPT α ⊕ M EMPT α) → EObj → EObj → Heap →
    List (Py α ⊕ Py α) × EObj × EObj × Heap
  | [], o, p, h => ([], o, p, h)
  | .inl m :: cs, o, p, h =>
    let (r, o1, h1) := EObj.call m o h
    let (rs, x) := runEE cs o1 p h1
    (.inl r :: rs, x)
  | .inr m :: cs, o, p, h =>
    let (r, p1, h1) := EObj.call m p h
    let (rs, x) := runEE cs o p1 h1
    (.inr r :: rs, x)

/-- A program on an `EMPT` and a `SparseEMPT`. -/
def runES {α : Type} : List (M EMPT α ⊕ M MPT α) → EObj → SObj → Heap →
    List (Py α ⊕ Py α) × EObj × SObj × Heap
  | [], o, p, h => ([], o, p, h)
  | .inl m :: cs, o, p, h =>
    let (r, o1, h1) := EObj.call m o h
    let (rs, x) := runES cs o1 p h1
    (.inl r :: rs, x)
  | .inr m :: cs, o, p, h =>
    let (r, p1, h1) := SObj.call m p h
    let (rs, x) := runES cs o p1 h1
    (.inr r :: rs, x)

end Pymt
