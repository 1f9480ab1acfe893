import Verif.Spec.Threads
import Verif.Model.Backend

/-!
# Specification: what a storage has to do, and what is expected of a trie over it
-/

namespace Pymt

variable {ε : Type}

/-- A storage that does what a dict does.  `view s` is what it has stored; reading may change its state (a cache, say),
but not what it has stored. -/
structure Backend.Faithful (B : Backend ε) (view : B.σ → Bytes → Option Bytes) : Prop where
  get : ∀ k s, (B.getItem k s).1 = .ok (view s k)
  get_view : ∀ k s, view (B.getItem k s).2 = view s
  set : ∀ k v s, (B.setItem k v s).1 = .ok ()
  set_view : ∀ k v s k', view (B.setItem k v s).2 k' = if k' = k then some v else view s k'

/-- Much less: any access may raise an exception of the storage.  A value that is read is the value that is stored.  A
write stores the value, or, if there is an entry already, may leave that one in place; a write that raises may have
done so or not. -/
structure Backend.Loyal (B : Backend ε) (view : B.σ → Bytes → Option Bytes) : Prop where
  get : ∀ k s x, (B.getItem k s).1 = .ok x → x = view s k
  get_view : ∀ k s, view (B.getItem k s).2 = view s
  set : ∀ k v s, (B.setItem k v s).1 = .ok () → view (B.setItem k v s).2 k ≠ none
  set_view : ∀ k v s, view (B.setItem k v s).2 k = some v ∨ view (B.setItem k v s).2 k = view s k
  set_other : ∀ k v s k', k' ≠ k → view (B.setItem k v s).2 k' = view s k'

/-- The same calls on a trie over a dict: outcomes and object. -/
def Call.seqAll (E : Env) : List Call → MPT → List (Py Ans) × MPT
  | [], t => ([], t)
  | c :: l, t => ((c.seq E t).1 :: (seqAll E l (c.seq E t).2).1, (seqAll E l (c.seq E t).2).2)

/-- The outcomes of the calls that were not ended by an exception of the storage. -/
def completed (rs : List (Except ε (Py Ans))) : List (Py Ans) := rs.filterMap Except.toOption

/-- The calls that were not ended by an exception of the storage. -/
def completedCalls (calls : List Call) (rs : List (Except ε (Py Ans))) : List Call :=
  (calls.zip rs).filterMap fun x => x.2.toOption.map fun _ => x.1

/-- A dict. -/
def dictBackend : Backend Empty where
  σ := List (Bytes × Bytes)
  getItem k s := (.ok (dget s k), s)
  setItem k v s := (.ok (), dset s k v)

/-- A file to which records are appended, with a cache in memory that is filled by reading. -/
def cachedLog : Backend Empty where
  σ := List (Bytes × Bytes) × List (Bytes × Bytes)
  getItem k s :=
    match dget s.2 k with
    | some v => (.ok (some v), s)
    | none =>
      match dget s.1 k with
      | some v => (.ok (some v), (s.1, dset s.2 k v))
      | none => (.ok none, s)
  setItem k v s := (.ok (), ((k, v) :: s.1, ddel s.2 k))

/-- A content-addressed store over a network: entries are never changed, and every fifth access fails; a write that
fails may have reached the other side. -/
def flakyStore : Backend Unit where
  σ := List (Bytes × Bytes) × Nat
  getItem k s := (if s.2 % 5 = 4 then .error () else .ok (dget s.1 k), (s.1, s.2 + 1))
  setItem k v s :=
    (if s.2 % 5 = 4 then .error () else .ok (),
      (if s.2 % 10 = 9 ∨ (dget s.1 k).isSome then s.1 else dset s.1 k v, s.2 + 1))

end Pymt
