import Verif.Spec.History
import Verif.Model.Keccak
import Verif.Lemmas.Pairs

/-!
# A cheap hash for examples

Examples that show that the hypotheses of a theorem can be met run the model on concrete histories.
They use a polynomial hash to 32 bytes, which the kernel evaluates quickly.  (The instance with the
real hash is `realEnv` in `Verif/Model/Keccak.lean`.)
-/

namespace Pymt

/-- The 32 bytes of a number, lowest first. -/
def bytes32 (n : Nat) : Bytes := (List.range 32).map fun i => UInt8.ofNat (n >>> (8 * i))

/-- A polynomial hash. -/
def toyHash (b : Bytes) : Bytes :=
  bytes32 (b.foldl (fun h x => (h * 1000003 + x.toNat + 1) % (2 ^ 255 - 19)) 7)

/-- Environment with the toy hash. -/
def toyEnv : Env := { keccak := toyHash, keccak_len := fun b => by simp [toyHash, bytes32], limit := 100 }

/-- Decides `CollFree` for a concrete list. -/
def collFreeB (E : Env) (l : List Bytes) : Bool :=
  l.all fun a => l.all fun b => decide (E.keccak a = E.keccak b → a = b)

theorem collFree_of {E : Env} {l : List Bytes} (h : collFreeB E l = true) : CollFree E l := by
  intro a ha b hb
  simp only [collFreeB, List.all_eq_true, decide_eq_true_eq] at h
  exact h a ha b hb

/-- Decides `LogOk` for a concrete log. -/
def logOkB (E : Env) (l : List Bytes) : Bool :=
  collFreeB E (Item.encode (.str []) :: l) && l.all fun a => decide (a.length < 2 ^ 64)

theorem logOk_of {E : Env} {l : List Bytes} (h : logOkB E l = true) : LogOk E l := by
  simp only [logOkB, Bool.and_eq_true, List.all_eq_true, decide_eq_true_eq] at h
  exact ⟨collFree_of h.1, h.2⟩

/-- Decides `Clean` for the contents after a concrete history. -/
def cleanB (ops : List Op) : Bool :=
  (pairs ops).all fun e => decide (e.2 ≠ []) ||
    (pairs ops).all fun e' => decide (e.1 <+: e'.1 → e'.1 = e.1)

theorem clean_of {ops : List Op} (h : cleanB ops = true) : Clean (contents ops) := by
  intro k k' h1 h2 hp
  cases h3 : contents ops k' with
  | none => exact absurd h3 h2
  | some v =>
    simp only [cleanB, List.all_eq_true, Bool.or_eq_true, decide_eq_true_eq] at h
    rcases h (k, []) (mem_pairs.2 h1) with h | h
    · exact absurd rfl h
    · exact h (k', v) (mem_pairs.2 h3) hp

theorem contents_nonempty {ops : List Op} (h : ∀ op ∈ ops, op.NonEmpty) {k : Bytes} :
    contents ops k ≠ some [] := by
  have : ∀ (ops : List Op) (m : Contents), (∀ op ∈ ops, op.NonEmpty) → (∀ k, m k ≠ some []) →
      ∀ k, contentsFrom m ops k ≠ some [] := by
    intro ops
    induction ops with
    | nil => intro m _ hm; exact hm
    | cons op ops ih =>
      intro m ho hm
      refine ih _ (fun o h => ho o (List.mem_cons_of_mem _ h)) fun k => ?_
      have := ho op List.mem_cons_self
      cases op <;> simp only [Op.apply] <;> split <;> simp_all [Op.NonEmpty]
  exact this ops _ h (by simp) k

/-- Without empty values contents are always clean. -/
theorem clean_of_nonempty {ops : List Op} (h : ∀ op ∈ ops, op.NonEmpty) : Clean (contents ops) :=
  fun _ _ h1 => absurd h1 (contents_nonempty h)

/-- Decides that the contents are clean all along a concrete history. -/
def emptiesB (ops : List Op) : Bool :=
  ops.all (fun op => decide op.NonEmpty) || (List.range (ops.length + 1)).all fun n => cleanB (ops.take n)

theorem empties_of {ops : List Op} (h : emptiesB ops = true) {pre : List Op} (hp : pre <+: ops) :
    Clean (contents pre) := by
  simp only [emptiesB, Bool.or_eq_true, List.all_eq_true, decide_eq_true_eq] at h
  rcases h with h | h
  · exact clean_of_nonempty fun op ho => h op (hp.subset ho)
  · have := h pre.length (by simpa [Nat.lt_succ_iff] using hp.length_le)
    rw [← List.prefix_iff_eq_take.1 hp] at this
    exact clean_of this

/-- Decides `Valid` for a concrete history. -/
def validB (E : Env) (secure : Bool) (ops : List Op) (ks : List Bytes) : Bool :=
  (secure || emptiesB ops) && ops.all (fun op => decide (Fits E secure op.key)) &&
  ks.all (fun k => decide (Fits E secure k)) &&
  logOkB E (MPT.after E secure ops).store.written &&
  (!secure || collFreeB E (ks ++ ops.map Op.key))

theorem valid_of {E : Env} {secure : Bool} {ops : List Op} {ks : List Bytes}
    (h : validB E secure ops ks = true) : Valid E secure ops ks := by
  simp only [validB, Bool.and_eq_true, List.all_eq_true, decide_eq_true_eq] at h
  obtain ⟨⟨⟨⟨h1, h2⟩, h3⟩, h4⟩, h5⟩ := h
  refine ⟨fun hs pre hp => empties_of (by simpa [hs] using h1) hp, h2, h3, logOk_of h4, fun hs => ?_⟩
  subst hs
  exact collFree_of (by simpa using h5)

/-- A value of 40 bytes, so that its leaf is stored under a hash. -/
def bigValue (n : UInt8) : Bytes := List.replicate 40 n

/-- Overwrites, deletions, keys that are prefixes of each other, nodes short and long. -/
def sampleOps : List Op :=
  [.update [0x12, 0x34] (bigValue 1), .update [0x12, 0x56] [7], .update [0x12] (bigValue 2),
   .update [0x99] [5, 5], .delete [0x12, 0x56], .delete [0x55], .update [0x12, 0x34] (bigValue 3)]

/-- A shorter history with one long value, for secure mode. -/
def secureOps : List Op :=
  [.update [0x12, 0x34] [1], .update [0x12] (bigValue 2), .delete [0x55], .delete [0x12, 0x34],
   .update [0x99] [3]]

/-- The call succeeds and its result passes the test. -/
def okAnd {α : Type} (m : Py α) (f : α → Bool) : Bool :=
  match m with
  | .ok a => f a
  | .error _ => false

theorem ok_of {α : Type} {m : Py α} {f : α → Bool} (h : okAnd m f = true) : ∃ a, m = .ok a ∧ f a = true := by
  cases m with
  | error e => simp [okAnd] at h
  | ok a => exact ⟨a, rfl, h⟩

end Pymt
