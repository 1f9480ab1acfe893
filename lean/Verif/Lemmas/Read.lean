import Verif.Lemmas.Delete

/-!
# Reading a trie

All walkers (`_get`, `_contains`, `_get_proof_of_*`) go down the trie in the same way; `seek` is that
walk on abstract tries: where it stops, and what is left of the path.
-/

namespace Pymt
namespace T

/-- Where a walk stops, and the rest of the path. -/
def seek : T → List Nib → T × List Nib
  | empty, p => (empty, p)
  | leaf q v, p => (leaf q v, p)
  | ext q c, [] => (ext q c, [])
  | ext q c, i :: p =>
    if q <+: i :: p then seek c ((i :: p).drop q.length) else (ext q c, i :: p)
  | branch cs v, [] => (branch cs v, [])
  | branch cs v, i :: p => if (cs i).isEmpty then (branch cs v, i :: p) else seek (cs i) p

/-- The nodes a walk passes, without the one it stops at. -/
def passed : T → List Nib → List T
  | empty, _ => []
  | leaf _ _, _ => []
  | ext _ _, [] => []
  | ext q c, i :: p =>
    if q <+: i :: p then ext q c :: passed c ((i :: p).drop q.length) else []
  | branch _ _, [] => []
  | branch cs v, i :: p => if (cs i).isEmpty then [] else branch cs v :: passed (cs i) p

@[simp] theorem seek_nil (t : T) : seek t [] = (t, []) := by cases t <;> rfl
@[simp] theorem passed_nil (t : T) : passed t [] = [] := by cases t <;> rfl

/-- The walk followed a prefix of the path down to the trie where it stops. -/
theorem seek_split (t : T) (p : List Nib) :
    ∃ a, p = a ++ (seek t p).2 ∧ ∀ q, lookup t (a ++ q) = lookup (seek t p).1 q := by
  induction t generalizing p with
  | empty => exact ⟨[], rfl, fun q => rfl⟩
  | leaf s v => exact ⟨[], rfl, fun q => rfl⟩
  | ext s c ih =>
    cases p with
    | nil => exact ⟨[], rfl, fun q => rfl⟩
    | cons i p =>
      rw [seek]
      by_cases h : s <+: i :: p
      · rw [if_pos h]
        obtain ⟨r, hr⟩ := h
        rw [← hr, List.drop_left]
        obtain ⟨a, h1, h2⟩ := ih r
        refine ⟨s ++ a, by rw [List.append_assoc, ← h1], fun q => ?_⟩
        rw [List.append_assoc, lookup_ext_append, h2]
      · rw [if_neg h]
        exact ⟨[], rfl, fun q => rfl⟩
  | branch cs v ih =>
    cases p with
    | nil => exact ⟨[], rfl, fun q => rfl⟩
    | cons i p =>
      rw [seek]
      split
      · exact ⟨[], rfl, fun q => rfl⟩
      · obtain ⟨a, h1, h2⟩ := ih i p
        exact ⟨i :: a, by rw [List.cons_append, ← h1], fun q => by simp [lookup, h2]⟩

theorem lookup_seek (t : T) (p : List Nib) : lookup t p = lookup (seek t p).1 (seek t p).2 := by
  obtain ⟨a, h1, h2⟩ := seek_split t p
  conv => lhs; rw [h1]
  exact h2 _

/-- What holds of a trie and is inherited by children holds where a walk stops, and of all nodes it
passes. -/
theorem seek_induct {P : T → Prop} (hext : ∀ q c, P (ext q c) → P c)
    (hbr : ∀ cs v i, P (branch cs v) → P (cs i)) {t : T} (h : P t) (p : List Nib) :
    P (seek t p).1 ∧ ∀ x ∈ passed t p, P x := by
  induction t generalizing p with
  | empty => exact ⟨h, by simp [passed]⟩
  | leaf s v => exact ⟨h, by simp [passed]⟩
  | ext s c ih =>
    cases p with
    | nil => exact ⟨h, by simp⟩
    | cons i p =>
      rw [seek, passed]
      split
      · have := ih (hext _ _ h) ((i :: p).drop s.length)
        exact ⟨this.1, by simp only [List.mem_cons, forall_eq_or_imp]; exact ⟨h, this.2⟩⟩
      · exact ⟨h, by simp⟩
  | branch cs v ih =>
    cases p with
    | nil => exact ⟨h, by simp⟩
    | cons i p =>
      rw [seek, passed]
      split
      · exact ⟨h, by simp⟩
      · have := ih i (hbr _ _ _ h) p
        exact ⟨this.1, by simp only [List.mem_cons, forall_eq_or_imp]; exact ⟨h, this.2⟩⟩

theorem Shape.seek {t : T} (h : t.Shape) (p : List Nib) : (seek t p).1.Shape :=
  (seek_induct (P := Shape) (fun _ _ h => h.2.2) (fun _ _ i h => h i) h p).1

theorem Canon.seek {t : T} (h : t.Canon) (p : List Nib) : (seek t p).1.Canon :=
  (seek_induct (P := Canon) (fun _ _ h => h.2.2) (fun _ _ i h => h.2.2 i) h p).1

theorem Stored.seek {E : Env} {kv : Dict Bytes} {t : T} (h : Stored E kv t) (p : List Nib) :
    Stored E kv (seek t p).1 :=
  (seek_induct (P := Stored E kv) (fun _ _ h => h.2) (fun _ _ i h => h.2 i) h p).1

theorem Stored.passed {E : Env} {kv : Dict Bytes} {t : T} (h : Stored E kv t) (p : List Nib) :
    ∀ x ∈ passed t p, Stored E kv x :=
  (seek_induct (P := Stored E kv) (fun _ _ h => h.2) (fun _ _ i h => h.2 i) h p).2

theorem Shape.child_ne {q : List Nib} {c : T} (h : (ext q c).Shape) : c ≠ empty := by
  rintro rfl; simp [Shape, isBranch] at h

theorem seek_ne_empty {t : T} (h : t.Shape) (hne : t ≠ empty) (p : List Nib) :
    (T.seek t p).1 ≠ empty := by
  induction t generalizing p with
  | empty => exact absurd rfl hne
  | leaf s v => simp [T.seek]
  | ext s c ih =>
    cases p with
    | nil => simp
    | cons i p =>
      rw [T.seek]
      split
      · exact ih h.2.2 h.child_ne _
      · simp
  | branch cs v ih =>
    cases p with
    | nil => simp
    | cons i p =>
      rw [T.seek]
      split
      · simp
      · rename_i he
        exact ih i (h i) (fun e => he (isEmpty_iff.2 e)) _

/-- Why the walk stopped. -/
def Stuck : T → List Nib → Prop
  | empty, _ => False
  | leaf _ _, _ => True
  | ext q _, p => p = [] ∨ ¬ q <+: p
  | branch cs _, p => p = [] ∨ ∃ i r, p = i :: r ∧ cs i = empty

theorem seek_stuck {t : T} (h : t.Shape) (hne : t ≠ empty) (p : List Nib) :
    Stuck (T.seek t p).1 (T.seek t p).2 := by
  induction t generalizing p with
  | empty => exact absurd rfl hne
  | leaf s v => trivial
  | ext s c ih =>
    cases p with
    | nil => exact .inl rfl
    | cons i p =>
      rw [T.seek]
      split
      · exact ih h.2.2 h.child_ne _
      · rename_i he; exact .inr he
  | branch cs v ih =>
    cases p with
    | nil => exact .inl rfl
    | cons i p =>
      rw [T.seek]
      split
      · rename_i he
        exact .inr ⟨i, p, rfl, isEmpty_iff.1 he⟩
      · rename_i he
        exact ih i (h i) (fun e => he (isEmpty_iff.2 e)) _

/-! ### The walkers of the model -/

/-- Result of `_get` where the walk stopped. -/
def found : T → List Nib → Py T
  | t, [] => .ok t
  | leaf q v, p => if q = p then .ok (leaf q v) else .error .keyNotFound
  | ext _ _, _ => .error .extensionPath
  | branch _ _, _ => .error .branchPath
  | empty, _ => .error .keyError

theorem drop_len {q p : List Nib} {f : Nat} (hq : q ≠ []) (hpre : q <+: p) (hf : p.length < f + 1) :
    (p.drop q.length).length < f := by
  rw [List.length_drop]
  have : 0 < q.length := List.length_pos_iff.2 hq
  have := hpre.length_le
  omega

theorem getAux_run {E : Env} {kv : Dict Bytes} (f : Nat) {t : T} (hsh : t.Shape) (hne : t ≠ empty)
    (hs : Stored E kv t) {path : NibblePath} (hp : path.WF) (hf : path.nibs.length < f) :
    match found (T.seek t path.nibs).1 (T.seek t path.nibs).2 with
    | .error e => MPT.getAux kv f (ref E t) path = .error e
    | .ok x => ∃ n, MPT.getAux kv f (ref E t) path = .ok n ∧ Rep E x n := by
  induction f generalizing t path with
  | zero => omega
  | succ f ih =>
    obtain ⟨n, hn, hrep⟩ := getNode_ref hs hne
    unfold MPT.getAux
    rw [hn, NibblePath.len_spec hp]
    simp only [Except.bind_ok']
    cases hpn : path.nibs with
    | nil => simp only [seek_nil, found]; exact ⟨n, by simp, hrep⟩
    | cons i p =>
      rw [if_neg (by simp)]
      cases t with
      | empty => exact absurd rfl hne
      | leaf q v =>
        cases n <;> simp only [Rep] at hrep
        rename_i np d
        obtain ⟨h1, rfl, rfl⟩ := hrep
        simp only [T.seek, found, NibblePath.eq_spec h1 hp, hpn, Except.bind_ok']
        split
        · rename_i h
          split at h
          · simp at h
          · rename_i hh; simp [hh]; simpa using h
        · rename_i h
          split at h
          · rename_i hh
            simp only [Except.ok.injEq] at h
            subst h
            exact ⟨.leaf np d, by simp [hh], h1, rfl, rfl⟩
          · simp at h
      | ext q c =>
        cases n <;> simp only [Rep] at hrep
        rename_i np nr
        obtain ⟨h1, rfl, rfl⟩ := hrep
        simp only [T.seek, NibblePath.startsWith_spec hp h1, hpn, Except.bind_ok']
        by_cases hpre : np.nibs <+: i :: p
        · have hpre' := hpre
          rw [← hpn] at hpre'
          simp only [hpre, decide_true, if_true, NibblePath.len_spec h1, Except.bind_ok']
          have := ih hsh.2.2 hsh.child_ne hs.2 (NibblePath.consume_WF hp hpre'.length_le)
            (by rw [NibblePath.consume_nibs]; exact drop_len hsh.1 hpre' hf)
          rwa [NibblePath.consume_nibs, hpn] at this
        · simp [hpre, found]
      | branch cs v =>
        cases n <;> simp only [Rep] at hrep
        rename_i bs d
        obtain ⟨rfl, rfl⟩ := hrep
        simp only [T.seek, NibblePath.at_zero hpn, Except.bind_ok', refs_get, ref_length_pos]
        obtain ⟨hw, hc⟩ := nibs_cons_consume hp hpn
        by_cases he : (cs i).isEmpty = true
        · simp [he, found]
        · simp only [he, if_true]
          have := ih (hsh i) (fun e => he (isEmpty_iff.2 e)) (hs.2 i) hw
            (by rw [hc]; rw [hpn] at hf; simp at hf; omega)
          rwa [hc] at this

theorem containsAux_run {E : Env} {kv : Dict Bytes} (f : Nat) {t : T} (hsh : t.Shape) (hne : t ≠ empty)
    (hs : Stored E kv t) {path : NibblePath} (hp : path.WF) (hf : path.nibs.length < f) :
    ∃ n path', MPT.containsAux false kv f (ref E t) path = .ok (some n, path') ∧
      Rep E (T.seek t path.nibs).1 n ∧ path'.WF ∧ path'.nibs = (T.seek t path.nibs).2 := by
  induction f generalizing t path with
  | zero => omega
  | succ f ih =>
    obtain ⟨n, hn, hrep⟩ := getNode_ref hs hne
    unfold MPT.containsAux
    rw [hn, NibblePath.len_spec hp]
    simp only [Except.bind_ok', Bool.false_eq_true, if_false]
    cases hpn : path.nibs with
    | nil => simp only [seek_nil]; exact ⟨n, path, by simp, hrep, hp, hpn⟩
    | cons i p =>
      rw [if_neg (by simp)]
      cases t with
      | empty => exact absurd rfl hne
      | leaf q v =>
        cases n <;> simp only [Rep] at hrep
        rename_i np d
        exact ⟨.leaf np d, path, by simp, hrep, hp, hpn⟩
      | ext q c =>
        cases n <;> simp only [Rep] at hrep
        rename_i np nr
        obtain ⟨h1, rfl, rfl⟩ := hrep
        simp only [T.seek, NibblePath.startsWith_spec hp h1, hpn, Except.bind_ok']
        by_cases hpre : np.nibs <+: i :: p
        · have hpre' := hpre
          rw [← hpn] at hpre'
          simp only [hpre, decide_true, if_true, NibblePath.len_spec h1, Except.bind_ok']
          have := ih hsh.2.2 hsh.child_ne hs.2 (NibblePath.consume_WF hp hpre'.length_le)
            (by rw [NibblePath.consume_nibs]; exact drop_len hsh.1 hpre' hf)
          rwa [NibblePath.consume_nibs, hpn] at this
        · exact ⟨.ext np (ref E c), path, by simp [hpre], by simp [hpre, Rep, h1], hp, by simp [hpre, hpn]⟩
      | branch cs v =>
        cases n <;> simp only [Rep] at hrep
        rename_i bs d
        obtain ⟨rfl, rfl⟩ := hrep
        simp only [T.seek, NibblePath.at_zero hpn, Except.bind_ok', refs_get, ref_length_pos]
        obtain ⟨hw, hc⟩ := nibs_cons_consume hp hpn
        by_cases he : (cs i).isEmpty = true
        · exact ⟨.branch (refs E cs) d, path, by simp [he], by simp [he, Rep], hp, by simp [he, hpn]⟩
        · simp only [he, if_true]
          have := ih (hsh i) (fun e => he (isEmpty_iff.2 e)) (hs.2 i) hw
            (by rw [hc]; rw [hpn] at hf; simp at hf; omega)
          rwa [hc] at this

end T
end Pymt
