import Verif.Lemmas.Stop
import Verif.Spec.ToyStop
import Verif.Lemmas.Closed

/-!
# Properties C62, C63: what exactly happens for an absent key

`pathContents`, `Stop`, `Lone`, `Fork` (`Verif/Spec/Stop.lean`) are conditions on contents.
-/

namespace Pymt
namespace Props

/-! ### C62: the exception for an absent key -/

/-- The full statement of C62: `get` and `delete` of an absent key raise KeyError, as their documentation
says (`/repo/src/pymt/mpt.py:155-158, 246-250`). -/
def C62 : Prop := ∀ (E : Env) (secure : Bool) (ops : List Op) (k : Bytes), Valid E secure ops [k] →
  contents ops k = none → (MPT.after E secure ops).get E k = .error .keyError ∧
    (MPT.delete E k (MPT.after E secure ops)).1 = .error .keyError

/-- C62 is false: with the key `12` present, `get(13)` raises KeyNotFoundError and `delete(13)` raises
LeafPathError; neither is a KeyError. -/
theorem C62_false : ¬ C62 := by
  intro h
  have hv : Valid realEnv false [.update [0x12] [1]] [[0x13]] := valid_of (by decide +kernel)
  have := (h _ _ _ _ hv (by decide +kernel)).1
  revert this
  decide +kernel

theorem at_after {E : Env} {secure : Bool} {ops : List Op} {k : Bytes} (h : Valid E secure ops [k])
    (hne : ∃ k', contents ops k' ≠ none) :
    ∃ a b, T.Holds E (MPT.after E secure ops) a ∧ a.Canon ∧ a ≠ .empty ∧
      (∀ k, T.lookup a (toNibs k) = pathContents E secure ops k) ∧
      Stop (pathContents E secure ops) (toNibs (effective E secure k)) b ∧
      At (pathContents E secure ops) (toNibs (effective E secure k)) b
        (T.seek a (toNibs (effective E secure k))) := by
  obtain ⟨a, h1, h2, h3, h4⟩ := h.inv
  have hn : a ≠ .empty := (nonempty_iff h h2 h3 h4).1 hne
  obtain ⟨b, hb, ha⟩ := at_stop (m := pathContents E secure ops) h2 hn h3 h4 (toNibs (effective E secure k))
  exact ⟨a, b, h1, h2, hn, h3, hb, ha⟩

/-- The stopping point exists and is unique as soon as some key is present. -/
theorem C62_stop {E : Env} {secure : Bool} {ops : List Op} {k : Bytes} (h : Valid E secure ops [k])
    (hne : ∃ k', contents ops k' ≠ none) :
    ∃ b, Stop (pathContents E secure ops) (toNibs (effective E secure k)) b ∧
      ∀ b', Stop (pathContents E secure ops) (toNibs (effective E secure k)) b' → b' = b := by
  obtain ⟨_, b, _, _, _, _, hb, _⟩ := at_after h hne
  exact ⟨b, hb, fun b' hb' => hb.unique hb'⟩

theorem absent_path {E : Env} {secure : Bool} {ops : List Op} {k : Bytes} (h : Valid E secure ops [k])
    (hk : contents ops k = none) : pathContents E secure ops (effective E secure k) = none :=
  (eff_eq h.keys (by simp)).trans hk

/-- C62 in part, `get` exactly: which exception is raised for an absent key, or what is returned (the
last case of `C03_false`), by the point `b` where the key leaves the present ones.
Missing: that it is a KeyError (it never is). -/
theorem C62_get_partial {E : Env} {secure : Bool} {ops : List Op} {k : Bytes} {b : List Nib}
    (h : Valid E secure ops [k]) (hk : contents ops k = none)
    (hb : Stop (pathContents E secure ops) (toNibs (effective E secure k)) b) :
    (∀ k' v, Lone (pathContents E secure ops) b k' → pathContents E secure ops k' = some v →
      (MPT.after E secure ops).get E k =
        if toNibs (effective E secure k) = b then .ok v else .error .keyNotFound) ∧
    (Fork (pathContents E secure ops) b → (MPT.after E secure ops).get E k =
        if toNibs (effective E secure k) = b then .ok [] else .error .branchPath) ∧
    ((∀ k', ¬ Lone (pathContents E secure ops) b k') → ¬ Fork (pathContents E secure ops) b →
      (MPT.after E secure ops).get E k =
        .error (if toNibs (effective E secure k) = b then .attributeError else .extensionPath)) := by
  have hk' := absent_path h hk
  have hne : ∃ k', contents ops k' ≠ none := by
    obtain ⟨⟨e, he, _⟩, _⟩ := hb.2.1
    obtain ⟨k0, h0, _⟩ := (eff_present h).1 he
    exact ⟨k0, h0⟩
  obtain ⟨a, b', h1, h2, hn, h3, hb', hat⟩ := at_after h hne
  have := hb'.unique hb
  subst this
  have hg := h1.get hn (key := k) (fits_nibs (h.fit (by simp)))
  rw [keyOf_eq, after_secure, show (if secure = true then E.keccak k else k) = effective E secure k from rfl] at hg
  rw [hg]
  generalize hp : toNibs (effective E secure k) = p at *
  generalize T.seek a p = s at *
  have hnil : ∀ {r : List Nib}, p = b ++ r → (p = b ↔ r = []) := by
    rintro r rfl; simp
  cases hat with
  | @lone q v r k1 g1 g2 g3 g4 =>
    refine ⟨fun k' w hl hw => ?_, fun hf => ?_, fun hl => absurd g4 (hl _)⟩
    · have : k1 = k' := hl.2.2 k1 g4.1 g4.2.1
      subst this
      rw [g3] at hw
      cases hw
      cases r with
      | nil => simp [T.found, T.dataOf, (hnil g1).2 rfl]
      | cons i r =>
        have hq : q ≠ i :: r := by
          rintro rfl
          have : k1 = effective E secure k := toNibs_inj (by rw [g2, hp, g1])
          rw [this, hk'] at g3
          simp at g3
        have hpb : p ≠ b := by rw [ne_eq, hnil g1]; simp
        simp [T.found, hq, hpb]
    · obtain ⟨k2, k3, f1, f2, f3, f4, f5, _⟩ := hf
      exact absurd ((g4.2.2 k2 f1 f4).trans (g4.2.2 k3 f2 f5).symm) f3
  | @fork cs v r g1 g2 g3 g4 =>
    refine ⟨fun k' w hl hw => ?_, fun hf => ?_, fun _ hnf => absurd g2 hnf⟩
    · obtain ⟨k2, k3, f1, f2, f3, f4, f5, _⟩ := g2
      exact absurd ((hl.2.2 k2 f1 f4).trans (hl.2.2 k3 f2 f5).symm) f3
    · cases r with
      | nil =>
        have hpb := (hnil g1).2 rfl
        have := g3 (effective E secure k) (by rw [hp, hpb])
        rw [hk'] at this
        have hv : v = [] := by
          by_cases hv : v = []
          · exact hv
          · simp [hv] at this
        simp [T.found, T.dataOf, hpb, hv]
      | cons i r =>
        have hpb : p ≠ b := by rw [ne_eq, hnil g1]; simp
        simp [T.found, hpb]
  | @run q c r g1 g2 g3 g4 =>
    refine ⟨fun k' w hl hw => absurd hl (g4 _), fun hf => absurd hf g2, fun _ _ => ?_⟩
    cases r with
    | nil => simp [T.found, T.dataOf, (hnil g1).2 rfl]
    | cons i r =>
      have hpb : p ≠ b := by rw [ne_eq, hnil g1]; simp
      simp [T.found, hpb]

/-- C62 in part, `delete` exactly: the exception, and that nothing changes.
Missing: that it is a KeyError (it never is). -/
theorem C62_delete_partial {E : Env} {secure : Bool} {ops : List Op} {k : Bytes} {b : List Nib}
    (h : Valid E secure ops [k]) (hk : contents ops k = none)
    (hb : Stop (pathContents E secure ops) (toNibs (effective E secure k)) b) :
    (∀ k', Lone (pathContents E secure ops) b k' →
      MPT.delete E k (MPT.after E secure ops) = (.error .leafPath, MPT.after E secure ops)) ∧
    (Fork (pathContents E secure ops) b →
      MPT.delete E k (MPT.after E secure ops) =
        (.error (if toNibs (effective E secure k) = b then .assertion else .branchPath), MPT.after E secure ops)) ∧
    ((∀ k', ¬ Lone (pathContents E secure ops) b k') → ¬ Fork (pathContents E secure ops) b →
      MPT.delete E k (MPT.after E secure ops) = (.error .extensionPath, MPT.after E secure ops)) := by
  have hk' := absent_path h hk
  have hne : ∃ k', contents ops k' ≠ none := by
    obtain ⟨⟨e, he, _⟩, _⟩ := hb.2.1
    obtain ⟨k0, h0, _⟩ := (eff_present h).1 he
    exact ⟨k0, h0⟩
  obtain ⟨a, b', h1, h2, hn, h3, hb', hat⟩ := at_after h hne
  have := hb'.unique hb
  subst this
  have hr : T.remove a (toNibs (effective E secure k)) = _ :=
    T.remove_err h2 hn ((h3 _).trans hk')
  have hd := h1.delete_fail (key := k) hn h.log (fits_nibs (h.fit (by simp)))
    (by rw [keyOf_eq, after_secure]; exact hr)
  rw [hd]
  generalize hp : toNibs (effective E secure k) = p at *
  generalize T.seek a p = s at *
  have hnil : ∀ {r : List Nib}, p = b ++ r → (p = b ↔ r = []) := by
    rintro r rfl; simp
  cases hat with
  | @lone q v r k1 g1 g2 g3 g4 =>
    refine ⟨fun _ _ => rfl, fun hf => ?_, fun hl => absurd g4 (hl _)⟩
    obtain ⟨k2, k3, f1, f2, f3, f4, f5, _⟩ := hf
    exact absurd ((g4.2.2 k2 f1 f4).trans (g4.2.2 k3 f2 f5).symm) f3
  | @fork cs v r g1 g2 g3 g4 =>
    refine ⟨fun k' hl => ?_, fun hf => ?_, fun _ hnf => absurd g2 hnf⟩
    · obtain ⟨k2, k3, f1, f2, f3, f4, f5, _⟩ := g2
      exact absurd ((hl.2.2 k2 f1 f4).trans (hl.2.2 k3 f2 f5).symm) f3
    · cases r with
      | nil => simp [T.delErr, (hnil g1).2 rfl]
      | cons i r =>
        have hpb : p ≠ b := by rw [ne_eq, hnil g1]; simp
        simp [T.delErr, hpb]
  | @run q c r g1 g2 g3 g4 =>
    exact ⟨fun k' hl => absurd hl (g4 _), fun hf => absurd hf g2, fun _ _ => rfl⟩

/-- C62 never holds: as soon as some key is present, neither call raises KeyError for an absent one. -/
theorem C62_never {E : Env} {secure : Bool} {ops : List Op} {k : Bytes} (h : Valid E secure ops [k])
    (hk : contents ops k = none) (hne : ∃ k', contents ops k' ≠ none) :
    (MPT.after E secure ops).get E k ≠ .error .keyError ∧
    (MPT.delete E k (MPT.after E secure ops)).1 ≠ .error .keyError := by
  obtain ⟨b, hb, _⟩ := C62_stop h hne
  obtain ⟨g1, g2, g3⟩ := C62_get_partial h hk hb
  obtain ⟨d1, d2, d3⟩ := C62_delete_partial h hk hb
  by_cases hl : ∃ k', Lone (pathContents E secure ops) b k'
  · obtain ⟨k', hl⟩ := hl
    cases hv : pathContents E secure ops k' with
    | none => exact absurd hv hl.1
    | some v =>
      rw [g1 k' v hl hv, d1 k' hl]
      constructor
      · split <;> simp
      · simp
  · by_cases hf : Fork (pathContents E secure ops) b
    · rw [g2 hf, d2 hf]
      constructor
      · split <;> simp
      · split <;> simp
    · rw [g3 (fun k' h => hl ⟨k', h⟩) hf, d3 (fun k' h => hl ⟨k', h⟩) hf]
      constructor
      · split <;> simp
      · simp

/-- Keys that share beginnings: `12 34`, `13 45`, `13 46` and `77`. -/
def lookupOps : List Op :=
  [.update [0x12, 0x34] [1], .update [0x13, 0x45] [2], .update [0x77] (bigValue 3), .update [0x13, 0x46] [4]]

/-- All cases occur: beside a single key (`12 35`), at a single key (`12`), where keys part (`99`, and
the empty key), where keys run together (`13 55`) and right before that (`13`). -/
example : Valid toyEnv false lookupOps [[0x12, 0x35]] ∧ contents lookupOps [0x12, 0x35] = none ∧
    Stop (pathContents toyEnv false lookupOps) (toNibs [0x12, 0x35]) [1, 2] ∧
    Lone (pathContents toyEnv false lookupOps) [1, 2] [0x12, 0x34] ∧
    pathContents toyEnv false lookupOps [0x12, 0x34] = some [1] :=
  ⟨valid_of (by decide +kernel), by decide +kernel, stop_dec (fun _ => mem_pathsOf) (by decide +kernel),
   (lone_dec (fun _ => mem_pathsOf) _ _).2 (by decide +kernel), by decide +kernel⟩
example : Valid toyEnv false lookupOps [[0x12]] ∧ contents lookupOps [0x12] = none ∧
    Stop (pathContents toyEnv false lookupOps) (toNibs [0x12]) [1, 2] ∧
    (MPT.after toyEnv false lookupOps).get toyEnv [0x12] = .ok [1] :=
  ⟨valid_of (by decide +kernel), by decide +kernel, stop_dec (fun _ => mem_pathsOf) (by decide +kernel),
   by decide +kernel⟩
example : Valid toyEnv false lookupOps [[0x99]] ∧ contents lookupOps [0x99] = none ∧
    Stop (pathContents toyEnv false lookupOps) (toNibs [0x99]) [] ∧
    Fork (pathContents toyEnv false lookupOps) [] ∧
    (MPT.after toyEnv false lookupOps).get toyEnv [0x99] = .error .branchPath ∧
    (MPT.after toyEnv false lookupOps).get toyEnv [] = .ok [] :=
  ⟨valid_of (by decide +kernel), by decide +kernel, stop_dec (fun _ => mem_pathsOf) (by decide +kernel),
   (fork_dec (fun _ => mem_pathsOf) _).2 (by decide +kernel), by decide +kernel, by decide +kernel⟩
example : Valid toyEnv false lookupOps [[0x13, 0x55]] ∧ contents lookupOps [0x13, 0x55] = none ∧
    Stop (pathContents toyEnv false lookupOps) (toNibs [0x13, 0x55]) [1, 3] ∧
    ¬ Fork (pathContents toyEnv false lookupOps) [1, 3] ∧
    (∀ k', ¬ Lone (pathContents toyEnv false lookupOps) [1, 3] k') ∧
    (MPT.after toyEnv false lookupOps).get toyEnv [0x13, 0x55] = .error .extensionPath ∧
    (MPT.after toyEnv false lookupOps).get toyEnv [0x13] = .error .attributeError := by
  refine ⟨valid_of (by decide +kernel), by decide +kernel, stop_dec (fun _ => mem_pathsOf) (by decide +kernel),
    ?_, ?_, by decide +kernel, by decide +kernel⟩
  · rw [fork_dec (fun _ => mem_pathsOf)]; decide +kernel
  · intro k' h
    have h1 := h.2.2 [0x13, 0x45] (by decide +kernel) (by decide +kernel)
    have h2 := h.2.2 [0x13, 0x46] (by decide +kernel) (by decide +kernel)
    rw [← h1] at h2
    revert h2; decide
/-- In secure mode. -/
example : Valid toyEnv true secureOps [[0x12, 0x34]] ∧ contents secureOps [0x12, 0x34] = none ∧
    (∃ k', contents secureOps k' ≠ none) :=
  ⟨valid_of (by decide +kernel), by decide +kernel, [0x12], by decide +kernel⟩

/-! #### Tries without keys -/

/-- A call that succeeds leaves a root that is short or the hash of something written. -/
theorem exec_root {E : Env} {t : MPT} (h : Sound E t) (op : Op)
    (hs : Sizes (MPT.exec E op t).2.store.written) {r : Bytes}
    (hr : (MPT.exec E op t).2.root = some r) :
    t.root = some r ∧ (MPT.exec E op t).1 ≠ .ok () ∨ OkRef E (MPT.exec E op t).2.store.written r := by
  have hroot : t.root.getD [] = emptyHash E ∨ OkRef E t.store.written (t.root.getD []) := by
    cases hr : t.root with
    | none => exact .inr (OkRef.nil E _)
    | some r => exact h.root r hr
  cases op with
  | update k v =>
    have hk := Keeps.updateAux (v := v) (path := ⟨t.keyOf E k, 0⟩) E.limit hroot t.store h.good h.chain
      (List.prefix_refl _)
    simp only [MPT.exec] at hs hr ⊢
    rw [T.update_eq] at hs hr ⊢
    revert hk hs hr
    cases MPT.updateAux E E.limit (t.root.getD []) ⟨t.keyOf E k, 0⟩ v t.store with
    | mk x st =>
      intro hs hr hk
      cases x with
      | error e => exact .inl ⟨hr, by simp⟩
      | ok y =>
        obtain ⟨_, _, _, k4⟩ := hk hs
        simp only [Option.some.injEq] at hr
        subst hr
        exact .inr (k4 y rfl)
  | delete k =>
    simp only [MPT.exec] at hs hr ⊢
    rw [T.delete_eq] at hs hr ⊢
    by_cases hno : t.noRoot E = true
    · rw [if_pos hno] at hr ⊢
      exact .inl ⟨hr, by simp⟩
    · rw [if_neg hno] at hs hr ⊢
      have hroot : OkRef E t.store.written (t.root.getD []) := by
        rcases hroot with h0 | h0
        · simp only [MPT.noRoot, Bool.or_eq_true, beq_iff_eq, not_or] at hno
          cases hr : t.root with
          | none => exact absurd hr hno.1
          | some r => rw [hr] at h0 hno; simp only [Option.getD_some] at h0; exact absurd (by rw [h0]) hno.2
        · exact h0
      have hk := Keeps.deleteAux (path := ⟨t.keyOf E k, 0⟩) E.limit hroot t.store h.good h.chain
        (List.prefix_refl _)
      revert hk hs hr
      cases MPT.deleteAux E E.limit (t.root.getD []) ⟨t.keyOf E k, 0⟩ t.store with
      | mk x st =>
        intro hs hr hk
        cases x with
        | error e => exact .inl ⟨hr, by simp⟩
        | ok a =>
          obtain ⟨_, _, _, k4⟩ := hk hs
          have := k4 a rfl
          cases a with
          | deleted => simp [T.actRoot] at hr
          | updated r =>
            simp only [T.actRoot, Option.some.injEq] at hr
            subst hr; exact .inr this
          | useless _ r =>
            simp only [T.actRoot, Option.some.injEq] at hr
            subst hr; exact .inr this

theorem Valid.sound {E : Env} {secure : Bool} {ops : List Op} {ks : List Bytes} (h : Valid E secure ops ks) :
    Sound E (MPT.after E secure ops) := (Sound.new E secure).run ops h.log.size

/-- Such a reference is not the hash of the empty node. -/
theorem okRef_ne {E : Env} {t : MPT} (h : Sound E t) (hl : LogOk E t.store.written) {r : Bytes}
    (hr : OkRef E t.store.written r) : r ≠ emptyHash E := by
  rintro rfl
  obtain ⟨w, hw, he⟩ := hr.2 (E.keccak_len _)
  have := hl.coll _ (List.mem_cons_of_mem _ hw) _ List.mem_cons_self he
  have h32 := (h.chain.mem hw).1
  rw [this] at h32
  revert h32
  decide

/-- After an update the root is never the hash of the empty node again. -/
theorem root_ne_empty {E : Env} {secure : Bool} : ∀ (n : Nat) {ops : List Op}, ops.length = n →
    Valid E secure ops [] → (∃ k v, Op.update k v ∈ ops) →
    (MPT.after E secure ops).root ≠ some (emptyHash E) := by
  intro n
  induction n with
  | zero =>
    intro ops hn _ hu
    rw [List.length_eq_zero_iff] at hn
    subst hn
    obtain ⟨k, v, h⟩ := hu; simp at h
  | succ n ih =>
    intro ops hn h hu hr
    rcases List.eq_nil_or_concat ops with rfl | ⟨ops', op, rfl⟩
    · simp at hn
    rw [List.concat_eq_append] at *
    have hcut := h.cut
    have hsd := Valid.sound hcut
    have hsd' := Valid.sound h
    have hlog := h.log
    have hsz := h.log.size
    have hrun : MPT.after E secure (ops' ++ [op]) = (MPT.exec E op (MPT.after E secure ops')).2 := by
      rw [after_append]; rfl
    have hlog' := h.log
    rw [hrun] at hr hsz hlog hsd'
    rcases exec_root hsd op hsz hr with ⟨h1, h2⟩ | h1
    · by_cases hup : ∃ k v, op = .update k v
      · obtain ⟨k, v, rfl⟩ := hup
        have hc := h.clean (List.prefix_refl _)
        rw [eff, List.map_append, contents_append] at hc
        refine h2 (hcut.inv.update ?_ (hcut.fit (by simp [Op.key])) hlog).1
        rw [keyOf_eq, after_secure]
        exact hc
      · refine ih (by simpa using hn) (hcut.subset (by simp)) ?_ h1
        obtain ⟨k, v, hm⟩ := hu
        rcases List.mem_append.1 hm with hm | hm
        · exact ⟨k, v, hm⟩
        · simp only [List.mem_singleton] at hm
          exact absurd ⟨k, v, hm.symm⟩ hup
    · exact okRef_ne hsd' hlog h1 rfl

theorem after_deletes {E : Env} {secure : Bool} {ops : List Op} (h : ∀ op ∈ ops, ∃ k, op = .delete k) :
    MPT.after E secure ops = MPT.new E secure := by
  have hrec : ∀ l : List Op, (∀ op ∈ l, ∃ k, op = .delete k) →
      MPT.run E l (MPT.new E secure) = MPT.new E secure := by
    intro l
    induction l with
    | nil => intro _; rfl
    | cons op l ih =>
      intro hl
      obtain ⟨k, rfl⟩ := hl op (by simp)
      have : (MPT.exec E (.delete k) (MPT.new E secure)).2 = MPT.new E secure := by
        simp only [MPT.exec]
        rw [T.delete_eq, if_pos (by simp [MPT.noRoot, MPT.new, MPT.init])]
      show MPT.run E l (MPT.exec E (.delete k) (MPT.new E secure)).2 = _
      rw [this]
      exact ih fun op ho => hl op (List.mem_cons_of_mem _ ho)
  exact hrec ops h

/-- C62, tries without keys: `delete` raises ValueError; `get` raises KeyError on a trie that never was
written to, and ValueError on one that was emptied. -/
theorem C62_empty {E : Env} {secure : Bool} {ops : List Op} {k : Bytes} (h : Valid E secure ops [k])
    (hc : ∀ k, contents ops k = none) (hlim : 0 < E.limit) :
    MPT.delete E k (MPT.after E secure ops) = (.error .valueError, MPT.after E secure ops) ∧
    ((∃ k v, Op.update k v ∈ ops) → (MPT.after E secure ops).get E k = .error .valueError) ∧
    (¬ (∃ k v, Op.update k v ∈ ops) → (MPT.after E secure ops).get E k = .error .keyError) := by
  obtain ⟨a, h1, h2, h3, h4⟩ := h.inv
  have hn : a = .empty := Classical.byContradiction fun hne => by
    obtain ⟨k', hk'⟩ := (nonempty_iff h h2 h3 h4).2 hne
    exact hk' (hc k')
  subst hn
  refine ⟨h1.delete_empty h.log k, fun hu => ?_, fun hu => ?_⟩
  · have := root_ne_empty _ rfl (h.subset (by simp)) hu
    rcases h1.root with ⟨_, h0 | h0⟩ | ⟨h0, _⟩
    · unfold MPT.get MPT.rootFalsy
      simp [h0]
    · exact absurd h0 this
    · exact absurd rfl h0
  · have : MPT.after E secure ops = MPT.new E secure := by
      refine after_deletes fun op ho => ?_
      cases op with
      | update k v => exact absurd ⟨k, v, ho⟩ hu
      | delete k => exact ⟨k, rfl⟩
    rw [this]
    obtain ⟨f, hf⟩ : ∃ f, E.limit = f + 1 := ⟨E.limit - 1, by omega⟩
    have h32 : (emptyHash E).length = 32 := E.keccak_len _
    have h0 := T.emptyHash_ne_nil E
    simp [MPT.get, MPT.rootFalsy, MPT.new, MPT.init, h0, hf, MPT.getAux, MPT.getNode, h32, dgetItem, dget, Store.empty]

example : Valid toyEnv false [.update [0x12] [1], .delete [0x13], .delete [0x12]] [[0x12]] ∧
    (∀ k, contents [.update [0x12] [1], .delete [0x13], .delete [0x12]] k = none) ∧ 0 < toyEnv.limit ∧
    Valid toyEnv false [.delete [0x13]] [[0x12]] ∧ ∀ k, contents [.delete [0x13]] k = none := by
  refine ⟨valid_of (by decide +kernel), fun k => ?_, by decide, valid_of (by decide +kernel), fun k => ?_⟩
  · simp only [contents, contentsFrom, List.foldl_cons, List.foldl_nil, Op.apply]
    by_cases h : k = [0x12] <;> simp [h]
  · simp [contents, contentsFrom, Op.apply]

/-- C49 exactly: `root()` of a trie without keys is None if there ever was an update, and the hash of the
empty node otherwise. -/
theorem C49_exact {E : Env} {secure : Bool} {ops : List Op} (h : Valid E secure ops [])
    (hc : ∀ k, contents ops k = none) :
    ((MPT.after E secure ops).root = none ↔ ∃ k v, Op.update k v ∈ ops) ∧
    ((MPT.after E secure ops).root = some (emptyHash E) ↔ ¬ ∃ k v, Op.update k v ∈ ops) := by
  have hone : (MPT.after E secure ops).root = none ∨ (MPT.after E secure ops).root = some (emptyHash E) := by
    obtain ⟨a, h1, h2, h3, h4⟩ := h.inv
    rcases h1.root with ⟨_, h0⟩ | ⟨hne, _⟩
    · exact h0
    · obtain ⟨k', hk'⟩ := (nonempty_iff h h2 h3 h4).2 hne
      exact absurd (hc k') hk'
  have hno : (¬ ∃ k v, Op.update k v ∈ ops) → (MPT.after E secure ops).root = some (emptyHash E) := by
    intro hu
    rw [after_deletes (fun op ho => ?_)]
    · rfl
    · cases op with
      | update k v => exact absurd ⟨k, v, ho⟩ hu
      | delete k => exact ⟨k, rfl⟩
  by_cases hu : ∃ k v, Op.update k v ∈ ops
  · have := root_ne_empty _ rfl h hu
    rcases hone with h0 | h0
    · exact ⟨⟨fun _ => hu, fun _ => h0⟩, ⟨fun h => absurd h this, fun h => absurd hu h⟩⟩
    · exact absurd h0 this
  · have h0 := hno hu
    refine ⟨⟨fun h => ?_, fun h => absurd h hu⟩, ⟨fun _ => hu, fun _ => h0⟩⟩
    rw [h0] at h
    simp at h

/-! ### C63: no inclusion proof for an absent key -/

/-- The full statement of C63: `get_proof_of_inclusion` of an absent key raises. -/
def C63 : Prop := ∀ (E : Env) (secure : Bool) (ops : List Op) (k now : Bytes), Valid E secure ops [k] →
  contents ops k = none → ∃ e, (MPT.after E secure ops).getPoi E now k = .error e

/-- C63 is false: with keys `12 34` and `13 45`, a proof of inclusion of `12` is made. -/
theorem C63_false : ¬ C63 := by
  intro h
  have hv : Valid realEnv false [.update [0x12, 0x34] [1], .update [0x13, 0x45] [2]] [[0x12]] :=
    valid_of (by decide +kernel)
  obtain ⟨e, he⟩ := h _ _ _ _ [] hv (by decide +kernel)
  have hok : ((MPT.after realEnv false [.update [0x12, 0x34] [1], .update [0x13, 0x45] [2]]).getPoi realEnv []
      [0x12]).toOption.isSome = true := by decide +kernel
  rw [he] at hok
  simp [Except.toOption] at hok

/-- C63 in part, exactly: a proof for an absent key is made if and only if the key ends where it leaves
the present ones; otherwise which exception is raised.  Missing: that none is made in the first case. -/
theorem C63_poi_partial {E : Env} {secure : Bool} {ops : List Op} {k now : Bytes} {b : List Nib}
    (h : Valid E secure ops [k]) (hk : contents ops k = none)
    (hb : Stop (pathContents E secure ops) (toNibs (effective E secure k)) b) :
    (toNibs (effective E secure k) = b → ∃ p, (MPT.after E secure ops).getPoi E now k = .ok p) ∧
    (toNibs (effective E secure k) ≠ b →
      (∀ k', Lone (pathContents E secure ops) b k' →
        (MPT.after E secure ops).getPoi E now k = .error .leafPath) ∧
      (Fork (pathContents E secure ops) b → (MPT.after E secure ops).getPoi E now k = .error .branchPath) ∧
      ((∀ k', ¬ Lone (pathContents E secure ops) b k') → ¬ Fork (pathContents E secure ops) b →
        (MPT.after E secure ops).getPoi E now k = .error .extensionPath)) := by
  have hk' := absent_path h hk
  have hne : ∃ k', contents ops k' ≠ none := by
    obtain ⟨⟨e, he, _⟩, _⟩ := hb.2.1
    obtain ⟨k0, h0, _⟩ := (eff_present h).1 he
    exact ⟨k0, h0⟩
  obtain ⟨a, b', h1, h2, hn, h3, hb', hat⟩ := at_after h hne
  have := hb'.unique hb
  subst this
  have hg := h1.getPoi h.log hn (key := k) (now := now) (fits_nibs (h.fit (by simp)))
  rw [keyOf_eq, after_secure, show (if secure = true then E.keccak k else k) = effective E secure k from rfl] at hg
  rw [hg]
  clear hg
  generalize hp : toNibs (effective E secure k) = p at *
  generalize T.seek a p = s at *
  have hnil : ∀ {r : List Nib}, p = b ++ r → (p = b ↔ r = []) := by
    rintro r rfl; simp
  constructor
  · intro he
    have : ∃ x, T.foundP s.1 s.2 = .ok x := by
      cases hat with
      | lone k1 g1 => rw [(hnil g1).1 he]; exact ⟨_, rfl⟩
      | fork g1 => rw [(hnil g1).1 he]; exact ⟨_, rfl⟩
      | run g1 => rw [(hnil g1).1 he]; exact ⟨_, rfl⟩
    obtain ⟨x, hx⟩ := this
    rw [hx]
    exact ⟨_, rfl⟩
  · intro he
    cases hat with
    | @lone q v r k1 g1 g2 g3 g4 =>
      refine ⟨fun _ _ => ?_, fun hf => ?_, fun hl => absurd g4 (hl _)⟩
      · cases r with
        | nil => exact absurd ((hnil g1).2 rfl) he
        | cons i r =>
          have hq : q ≠ i :: r := by
            rintro rfl
            have : k1 = effective E secure k := toNibs_inj (by rw [g2, hp, g1])
            rw [this, hk'] at g3
            simp at g3
          simp [T.foundP, hq]
      · obtain ⟨k2, k3, f1, f2, f3, f4, f5, _⟩ := hf
        exact absurd ((g4.2.2 k2 f1 f4).trans (g4.2.2 k3 f2 f5).symm) f3
    | @fork cs v r g1 g2 g3 g4 =>
      refine ⟨fun k' hl => ?_, fun hf => ?_, fun _ hnf => absurd g2 hnf⟩
      · obtain ⟨k2, k3, f1, f2, f3, f4, f5, _⟩ := g2
        exact absurd ((hl.2.2 k2 f1 f4).trans (hl.2.2 k3 f2 f5).symm) f3
      · cases r with
        | nil => exact absurd ((hnil g1).2 rfl) he
        | cons i r => simp [T.foundP]
    | @run q c r g1 g2 g3 g4 =>
      refine ⟨fun k' hl => absurd hl (g4 _), fun hf => absurd hf g2, fun _ _ => ?_⟩
      cases r with
      | nil => exact absurd ((hnil g1).2 rfl) he
      | cons i r => simp [T.foundP]

/-- C63 holds in secure mode, where no path is a beginning of another. -/
theorem C63_secure {E : Env} {ops : List Op} {k now : Bytes} (h : Valid E true ops [k])
    (hk : contents ops k = none) : ∃ e, (MPT.after E true ops).getPoi E now k = .error e := by
  by_cases hne : ∃ k', contents ops k' ≠ none
  · obtain ⟨b, hb, _⟩ := C62_stop h hne
    obtain ⟨_, hp⟩ := C63_poi_partial (now := now) h hk hb
    have hpb : toNibs (effective E true k) ≠ b := by
      rintro rfl
      obtain ⟨⟨e, he, hpre⟩, _⟩ := hb.2.1
      have hpre := toNibs_prefix.1 hpre
      cases hv : pathContents E true ops e with
      | none => exact he hv
      | some v =>
        have : effective E true k = e := hpre.eq_of_length (by
          rw [eff_secure_len (E := E) (ops := ops) hv]; exact E.keccak_len _)
        rw [← this, absent_path h hk] at hv
        simp at hv
    obtain ⟨h1, h2, h3⟩ := hp hpb
    by_cases hl : ∃ k', Lone (pathContents E true ops) b k'
    · obtain ⟨k', hl⟩ := hl
      exact ⟨_, h1 k' hl⟩
    · by_cases hf : Fork (pathContents E true ops) b
      · exact ⟨_, h2 hf⟩
      · exact ⟨_, h3 (fun k' h => hl ⟨k', h⟩) hf⟩
  · obtain ⟨a, h1, h2, h3, h4⟩ := h.inv
    have hn : a = .empty := Classical.byContradiction fun hn => hne ((nonempty_iff h h2 h3 h4).2 hn)
    subst hn
    exact ⟨_, h1.getPoi_empty h.log now k⟩

/-- Both cases occur. -/
example : Valid toyEnv false lookupOps [[0x13]] ∧ contents lookupOps [0x13] = none ∧
    Stop (pathContents toyEnv false lookupOps) (toNibs [0x13]) (toNibs [0x13]) ∧
    Stop (pathContents toyEnv false lookupOps) (toNibs [0x12, 0x35]) [1, 2] ∧
    toNibs [0x12, 0x35] ≠ [1, 2] :=
  ⟨valid_of (by decide +kernel), by decide +kernel, stop_dec (fun _ => mem_pathsOf) (by decide +kernel),
   stop_dec (fun _ => mem_pathsOf) (by decide +kernel), by decide⟩
example : Valid toyEnv true secureOps [[0x12, 0x34]] ∧ contents secureOps [0x12, 0x34] = none :=
  ⟨valid_of (by decide +kernel), by decide +kernel⟩

end Props
end Pymt
