import Verif.Lemmas.EmptCrash
import Verif.Lemmas.Build

/-!
# Crashes inside calls on an `EMPT` (C82)
-/

namespace Pymt.Props

open EMPT

/-- The claim: when the process stops at any moment inside a call, an `EMPT` opened at the root from before the call,
over what the storages then hold, reads every value from before the call.  (For `MPT` this is C12.) -/
def C82 : Prop :=
  ∀ (E : Env) (secure : Bool) (ops : List EOp) (op : EOp) (n : Nat) (k : Bytes) (v : Value) (s : EMPT),
    EValid E secure (ops ++ [op]) [k] → econtents ops k = some v →
    EMPT.init E (crashedTrie E op (EMPT.after E secure ops) n) (crashedData E op (EMPT.after E secure ops) n)
      (EMPT.after E secure ops).trie.root secure = .ok s →
    s.get E k = .ok v

/-- The trie has the reference of the old value, but the value is already the new one. -/
theorem C82_false : ¬ C82 := by
  intro h
  have := h toyEnv false [.update [0x12] (.bytes [1])] (.update [0x12] (.bytes [2])) 2 [0x12] (.bytes [1])
    { trie := MPT.init toyEnv (crashedTrie toyEnv (.update [0x12] (.bytes [2]))
        (EMPT.after toyEnv false [.update [0x12] (.bytes [1])]) 2)
        (EMPT.after toyEnv false [.update [0x12] (.bytes [1])]).trie.root false,
      data := crashedData toyEnv (.update [0x12] (.bytes [2]))
        (EMPT.after toyEnv false [.update [0x12] (.bytes [1])]) 2 }
    (evalid_of (by decide +kernel)) (by decide +kernel) (by decide +kernel)
  revert this
  decide +kernel

/-- The writes listed are those of the call: after all of them, the storages are as when the call has returned. -/
theorem C82_writes (E : Env) (op : EOp) (s : EMPT) :
    crashedTrie E op s (writesOf E op s).length = (exec E op s).2.trie.store ∧
    crashedData E op s (writesOf E op s).length = (exec E op s).2.data := by
  refine ⟨crashedTrie_all E op s, ?_⟩
  cases op with
  | update k v =>
    rw [crashedData_update]
    by_cases h1 : (exec E (.update k v) s).1 = .ok ()
    · rw [if_pos ⟨h1, by simp [writesOf, h1]⟩]
      by_cases hs : v.storable
      · simp only [exec] at h1 ⊢
        rw [update_storable hs] at h1 ⊢
        revert h1
        cases MPT.update E k (refOf E k v) s.trie with
        | mk r t => cases r <;> simp
      · obtain ⟨e, he⟩ := update_other (E := E) (k := k) (by simpa using hs) s
        simp [exec, he] at h1
    · rw [if_neg (fun h => h1 h.1)]
      by_cases hs : v.storable
      · simp only [exec] at h1 ⊢
        rw [update_storable hs] at h1 ⊢
        revert h1
        cases MPT.update E k (refOf E k v) s.trie with
        | mk r t => cases r <;> simp
      · obtain ⟨e, he⟩ := update_other (E := E) (k := k) (by simpa using hs) s
        simp [exec, he]
  | delete k =>
    rw [crashedData_delete]
    simp only [exec]
    rw [delete_eq]
    by_cases h1 : s.trie.contains E k = .ok true ∧ dget s.data k ≠ none
    · rw [if_pos ⟨h1, by simp [writesOf, h1]⟩, h1.1]
      cases hd : dget s.data k with
      | none => exact absurd hd h1.2
      | some d => rfl
    · rw [if_neg (fun h => h1 h.1)]
      cases hc : s.trie.contains E k with
      | error e => rfl
      | ok b =>
        cases b with
        | false => rfl
        | true =>
          cases hd : dget s.data k with
          | none => rfl
          | some d => exact absurd ⟨hc, by simp [hd]⟩ h1

theorem reopened {E : Env} {secure : Bool} {ops : List EOp} {op : EOp} {ks : List Bytes} (n : Nat)
    (h : EValid E secure (ops ++ [op]) ks) :
    Inv E (MPT.init E (crashedTrie E op (EMPT.after E secure ops) n) (EMPT.after E secure ops).trie.root secure)
      (eff E secure (refOps E ops)) := by
  have hc := h.cut
  have hm := hc.mirror
  have hv := hc.valid hm
  have hl : LogOk E (exec E op (EMPT.after E secure ops)).2.trie.store.written := by
    have := h.log
    rw [EMPT.after_append] at this
    exact this
  have hi : Inv E (EMPT.after E secure ops).trie (eff E secure (refOps E ops)) := by
    rw [hm.trie]; exact hv.inv
  exact hi.reopen (crashedTrie_replay E op _ n) (crashedTrie_log hl) secure

theorem init_eq {E : Env} {st : Store} {d : Dict Value} {root : Option Bytes} {secure : Bool} {s : EMPT}
    (h : EMPT.init E st d root secure = .ok s) : s = { trie := MPT.init E st root secure, data := d } := by
  unfold EMPT.init at h
  split at h
  · simp at h
  · simpa [eq_comm] using h

theorem eff_reopened {E : Env} {secure : Bool} {ops : List Op} {k w : Bytes} {st : Store} {root : Option Bytes}
    (h : eff E secure ops ((MPT.after E secure ops).keyOf E k) = contents ops k) (hk : contents ops k = some w) :
    eff E secure ops ((MPT.init E st root secure).keyOf E k) = some w := by
  rw [← hk, ← h, keyOf_eq, keyOf_eq, after_secure]
  rfl

theorem reopened_get {E : Env} {secure : Bool} {ops : List EOp} {op : EOp} {n : Nat} {k : Bytes} {v : Value}
    {s : EMPT} (h : EValid E secure (ops ++ [op]) [k]) (hk : econtents ops k = some v)
    (hs : EMPT.init E (crashedTrie E op (EMPT.after E secure ops) n) (crashedData E op (EMPT.after E secure ops) n)
      (EMPT.after E secure ops).trie.root secure = .ok s) :
    (dget (crashedData E op (EMPT.after E secure ops) n) k = none → s.get E k = .error .keyError) ∧
    (∀ w, w.storable = true → dget (crashedData E op (EMPT.after E secure ops) n) k = some w → s.get E k =
      if E.keccak (k ++ v.payload) = E.keccak (k ++ w.payload) then .ok w else .error .invalidReference) := by
  have hc := h.cut
  have hm := hc.mirror
  have hv := hc.valid hm
  rw [init_eq hs]
  have hcon : contents (refOps E ops) k = some (refOf E k v) := by rw [contents_refOps, hk]; rfl
  exact get_of (s := ⟨MPT.init E (crashedTrie E op (EMPT.after E secure ops) n)
      (EMPT.after E secure ops).trie.root secure, crashedData E op (EMPT.after E secure ops) n⟩)
    (reopened n h) (h.fitsq k (by simp)) (eff_reopened (hv.eff_key (by simp)) hcon) (decode_refOf hc hk)

/-- C82 for all keys but the one named in the call.  Missing: that key; see the next theorems. -/
theorem C82_others_partial {E : Env} {secure : Bool} {ops : List EOp} {op : EOp} {n : Nat} {k : Bytes} {v : Value}
    {s : EMPT} (h : EValid E secure (ops ++ [op]) [k]) (hk : econtents ops k = some v) (hne : k ≠ op.key)
    (hs : EMPT.init E (crashedTrie E op (EMPT.after E secure ops) n) (crashedData E op (EMPT.after E secure ops) n)
      (EMPT.after E secure ops).trie.root secure = .ok s) : s.get E k = .ok v := by
  have hm := h.cut.mirror
  rw [(reopened_get h hk hs).2 v (hm.storable k v hk) ?_, if_pos rfl]
  rw [← hm.data] at hk
  rw [← hk]
  cases op with
  | update k' w =>
    rw [crashedData_update]
    split
    · rw [dget_dset, if_neg (show k' ≠ k from Ne.symm hne)]
    · rfl
  | delete k' =>
    rw [crashedData_delete]
    split
    · rw [dget_ddel, if_neg (show k' ≠ k from Ne.symm hne)]
    · rfl

/-- C82 for the key of an `update`: until the last write its value is read; after it, the new value is found not to
belong to the old reference (unless it has the same hash). -/
theorem C82_update_partial {E : Env} {secure : Bool} {ops : List EOp} {n : Nat} {k : Bytes} {v w : Value}
    {s : EMPT} (h : EValid E secure (ops ++ [.update k w]) [k]) (hk : econtents ops k = some v)
    (hs : EMPT.init E (crashedTrie E (.update k w) (EMPT.after E secure ops) n)
      (crashedData E (.update k w) (EMPT.after E secure ops) n) (EMPT.after E secure ops).trie.root secure = .ok s) :
    (n < (writesOf E (.update k w) (EMPT.after E secure ops)).length → s.get E k = .ok v) ∧
    (w.storable = true → (writesOf E (.update k w) (EMPT.after E secure ops)).length ≤ n → s.get E k =
      if E.keccak (k ++ v.payload) = E.keccak (k ++ w.payload) then .ok w else .error .invalidReference) := by
  have hm := h.cut.mirror
  have hd := hm.data k
  rw [hk] at hd
  refine ⟨fun hn => ?_, fun hw hn => ?_⟩
  · rw [(reopened_get h hk hs).2 v (hm.storable k v hk) ?_, if_pos rfl]
    rw [crashedData_update, if_neg, hd]
    rintro ⟨h1, h2⟩
    simp only [writesOf, h1, if_true, List.length_append, List.length_singleton] at hn
    omega
  · have hok : (exec E (.update k w) (EMPT.after E secure ops)).1 = .ok () := congrArg Prod.fst (h.update_ok hw)
    rw [(reopened_get h hk hs).2 w hw ?_]
    rw [crashedData_update, if_pos, dget_dset, if_pos rfl]
    simp only [writesOf, hok, if_true, List.length_append, List.length_singleton] at hn
    exact ⟨hok, by omega⟩

/-- C82 for the key of a `delete`: its value is gone with the first write. -/
theorem C82_delete_partial {E : Env} {secure : Bool} {ops : List EOp} {n : Nat} {k : Bytes} {v : Value}
    {s : EMPT} (h : EValid E secure (ops ++ [.delete k]) [k]) (hk : econtents ops k = some v)
    (hs : EMPT.init E (crashedTrie E (.delete k) (EMPT.after E secure ops) n)
      (crashedData E (.delete k) (EMPT.after E secure ops) n) (EMPT.after E secure ops).trie.root secure = .ok s) :
    s.get E k = if n = 0 then .ok v else .error .keyError := by
  have hm := h.cut.mirror
  have hd := hm.data k
  rw [hk] at hd
  split
  · rename_i hn
    rw [(reopened_get h hk hs).2 v (hm.storable k v hk) ?_, if_pos rfl]
    rw [crashedData_delete, if_neg (by omega), hd]
  · rename_i hn
    refine (reopened_get h hk hs).1 ?_
    have hcon : contents (refOps E ops) k = some (refOf E k v) := by rw [contents_refOps, hk]; rfl
    have hv := (h.cut.valid hm).subset (ks' := [k]) (by simp)
    have hc := C01_contains_partial hv (.inr (.inl (by rw [hcon]; rfl)))
    rw [hcon] at hc
    rw [crashedData_delete, if_pos ⟨⟨by rw [hm.trie]; exact hc, by rw [hd]; simp⟩, by omega⟩, dget_ddel, if_pos rfl]

/-- A `delete` that was interrupted cannot be repeated: the key is still there for `contains`, but deleting it raises
KeyError, for ever. -/
theorem C82_stuck {E : Env} {secure : Bool} {ops : List EOp} {n : Nat} {k : Bytes} {v : Value}
    {s : EMPT} (h : EValid E secure (ops ++ [.delete k]) [k]) (hk : econtents ops k = some v) (hn : 0 < n)
    (hs : EMPT.init E (crashedTrie E (.delete k) (EMPT.after E secure ops) n)
      (crashedData E (.delete k) (EMPT.after E secure ops) n) (EMPT.after E secure ops).trie.root secure = .ok s) :
    s.contains E k = .ok true ∧ EMPT.delete E k s = (.error .keyError, s) := by
  have hc := h.cut
  have hm := hc.mirror
  have hv := hc.valid hm
  have hd := hm.data k
  rw [hk] at hd
  have hl : LogOk E (exec E (.delete k) (EMPT.after E secure ops)).2.trie.store.written := by
    have := h.log
    rw [EMPT.after_append] at this
    exact this
  have hcon : contents (refOps E ops) k = some (refOf E k v) := by rw [contents_refOps, hk]; rfl
  have hin : s.trie.contains E k = .ok true := by
    rw [init_eq hs]
    exact (reopened n h).contains_some (crashedTrie_log hl) (h.fitsq k (by simp))
      (eff_reopened (hv.eff_key (by simp)) hcon)
  refine ⟨hin, ?_⟩
  have hgone : dget s.data k = none := by
    rw [init_eq hs]
    have hc' := C01_contains_partial (hv.subset (ks' := [k]) (by simp)) (.inr (.inl (by rw [hcon]; rfl)))
    rw [hcon] at hc'
    show dget (crashedData E (.delete k) (EMPT.after E secure ops) n) k = none
    rw [crashedData_delete, if_pos ⟨⟨by rw [hm.trie]; exact hc', by rw [hd]; simp⟩, hn⟩, dget_ddel, if_pos rfl]
  rw [delete_eq, hin, hgone]

/-- The way out, for both: writing the key again, whatever call was interrupted and where, brings the object to the
state in which it has been written. -/
theorem C82_repair {E : Env} {secure : Bool} {ops : List EOp} {op : EOp} {n : Nat} {k k' : Bytes} {w v' : Value}
    {s : EMPT} (h : EValid E secure (ops ++ [op]) [k']) (ho : op.key = k)
    (h' : EValid E secure (ops ++ [.update k w]) [k']) (hw : w.storable = true)
    (hs : EMPT.init E (crashedTrie E op (EMPT.after E secure ops) n)
      (crashedData E op (EMPT.after E secure ops) n) (EMPT.after E secure ops).trie.root secure = .ok s)
    (hl : LogOk E (EMPT.update E k w s).2.trie.store.written) :
    (EMPT.update E k w s).1 = .ok () ∧
    (econtents (ops ++ [.update k w]) k' = some v' → (EMPT.update E k w s).2.get E k' = .ok v') ∧
    dget (EMPT.update E k w s).2.data k' = econtents (ops ++ [.update k w]) k' ∧
    (EMPT.update E k w s).2.trie.rootHash E = (EMPT.after E secure (ops ++ [.update k w])).trie.rootHash E := by
  have hm := h.cut.mirror
  have hm' := h'.mirror
  have hi := reopened n h
  have hsec : s.trie.secure = secure := by rw [init_eq hs]; rfl
  have hi' : Inv E s.trie (eff E secure (refOps E ops)) := by rw [init_eq hs]; exact hi
  have hfit : Fits E s.trie.secure k := by
    rw [hsec, ← ho]
    exact h.fits op (by simp)
  have hrefs : refOps E (ops ++ [.update k w]) = refOps E ops ++ [.update k (refOf E k w)] := by
    rw [refOps_append]
    simp [refOps, refOp, hw]
  have hv' := h'.valid hm'
  rw [hrefs] at hv'
  have heff : eff E secure (refOps E ops ++ [.update k (refOf E k w)]) =
      Op.apply (eff E secure (refOps E ops)) (.update (s.trie.keyOf E k) (refOf E k w)) := by
    rw [keyOf_eq, hsec]
    simp [eff, contents, contentsFrom, Op.mapKey, effective]
  have hclean : Clean (Op.apply (eff E secure (refOps E ops)) (.update (s.trie.keyOf E k) (refOf E k w))) := by
    rw [← heff]
    exact hv'.clean (List.prefix_refl _)
  rw [update_storable hw] at hl ⊢
  have hl2 : LogOk E (MPT.update E k (refOf E k w) s.trie).2.store.written := by
    revert hl
    cases MPT.update E k (refOf E k w) s.trie with
    | mk r t => cases r <;> exact id
  obtain ⟨u1, u2⟩ := hi'.update hclean hfit hl2
  rw [← heff] at u2
  generalize hg : MPT.update E k (refOf E k w) s.trie = res at u1 u2 hl2
  obtain ⟨r, t⟩ := res
  simp only at u1 u2 hl2
  subst u1
  simp only
  have ht : t.secure = secure := by
    have := run_secure E [.update k (refOf E k w)] s.trie
    simp only [MPT.run, List.foldl_cons, List.foldl_nil, MPT.exec, hg] at this
    rw [this, hsec]
  have hdata : dget (dset s.data k w) k' = econtents (ops ++ [.update k w]) k' := by
    rw [dget_dset, econtents_append]
    simp only [EOp.apply]
    by_cases hkk : k = k'
    · rw [if_pos hkk, if_pos ⟨hw, hkk.symm⟩]
    · rw [if_neg hkk, if_neg (fun hh => hkk hh.2.symm), ← hm.data, init_eq hs]
      show dget (crashedData E op (EMPT.after E secure ops) n) k' = _
      cases op with
      | update k2 w2 =>
        simp only [EOp.key] at ho
        subst ho
        rw [crashedData_update]
        split
        · rw [dget_dset, if_neg hkk]
        · rfl
      | delete k2 =>
        simp only [EOp.key] at ho
        subst ho
        rw [crashedData_delete]
        split
        · rw [dget_ddel, if_neg hkk]
        · rfl
  refine ⟨trivial, fun hk => ?_, hdata, ?_⟩
  · have hcon : contents (refOps E (ops ++ [.update k w])) k' = some (refOf E k' v') := by
      rw [contents_refOps, hk]; rfl
    rw [hrefs] at hcon
    have he := (hv'.eff_key (k := k') (by simp)).trans hcon
    have := (get_of (s := ⟨t, dset s.data k w⟩) (k := k') (v := v') u2 (by rw [ht]; exact h.fitsq k' (by simp))
      (by rw [keyOf_eq] at he ⊢; rw [after_secure] at he; rw [ht]; exact he) (decode_refOf h' hk)).2 v'
      (hm'.storable k' v' hk) (by rw [hdata, hk])
    rw [this, if_pos rfl]
  · obtain ⟨a, h1, h2, _⟩ := Inv.same u2 hv'.inv
    rw [hm'.trie, hrefs, h1.rootHash, h2.rootHash]

/-- A history, and the ways in which changing or deleting one of its keys can be interrupted. -/
def crashOps : List EOp :=
  [.update [0x12] (.bytes [1]), .update [0x13, 0x45] (.bytes [2]), .update [0x56] (.obj 1 true true [3])]

/-- The object after a crash of `op` behind its `n`th write. -/
def afterCrash (op : EOp) (n : Nat) : EMPT :=
  ⟨MPT.init toyEnv (crashedTrie toyEnv op (EMPT.after toyEnv false crashOps) n)
    (EMPT.after toyEnv false crashOps).trie.root false, crashedData toyEnv op (EMPT.after toyEnv false crashOps) n⟩

example : EValid toyEnv false (crashOps ++ [.update [0x12] (.bytes [9])]) [[0x12], [0x56]] ∧
    EValid toyEnv false (crashOps ++ [.delete [0x12]]) [[0x12], [0x56]] ∧
    (∀ n ∈ [0, 1, 2, 3, 4], ∀ op ∈ [EOp.update [0x12] (.bytes [9]), .delete [0x12]],
      EMPT.init toyEnv (crashedTrie toyEnv op (EMPT.after toyEnv false crashOps) n)
        (crashedData toyEnv op (EMPT.after toyEnv false crashOps) n)
        (EMPT.after toyEnv false crashOps).trie.root false = .ok (afterCrash op n) ∧
      logOkB toyEnv (EMPT.update toyEnv [0x12] (.bytes [9]) (afterCrash op n)).2.trie.store.written = true) ∧
    econtents crashOps [0x12] = some (.bytes [1]) ∧
    (writesOf toyEnv (.update [0x12] (.bytes [9])) (EMPT.after toyEnv false crashOps)).length = 4 ∧
    (afterCrash (.update [0x12] (.bytes [9])) 3).get toyEnv [0x12] = .ok (.bytes [1]) ∧
    (afterCrash (.update [0x12] (.bytes [9])) 4).get toyEnv [0x12] = .error .invalidReference ∧
    (afterCrash (.delete [0x12]) 1).get toyEnv [0x12] = .error .keyError ∧
    (afterCrash (.delete [0x12]) 1).get toyEnv [0x56] = .ok (.obj 1 true true [3]) :=
  ⟨evalid_of (by decide +kernel), evalid_of (by decide +kernel), by decide +kernel, by decide +kernel,
    by decide +kernel, by decide +kernel, by decide +kernel, by decide +kernel, by decide +kernel⟩

end Pymt.Props
