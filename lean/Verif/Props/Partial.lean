import Verif.Lemmas.Light
import Verif.Lemmas.Dict
import Verif.Spec.Partial
import Verif.Props.Map
import Verif.Props.Lookups
import Verif.Props.Untrusted

/-!
# Properties C68, C69: storages that are incomplete or come from somebody else

`Claims E t' t`, `Has`, `outcomes` are defined in `Verif/Spec/Partial.lean`.
-/

namespace Pymt
namespace Props

/-- Storages whose entries sit under their own hashes agree. -/
theorem claims_alike {E : Env} {secure : Bool} {ops : List Op} {ks : List Bytes} (h : Valid E secure ops ks)
    {t' : MPT} (hc : Claims E t' (MPT.after E secure ops)) : Alike t' (MPT.after E secure ops) := by
  obtain ⟨a, h1, -⟩ := h.inv
  refine ⟨hc.root, hc.secure, fun k v w hv hw => ?_⟩
  have e1 := hc.addressed k v hv
  obtain ⟨e2, hm⟩ := h1.good k w hw
  exact hc.coll v (List.mem_append_right _ (List.mem_map.2 ⟨(k, v), mem_of_dget hv, rfl⟩)) w
    (List.mem_append_left _ hm) (e1.symm.trans e2)

/-- The complete trie never raises KeyError while it has a key. -/
theorem honest_query {E : Env} {secure : Bool} {ops : List Op} {k : Bytes} (h : Valid E secure ops [k]) :
    ((∃ k', contents ops k' ≠ none) → (MPT.after E secure ops).get E k ≠ .error .keyError) ∧
    (MPT.after E secure ops).contains E k ≠ .error .keyError ∧
    (∀ now, (MPT.after E secure ops).getPoi E now k ≠ .error .keyError) ∧
    (∀ now, (MPT.after E secure ops).getPoe E now k ≠ .error .keyError) := by
  obtain ⟨a, h1, h2, h3, h4⟩ := h.inv
  have hk := fits_nibs (E := E) (t := MPT.after E secure ops) (h.fit (k := k) (by simp))
  refine ⟨fun hne => ?_, ?_, fun now => ?_, fun now => ?_⟩
  · have hn : a ≠ .empty := (nonempty_iff h h2 h3 h4).1 hne
    rw [h1.get hn hk]
    have := T.seek_ne_empty h1.shape hn (toNibs ((MPT.after E secure ops).keyOf E k))
    generalize T.seek a _ = s at *
    obtain ⟨x, r⟩ := s
    cases r <;> cases x <;> simp_all [T.found, T.dataOf] <;> split <;> simp
  · rw [h1.contains h.log hk]; simp
  · by_cases hn : a = .empty
    · subst hn
      rw [h1.getPoi_empty h.log]; simp
    · rw [h1.getPoi h.log hn hk]
      have := T.seek_ne_empty h1.shape hn (toNibs ((MPT.after E secure ops).keyOf E k))
      generalize T.seek a _ = s at *
      obtain ⟨x, r⟩ := s
      cases r <;> cases x <;> simp_all [T.foundP]
      split
      · rename_i e he
        split at he
        · simp at he
        · cases he; simp
      · simp
  · by_cases hn : a = .empty
    · subst hn
      rw [h1.getPoe_empty h.log]; simp
    · rw [h1.getPoe h.log hn hk]
      split <;> simp

theorem honest_exec {E : Env} {secure : Bool} {ops : List Op} {op : Op}
    (h : Valid E secure (ops ++ [op]) []) : (MPT.exec E op (MPT.after E secure ops)).1 ≠ .error .keyError := by
  cases op with
  | update k v => rw [MPT.exec, C05_update_total h]; simp
  | delete k =>
    cases hk : contents ops k with
    | some v => rw [MPT.exec, C05_delete_total h hk]; simp
    | none =>
      have hc : Valid E secure ops [k] := by simpa [Op.key] using h.cut
      by_cases hne : ∃ k', contents ops k' ≠ none
      · exact (C62_never hc hk hne).2
      · obtain ⟨a, h1, h2, h3, h4⟩ := hc.inv
        have hn : a = .empty := Classical.byContradiction fun hn =>
          hne ((nonempty_iff hc h2 h3 h4).2 hn)
        subst hn
        rw [MPT.exec, h1.delete_empty hc.log]; simp

/-! ### C68: never a wrong answer -/

/-- C68, queries: a trie object over any storage gives the answers of the complete trie with the same root,
or KeyError. -/
theorem C68_query {E : Env} {secure : Bool} {ops : List Op} {k : Bytes} (h : Valid E secure ops [k])
    {t' : MPT} (hc : Claims E t' (MPT.after E secure ops)) :
    ((∃ k', contents ops k' ≠ none) →
      t'.get E k = .error .keyError ∨ t'.get E k = (MPT.after E secure ops).get E k) ∧
    (t'.contains E k = .error .keyError ∨ t'.contains E k = (MPT.after E secure ops).contains E k) ∧
    (∀ now, t'.getPoi E now k = .error .keyError ∨
      t'.getPoi E now k = (MPT.after E secure ops).getPoi E now k) ∧
    (∀ now, t'.getPoe E now k = .error .keyError ∨
      t'.getPoe E now k = (MPT.after E secure ops).getPoe E now k) ∧
    (∀ p, t'.verifyPoi E p = (MPT.after E secure ops).verifyPoi E p) ∧
    (∀ p, t'.verifyPoe E p = (MPT.after E secure ops).verifyPoe E p) := by
  have ha := claims_alike h hc
  obtain ⟨q1, q2, q3, q4⟩ := honest_query h
  refine ⟨fun hne => ?_, ?_, fun now => ?_, fun now => ?_, fun p => ha.verifyPoi p, fun p => ha.verifyPoe p⟩
  · rcases ha.get (E := E) k with h | h | h
    · exact .inl h
    · exact absurd h (q1 hne)
    · exact .inr h
  · rcases ha.contains (E := E) k with h | h | h
    · exact .inl h
    · exact absurd h q2
    · exact .inr h
  · rcases ha.getPoi (E := E) now k with h | h | h
    · exact .inl h
    · exact absurd h (q3 now)
    · exact .inr h
  · rcases ha.getPoe (E := E) now k with h | h | h
    · exact .inl h
    · exact absurd h (q4 now)
    · exact .inr h

/-- C68, in terms of contents: what such an object returns for a present key is its value, and it never
denies that the key is present. -/
theorem C68_value {E : Env} {secure : Bool} {ops : List Op} {k v : Bytes} (h : Valid E secure ops [k])
    {t' : MPT} (hc : Claims E t' (MPT.after E secure ops)) (hk : contents ops k = some v) :
    (t'.get E k = .error .keyError ∨ t'.get E k = .ok v) ∧
    (t'.contains E k = .error .keyError ∨ t'.contains E k = .ok true) := by
  obtain ⟨q1, q2, -⟩ := C68_query h hc
  refine ⟨?_, ?_⟩
  · have := q1 ⟨k, by simp [hk]⟩
    rwa [C02_get h hk] at this
  · rwa [C01_contains_partial h (.inr (.inl (by simp [hk]))), hk] at q2

theorem alike_run {E : Env} {secure : Bool} {ops ops' : List Op} (h : Valid E secure (ops ++ ops') [])
    {t' : MPT} (ha : Alike t' (MPT.after E secure ops)) :
    Except.error Err.keyError ∈ outcomes E ops' t' ∨
    (outcomes E ops' t' = outcomes E ops' (MPT.after E secure ops) ∧
      Alike (MPT.run E ops' t') (MPT.after E secure (ops ++ ops'))) := by
  induction ops' generalizing ops t' with
  | nil => exact .inr ⟨rfl, by simpa [MPT.run] using ha⟩
  | cons op rest ih =>
    have h' : Valid E secure ((ops ++ [op]) ++ rest) [] := by simpa using h
    have h1 : Valid E secure (ops ++ [op]) [] := h'.cut.subset (by simp)
    have e : MPT.after E secure (ops ++ [op]) = (MPT.exec E op (MPT.after E secure ops)).2 := by
      rw [after_append]; rfl
    rcases ha.exec (E := E) op with hk | hk | ⟨hk, ha'⟩
    · exact .inl (by simp [outcomes, hk])
    · exact absurd hk (honest_exec h1)
    · rw [← e] at ha'
      rcases ih h' ha' with hr | ⟨hr, hr'⟩
      · exact .inl (List.mem_cons_of_mem _ hr)
      · refine .inr ⟨?_, ?_⟩
        · simp only [outcomes, hk, hr, e]
        · simpa [MPT.run] using hr'

/-- C68, writing: after a history of calls on such an object, either some call raised KeyError, or all calls
ended as on the complete trie and the root is the same.  A call that raises keeps the root. -/
theorem C68_history {E : Env} {secure : Bool} {ops ops' : List Op} (h : Valid E secure (ops ++ ops') [])
    {t' : MPT} (hc : Claims E t' (MPT.after E secure ops)) :
    Except.error Err.keyError ∈ outcomes E ops' t' ∨
    (outcomes E ops' t' = outcomes E ops' (MPT.after E secure ops) ∧
      (MPT.run E ops' t').root = (MPT.after E secure (ops ++ ops')).root) := by
  rcases alike_run h (claims_alike h.cut hc) with hr | ⟨hr, hr'⟩
  · exact .inl hr
  · exact .inr ⟨hr, hr'.root⟩

/-- C68, KeyError: a failing call keeps the root. -/
theorem C68_keep {E : Env} {op : Op} {t : MPT} {e : Err} (h : (MPT.exec E op t).1 = .error e) :
    (MPT.exec E op t).2.root = t.root := exec_error_root h

theorem rebuild_addressed {E : Env} (l : List Bytes) {st : Store}
    (h : ∀ k v, dget st.kv k = some v → k = E.keccak v) :
    ∀ k v, dget (l.foldl (fun s n => s.set (E.keccak n) n) st).kv k = some v → k = E.keccak v := by
  induction l generalizing st with
  | nil => exact h
  | cons w l ih =>
    refine ih fun k v hk => ?_
    simp only [Store.set, dget_dset] at hk
    split at hk
    · rename_i e; cases hk; exact e.symm
    · exact h k v hk

/-- C68, encoded tries of any origin: whatever bytes `MPT.decode` accepts, if the root and the mode are
those of a known trie then the object is one `C68_query` and `C68_history` speak about. -/
theorem C68_decode {E : Env} {t t' : MPT} {b : Bytes} (hd : MPT.decode E b = .ok t') (hr : t'.root = t.root)
    (hs : t'.secure = t.secure) (hcoll : CollFree E (t.store.written ++ t'.store.kv.map (·.2))) :
    Claims E t' t := by
  refine ⟨hr, hs, ?_, hcoll⟩
  unfold MPT.decode at hd
  cases hi : rlpDecode b with
  | error e => rw [hi] at hd; simp at hd
  | ok x =>
    rw [hi] at hd
    simp only [Except.bind_ok'] at hd
    split at hd
    · rename_i r s bo
      cases hb : MPT.binary r with
      | error e => rw [hb] at hd; simp at hd
      | ok root =>
        rw [hb] at hd
        simp only [Except.bind_ok'] at hd
        split at hd
        · rename_i l
          cases hl : MPT.binaries l with
          | error e => rw [hl] at hd; simp at hd
          | ok nodes =>
            rw [hl] at hd
            simp only [Except.bind_ok'] at hd
            cases hbo : MPT.boolean bo with
            | error e => rw [hbo] at hd; simp at hd
            | ok secure =>
              rw [hbo] at hd
              simp only [Except.bind_ok', Except.pure_ok', Except.ok.injEq] at hd
              subst hd
              exact rebuild_addressed nodes (by simp [Store.empty, dget])
        · simp at hd
    · simp at hd

/-- The trie of the following examples. -/
def partialOps : List Op :=
  [.update [0x12, 0x34] (bigValue 1), .update [0x12, 0x56] (bigValue 2), .update [0x99] (bigValue 3)]

/-- The trie of `partialOps` without the leaf of `12 34`, with an entry that was never its own. -/
def holed : MPT :=
  { MPT.after toyEnv false partialOps with
    store := { (MPT.after toyEnv false partialOps).store with
      kv := (MPT.after toyEnv false partialOps).store.kv.filter (fun e => e.2.getLast? ≠ some 1) ++
        [(toyEnv.keccak [1, 2, 3], [1, 2, 3])] } }

/-- The hypotheses of C68 are met by a trie with holes: one key is still found, one raises KeyError; a
write beside the hole gives the root of the complete trie. -/
example : Valid toyEnv false (partialOps ++ [.update [0x99] [7]]) [[0x99]] ∧
    Claims toyEnv holed (MPT.after toyEnv false partialOps) ∧
    holed.get toyEnv [0x99] = .ok (bigValue 3) ∧ holed.get toyEnv [0x12, 0x34] = .error .keyError ∧
    holed.contains toyEnv [0x98] = .ok false ∧
    outcomes toyEnv [.update [0x99] [7]] holed = [.ok ()] ∧
    outcomes toyEnv [.delete [0x12, 0x34]] holed = [.error .keyError] ∧
    (MPT.run toyEnv [.update [0x99] [7]] holed).root ≠ (MPT.after toyEnv false partialOps).root :=
  ⟨valid_of (by decide +kernel), claims_of (by decide +kernel) (by decide +kernel) (by decide +kernel)
    (collFree_of (by decide +kernel)), by decide +kernel, by decide +kernel, by decide +kernel,
    by decide +kernel, by decide +kernel, by decide +kernel⟩

/-! ### C69: the nodes of a proof are enough -/

/-- The full statement of C69: a storage with the nodes listed in the proof for a key (all entries of an
inclusion proof, all but the made-up last one of an exclusion proof) is enough to look the key up. -/
def C69 : Prop := ∀ (E : Env) (secure : Bool) (ops : List Op) (k now : Bytes) (p : Proof Bytes) (t' : MPT),
  Valid E secure ops [k] → Claims E t' (MPT.after E secure ops) →
  ((MPT.after E secure ops).getPoi E now k = .ok p → (∀ e ∈ p.proof, Has E t' e) →
    t'.contains E k = (MPT.after E secure ops).contains E k) ∧
  ((MPT.after E secure ops).getPoe E now k = .ok p → (∀ e ∈ p.proof.dropLast, Has E t' e) →
    t'.contains E k = (MPT.after E secure ops).contains E k)

/-- Two keys that begin alike, so that the root is an extension. -/
def alikeOps : List Op := [.update [0x12] (bigValue 1), .update [0x13] (bigValue 2)]

/-- The trie of `alikeOps` on an empty storage. -/
def bare : MPT := { MPT.after realEnv false alikeOps with store := Store.empty }

theorem bare_valid : Valid realEnv false alikeOps [[0x77]] := valid_of (by decide +kernel)

theorem bare_claims : Claims realEnv bare (MPT.after realEnv false alikeOps) where
  root := by rw [bare]
  secure := by rw [bare]
  addressed := by rw [bare]; simp [Store.empty, dget]
  coll := bare_valid.log.coll.mono (by
    intro a ha
    rw [bare] at ha
    exact List.mem_cons_of_mem _ (by simpa [Store.empty] using ha))

theorem bare_poe : ∃ p, (MPT.after realEnv false alikeOps).getPoe realEnv [] [0x77] = .ok p ∧
    p.proof.dropLast = [] := by
  obtain ⟨p, hp, hp'⟩ := ok_of (m := (MPT.after realEnv false alikeOps).getPoe realEnv [] [0x77])
    (f := fun p => decide (p.proof.dropLast = [])) (by decide +kernel)
  exact ⟨p, hp, of_decide_eq_true hp'⟩

theorem bare_contains :
    ¬ bare.contains realEnv [0x77] = (MPT.after realEnv false alikeOps).contains realEnv [0x77] := by
  decide +kernel

/-- C69 is false: the exclusion proof of `77` among `12` and `13` lists no node at all (the extension at
which the search ends is left out), while the lookup needs the root. -/
theorem C69_false : ¬ C69 := by
  intro h
  obtain ⟨p, hp, hp'⟩ := bare_poe
  exact bare_contains ((h realEnv false alikeOps [0x77] [] p bare bare_valid bare_claims).2 hp (by
    rw [hp']; intro e he; exact absurd he List.not_mem_nil))

/-- C69, exactly: `get`, `contains`, `get_proof_of_inclusion`, `get_proof_of_exclusion` and `update` need the
same nodes: either all of them raise KeyError for a key, or none does. -/
theorem C69_same {E : Env} {secure : Bool} {ops : List Op} {k : Bytes} (h : Valid E secure ops [k])
    (hne : ∃ k', contents ops k' ≠ none) {t' : MPT} (hc : Claims E t' (MPT.after E secure ops)) :
    (t'.contains E k = .error .keyError ↔ t'.get E k = .error .keyError) ∧
    (∀ now, t'.getPoi E now k = .error .keyError ↔ t'.get E k = .error .keyError) ∧
    (∀ now, t'.getPoe E now k = .error .keyError ↔ t'.get E k = .error .keyError) ∧
    (∀ v, (MPT.update E k v t').1 = .error .keyError ↔ t'.get E k = .error .keyError) := by
  obtain ⟨a, h1, h2, h3, h4⟩ := h.inv
  have hn : a ≠ .empty := (nonempty_iff h h2 h3 h4).1 hne
  have hk := fits_nibs (E := E) (t := MPT.after E secure ops) (h.fit (k := k) (by simp))
  have ha := claims_alike h hc
  rw [h1.get_light hn ha hk]
  exact ⟨h1.contains_light h.log hn ha hk, fun _ => h1.getPoi_light h.log hn ha hk,
    fun _ => h1.getPoe_light h.log hn ha hk, fun _ => h1.update_light h.log hn ha hk⟩

theorem blocked_iff {E : Env} {t' : MPT} {a : T} {p : List Nib} :
    T.Blocked E t'.store.kv a p ↔ ∃ e ∈ (T.trail a p).map (T.enc E), ¬ Has E t' e := by
  simp only [T.Blocked, List.mem_map]
  constructor
  · rintro ⟨x, hx, hx'⟩; exact ⟨_, ⟨x, hx, rfl⟩, hx'⟩
  · rintro ⟨_, ⟨x, hx, rfl⟩, hx'⟩; exact ⟨x, hx, hx'⟩

/-- C69 in part, inclusion proofs, exactly: when the complete trie has an inclusion proof for the key, the
lookup raises KeyError if and only if a node listed in the proof is missing.
Missing: exclusion proofs (`C69_poe_partial`). -/
theorem C69_poi_partial {E : Env} {secure : Bool} {ops : List Op} {k now : Bytes} {p : Proof Bytes}
    (h : Valid E secure ops [k]) {t' : MPT} (hc : Claims E t' (MPT.after E secure ops))
    (hp : (MPT.after E secure ops).getPoi E now k = .ok p) :
    (t'.get E k = .error .keyError ↔ ∃ e ∈ p.proof, ¬ Has E t' e) ∧
    ((∀ e ∈ p.proof, Has E t' e) → t'.contains E k = (MPT.after E secure ops).contains E k ∧
      t'.get E k = (MPT.after E secure ops).get E k ∧ t'.getPoi E now k = .ok p) := by
  obtain ⟨a, h1, h2, h3, h4⟩ := h.inv
  have hn : a ≠ .empty := by
    rintro rfl
    rw [h1.getPoi_empty h.log] at hp
    simp at hp
  have hne := (nonempty_iff h h2 h3 h4).2 hn
  have hk := fits_nibs (E := E) (t := MPT.after E secure ops) (h.fit (k := k) (by simp))
  have ha := claims_alike h hc
  have hpp : p.proof = (T.trail a (toNibs ((MPT.after E secure ops).keyOf E k))).map (T.enc E) := by
    rw [h1.getPoi h.log hn hk] at hp
    split at hp
    · simp at hp
    · simp only [Except.ok.injEq] at hp
      subst hp; rfl
  have e1 : t'.get E k = .error .keyError ↔ ∃ e ∈ p.proof, ¬ Has E t' e := by
    rw [h1.get_light hn ha hk, blocked_iff, hpp]
  refine ⟨e1, fun hall => ?_⟩
  have hg : t'.get E k ≠ .error .keyError := by
    rw [ne_eq, e1]
    rintro ⟨e, he, he'⟩
    exact he' (hall e he)
  obtain ⟨s1, s2, -⟩ := C69_same h hne hc
  obtain ⟨q1, q2, q3, -⟩ := C68_query h hc
  exact ⟨q2.resolve_left (by rwa [s1]), (q1 hne).resolve_left hg,
    ((q3 now).resolve_left (by rwa [s2])).trans hp⟩

/-- C69 in part, writing: with the nodes of the inclusion proof for a key, `update` of that key succeeds and
computes the root the complete trie gets. -/
theorem C69_update_partial {E : Env} {secure : Bool} {ops : List Op} {k v now : Bytes} {p : Proof Bytes}
    (h : Valid E secure (ops ++ [.update k v]) []) {t' : MPT} (hc : Claims E t' (MPT.after E secure ops))
    (hp : (MPT.after E secure ops).getPoi E now k = .ok p) (hall : ∀ e ∈ p.proof, Has E t' e) :
    (MPT.update E k v t').1 = .ok () ∧
    (MPT.update E k v t').2.root = (MPT.after E secure (ops ++ [.update k v])).root := by
  have hv : Valid E secure ops [k] := by simpa [Op.key] using h.cut
  have hne : ∃ k', contents ops k' ≠ none := by
    obtain ⟨a, h1, h2, h3, h4⟩ := hv.inv
    refine (nonempty_iff hv h2 h3 h4).2 ?_
    rintro rfl
    rw [h1.getPoi_empty hv.log] at hp
    simp at hp
  have hg : (MPT.update E k v t').1 ≠ .error .keyError := by
    rw [ne_eq, (C69_same hv hne hc).2.2.2 v, (C69_poi_partial hv hc hp).1]
    rintro ⟨e, he, he'⟩
    exact he' (hall e he)
  rcases C68_history h hc with hr | ⟨hr, hr'⟩
  · simp only [outcomes, List.mem_singleton] at hr
    exact absurd hr.symm hg
  · refine ⟨?_, hr'⟩
    simp only [outcomes, List.cons.injEq, and_true] at hr
    exact hr.trans (C05_update_total h)

/-- C69 in part, exclusion proofs: the nodes listed (all but the last entry) are needed; and they are enough
unless the search ends inside a run of nibbles shared by all keys there, that is, when it ends where one key
is left (`Lone`) or where keys part (`Fork`).
Missing: the remaining case, where the last node the lookup reads is not in the proof. -/
theorem C69_poe_partial {E : Env} {secure : Bool} {ops : List Op} {k now : Bytes} {p : Proof Bytes}
    (h : Valid E secure ops [k]) {t' : MPT} (hc : Claims E t' (MPT.after E secure ops))
    (hp : (MPT.after E secure ops).getPoe E now k = .ok p) :
    (t'.get E k ≠ .error .keyError → ∀ e ∈ p.proof.dropLast, Has E t' e) ∧
    (∀ b, Stop (pathContents E secure ops) (toNibs (effective E secure k)) b →
      (Fork (pathContents E secure ops) b ∨ ∃ k', Lone (pathContents E secure ops) b k') →
      (∀ e ∈ p.proof.dropLast, Has E t' e) →
      t'.contains E k = .ok false ∧ t'.getPoe E now k = .ok p) := by
  obtain ⟨a, h1, h2, h3, h4⟩ := h.inv
  have hn : a ≠ .empty := by
    rintro rfl
    rw [h1.getPoe_empty h.log] at hp
    simp at hp
  have hne := (nonempty_iff h h2 h3 h4).2 hn
  have hk := fits_nibs (E := E) (t := MPT.after E secure ops) (h.fit (k := k) (by simp))
  have ha := claims_alike h hc
  have hb : t'.get E k = .error .keyError ↔ _ := h1.get_light hn ha hk
  have hpp := hp
  rw [h1.getPoe h.log hn hk] at hpp
  rw [keyOf_eq, after_secure, show (if secure = true then E.keccak k else k) = effective E secure k from rfl]
    at hpp hb
  split at hpp
  · simp at hpp
  rename_i hno
  simp only [Except.ok.injEq] at hpp
  have hpd : p.proof.dropLast = (T.shown a (toNibs (effective E secure k))).map (T.enc E) := by
    rw [← hpp]; simp
  rw [blocked_iff] at hb
  have hsub : ∀ x ∈ T.shown a (toNibs (effective E secure k)),
      x ∈ T.trail a (toNibs (effective E secure k)) := by
    intro x hx
    unfold T.shown at hx
    split at hx
    · exact List.mem_append_left _ hx
    · exact hx
  refine ⟨fun hg e he => ?_, fun b hst hfl hall => ?_⟩
  · rw [hpd] at he
    obtain ⟨x, hx, rfl⟩ := List.mem_map.1 he
    refine Classical.byContradiction fun hx' => hg (hb.2 ⟨_, List.mem_map.2 ⟨x, hsub x hx, rfl⟩, hx'⟩)
  · obtain ⟨b', hb', hat⟩ := at_stop (m := pathContents E secure ops) h2 hn h3 h4 (toNibs (effective E secure k))
    have := hb'.unique hst
    subst this
    have hsh : T.shown a (toNibs (effective E secure k)) = T.trail a (toNibs (effective E secure k)) := by
      unfold T.shown
      split
      · rename_i hs
        rw [hs] at hat
        cases hat with
        | run g1 g2 g3 g4 =>
          rcases hfl with hf | ⟨k', hl⟩
          · exact absurd hf g2
          · exact absurd hl (g4 k')
      · rfl
    have hg : t'.get E k ≠ .error .keyError := by
      rw [ne_eq, hb, ← hsh, ← hpd]
      rintro ⟨e, he, he'⟩
      exact he' (hall e he)
    obtain ⟨s1, -, s3, -⟩ := C69_same h hne hc
    obtain ⟨-, q2, -, q4, -⟩ := C68_query h hc
    refine ⟨?_, ((q4 now).resolve_left (by rwa [s3])).trans hp⟩
    rw [q2.resolve_left (by rwa [s1]), h1.contains h.log hk, keyOf_eq, after_secure,
      show (if secure = true then E.keccak k else k) = effective E secure k from rfl]
    simpa using hno

/-- The trie of `partialOps` on a storage with only the nodes of the inclusion proof for `12 34`. -/
def witness : MPT :=
  { MPT.after toyEnv false partialOps with
    store := match (MPT.after toyEnv false partialOps).getPoi toyEnv [] [0x12, 0x34] with
      | .ok p => MPT.rebuild toyEnv p.proof
      | .error _ => Store.empty }

/-- The hypotheses of the theorems on C69 are met: with the four nodes of a proof (of six) the key is
found, can be updated with the right root, and the absence of `77` is seen. -/
example : Valid toyEnv false (partialOps ++ [.update [0x12, 0x34] [7]]) [[0x12, 0x34]] ∧
    Claims toyEnv witness (MPT.after toyEnv false partialOps) ∧
    (∃ p, (MPT.after toyEnv false partialOps).getPoi toyEnv [] [0x12, 0x34] = .ok p ∧
      ∀ e ∈ p.proof, Has toyEnv witness e) ∧
    witness.store.kv.length = 4 ∧ witness.get toyEnv [0x12, 0x34] = .ok (bigValue 1) ∧
    witness.get toyEnv [0x99] = .error .keyError := by
  refine ⟨valid_of (by decide +kernel), claims_of (by decide +kernel) (by decide +kernel) (by decide +kernel)
    (collFree_of (by decide +kernel)), ?_, by decide +kernel, by decide +kernel, by decide +kernel⟩
  obtain ⟨p, hp, hp'⟩ := ok_of (m := (MPT.after toyEnv false partialOps).getPoi toyEnv [] [0x12, 0x34])
    (f := fun p => decide (∀ e ∈ p.proof, Has toyEnv witness e)) (by decide +kernel)
  exact ⟨p, hp, of_decide_eq_true hp'⟩
example : Valid toyEnv false partialOps [[0x77]] ∧
    (∃ p, (MPT.after toyEnv false partialOps).getPoe toyEnv [] [0x77] = .ok p ∧
      p.proof.dropLast ≠ [] ∧ ∀ e ∈ p.proof.dropLast, Has toyEnv witness e) ∧
    Stop (pathContents toyEnv false partialOps) (toNibs [0x77]) [] ∧
    Fork (pathContents toyEnv false partialOps) [] := by
  refine ⟨valid_of (by decide +kernel), ?_, stop_dec (fun _ => mem_pathsOf) (by decide +kernel),
    (fork_dec (fun _ => mem_pathsOf) _).2 (by decide +kernel)⟩
  obtain ⟨p, hp, hp'⟩ := ok_of (m := (MPT.after toyEnv false partialOps).getPoe toyEnv [] [0x77])
    (f := fun p => decide (p.proof.dropLast ≠ [] ∧ ∀ e ∈ p.proof.dropLast, Has toyEnv witness e))
    (by decide +kernel)
  exact ⟨p, hp, of_decide_eq_true hp'⟩

end Props
end Pymt
