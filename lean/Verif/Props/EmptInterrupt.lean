import Verif.Lemmas.EmptInterrupt
import Verif.Spec.ToyEmpt

/-!
# Property C111: calls on an `EMPT` that are ended by an exception from elsewhere
-/

namespace Pymt

theorem EAttempt.Fine.tracks {E : Env} {secure : Bool} {l : List EAttempt} {ks : List Bytes}
    (h : EAttempt.Fine E secure l ks) :
    ∃ eops, Tracks E (ks ++ l.map (fun a => a.call.key)) (EAttempt.all E l (EMPT.new E secure)) eops
      (EAttempt.counted E l (EMPT.new E secure)) (fun k => EAttempt.intact E k true l (EMPT.new E secure)) := by
  have h0 : Tracks E (ks ++ l.map (fun a => a.call.key)) (EMPT.new E secure) [] [] (fun _ => true) :=
    ⟨Bears.new E secure, fun _ _ _ => ⟨rfl, rfl⟩, fun _ _ _ hd => (nomatch hd), by simp⟩
  obtain ⟨eops, t⟩ := EAttempt.tracks (l := l) h0 h.fits h.keys
    (fun a ha => List.mem_append_right _ (List.mem_map_of_mem ha)) h.sizes h.log
  exact ⟨eops, by simpa using t⟩

/-- `get` of a key, given what trie and data storage have. -/
theorem EMPT.get_both {E : Env} {s : EMPT} {k : Bytes} {x d : Value} (hx : s.trie.get E k = .ok (refOf E k x))
    (hz : k.length + x.payload.length < 2 ^ 60) (hd : dget s.data k = some d) (hs : d.storable = true) :
    s.get E k = if E.keccak (k ++ x.payload) = E.keccak (k ++ d.payload) then .ok d else .error .invalidReference := by
  unfold EMPT.get dgetItem
  rw [hd, hx]
  simp only [Except.bind_ok']
  rw [decode_ref hz, Props.ofValue_storable hs]
  simp only [Except.bind_ok']
  by_cases e : E.keccak (k ++ x.payload) = E.keccak (k ++ d.payload)
  · rw [(DataRef.eq_iff E ⟨k, x.payload⟩ ⟨k, d.payload⟩).2 e, if_pos e]; rfl
  · rw [if_neg e]
    have : DataRef.eq E ⟨k, x.payload⟩ ⟨k, d.payload⟩ = false := by
      rw [Bool.eq_false_iff]; exact fun hb => e ((DataRef.eq_iff E _ _).1 hb)
    rw [this]; rfl

theorem EMPT.get_nothing {E : Env} {s : EMPT} {k : Bytes} (hd : dget s.data k = none) :
    s.get E k = .error .keyError := by
  unfold EMPT.get dgetItem; rw [hd]; rfl

namespace Props

open EAttempt

/-- The claim, C110 for an `EMPT`: calls that are ended before they have made all of their accesses are as good as not
made. -/
def C111 : Prop :=
  ∀ (E : Env) (secure : Bool) (l : List EAttempt) (k : Bytes) (v : Value), EAttempt.Fine E secure l [k] →
    EValid E secure (counted E l (EMPT.new E secure)) [k] →
    ((all E l (EMPT.new E secure)).get E k = .ok v ↔
      (EMPT.after E secure (counted E l (EMPT.new E secure))).get E k = .ok v)


/-- Decides the assumptions for a concrete history. -/
def fineB (E : Env) (secure : Bool) (l : List EAttempt) (ks : List Bytes) : Bool :=
  (ks ++ l.map (fun a => a.call.key)).all (fun k => decide (Fits E secure k)) &&
  l.all (fun a => match a.call with
    | .update k v => decide (k.length + v.payload.length < 2 ^ 60)
    | _ => true) &&
  logOkB E (all E l (EMPT.new E secure)).trie.store.written &&
  (!secure || collFreeB E (ks ++ l.map (fun a => a.call.key)))

theorem fine_of {E : Env} {secure : Bool} {l : List EAttempt} {ks : List Bytes} (h : fineB E secure l ks = true) :
    EAttempt.Fine E secure l ks := by
  simp only [fineB, Bool.and_eq_true, List.all_eq_true, decide_eq_true_eq] at h
  obtain ⟨⟨⟨h1, h2⟩, h3⟩, h4⟩ := h
  refine ⟨h1, fun a ha k v e => ?_, logOk_of h3, fun hs => ?_⟩
  · have := h2 a ha
    rw [e] at this
    simpa using this
  · subst hs
    exact collFree_of (by simpa using h4)

theorem Fine.cut {E : Env} {secure : Bool} {l : List EAttempt} {a : EAttempt} {ks : List Bytes}
    (h : EAttempt.Fine E secure (l ++ [a]) ks) :
    EAttempt.Fine E secure l (ks ++ [a.call.key]) ∧
    LogOk E (a.run E (all E l (EMPT.new E secure))).2.trie.store.written := by
  have hall : all E (l ++ [a]) (EMPT.new E secure) = (a.run E (all E l (EMPT.new E secure))).2 := by simp [all]
  have hl := h.log
  rw [hall] at hl
  have hsub : ∀ k ∈ (ks ++ [a.call.key]) ++ l.map (fun a => a.call.key),
      k ∈ ks ++ (l ++ [a]).map (fun a => a.call.key) := by
    intro k hk
    simp only [List.mem_append, List.mem_singleton, List.map_append, List.map_cons, List.map_nil] at hk ⊢
    rcases hk with (hk | hk) | hk
    · exact .inl hk
    · exact .inr (.inr hk)
    · exact .inr (.inl hk)
  exact ⟨⟨fun k hk => h.fits k (hsub k hk), fun b hb => h.sizes b (by simp [hb]),
    log_of_replay (a.run_writes _) hl, fun hs => (h.keys hs).mono hsub⟩, hl⟩

/-- The update of a key that is there is ended just before its last access: the reference is the new one, the data is
the old. -/
theorem C111_false : ¬ C111 := by
  intro h
  have := h toyEnv false [⟨.update [0x12] (.bytes [1]), none⟩, ⟨.update [0x12] (.bytes [2]), some (4, .runtime)⟩] [0x12]
    (.bytes [1]) (fine_of (by decide +kernel)) (evalid_of (by decide +kernel))
  revert this
  decide +kernel

/-- C111 for every key that is intact: no call that names it has been ended half way since the last one that wrote or
deleted it.  Missing: the other keys, for which see the next theorems. -/
theorem C111_intact_partial {E : Env} {secure : Bool} {l : List EAttempt} {k : Bytes} (h : EAttempt.Fine E secure l [k])
    (hi : intact E k true l (EMPT.new E secure) = true) :
    let obj := all E l (EMPT.new E secure)
    let ops := counted E l (EMPT.new E secure)
    (∀ v, econtents ops k = some v → obj.contains E k = .ok true ∧ obj.get E k = .ok v) ∧
    (econtents ops k = none → obj.get E k = .error .keyError ∧
      ((secure = true ∨ ∀ k', k' <+: k → k' ≠ k →
        intact E k' true l (EMPT.new E secure) = true ∧ econtents ops k' = none) → obj.contains E k = .ok false)) := by
  obtain ⟨eops, t⟩ := h.tracks
  have hsec : (all E l (EMPT.new E secure)).trie.secure = secure := all_secure l _
  have hk : k ∈ [k] ++ l.map (fun a => a.call.key) := by simp
  obtain ⟨r1, r2⟩ := t.reads h.log (by rw [hsec]; exact h.fits) (by rw [hsec]; exact h.keys) hk
  obtain ⟨d1, d2⟩ := t.data k hk hi
  refine ⟨fun v hv => ?_, fun hn => ⟨EMPT.get_nothing (by rw [d1, ← d2, hn]), fun hp => ?_⟩⟩
  · rw [d2] at hv
    obtain ⟨c1, c2⟩ := r1 v hv
    refine ⟨c1, ?_⟩
    have hd : dget (all E l (EMPT.new E secure)).data k = some v := by rw [d1, hv]
    rw [EMPT.get_both c2 ((t.among _ (econtents_some_mem hv)).2 k v rfl) hd (t.present k hk v hd).1, if_pos rfl]
  · refine r2 (by rw [← d2, hn]) ?_
    rcases hp with hp | hp
    · exact .inl (hsec.trans hp)
    · refine .inr fun k' p1 p2 => ?_
      by_cases hk' : k' ∈ [k] ++ l.map (fun a => a.call.key)
      · obtain ⟨q1, q2⟩ := hp k' p1 p2
        rw [← (t.data k' hk' q1).2, q2]
      · cases hx : econtents eops k' with
        | none => rfl
        | some x => exact absurd (t.among _ (econtents_some_mem hx)).1 hk'

/-- An `update` can be ended half way at one moment only: before its last access. -/
theorem C111_moment {E : Env} {k : Bytes} {v : Value} {n : Nat} {e : Err} {s : EMPT}
    (h : half E ⟨.update k v, some (n, e)⟩ s = true) :
    n + 1 = ((ECall.update k v).prog E s.trie.secure).accesses s := by
  have hw : whole E ⟨.update k v, some (n, e)⟩ s = false := by
    cases hw : whole E ⟨.update k v, some (n, e)⟩ s with
    | false => rfl
    | true => simp [half, hw] at h
  have hlt : n < ((ECall.update k v).prog E s.trie.secure).accesses s := by simpa [whole] using hw
  cases hv : v.storable with
  | true =>
    rcases EMPT.updateP_cut hv s hlt with ⟨ws, h1⟩ | ⟨h1, _⟩
    · simp [half, run, h1] at h
    · exact h1
  | false =>
    obtain ⟨e, h1, _⟩ := EMPT.updateCallP_other E s.trie.secure k hv
    have : (ECall.update k v).prog E s.trie.secure = .done (.error e) := by
      show (EMPT.updateCallP E s.trie.secure k v >>= fun _ => _) = _
      rw [h1]; rfl
    rw [this] at hlt
    exact absurd hlt (Nat.not_lt_zero n)

/-- What an `update` that is ended half way leaves of its key: a new key is there for `contains` but can be neither read
nor deleted; a key that was there cannot be read. -/
theorem C111_update_partial {E : Env} {secure : Bool} {l : List EAttempt} {a : EAttempt} {k : Bytes} {w : Value}
    (h : EAttempt.Fine E secure (l ++ [a]) [k]) (hi : intact E k true l (EMPT.new E secure) = true)
    (ha : a.call = .update k w) (hh : a.half E (all E l (EMPT.new E secure)) = true) :
    let obj := all E (l ++ [a]) (EMPT.new E secure)
    let ops := counted E l (EMPT.new E secure)
    obj.contains E k = .ok true ∧
    (econtents ops k = none → obj.get E k = .error .keyError ∧ EMPT.delete E k obj = (.error .keyError, obj)) ∧
    (∀ v, econtents ops k = some v → obj.get E k =
      if E.keccak (k ++ w.payload) = E.keccak (k ++ v.payload) then .ok v else .error .invalidReference) := by
  obtain ⟨hf, hl⟩ := Fine.cut h
  have hall : all E (l ++ [a]) (EMPT.new E secure) = (a.run E (all E l (EMPT.new E secure))).2 := by simp [all]
  obtain ⟨eops, t⟩ := hf.tracks
  have hsec : (all E l (EMPT.new E secure)).trie.secure = secure := all_secure l _
  have hk : k ∈ ([k] ++ [a.call.key]) ++ l.map (fun a => a.call.key) := by simp
  obtain ⟨d1, d2⟩ := t.data k hk hi
  simp only [hall]
  rcases a.run_cases (E := E) (all E l (EMPT.new E secure)) with ⟨hw, _⟩ | ⟨_, ⟨ws, e⟩ | ⟨k', v', hc, hv, e⟩ |
      ⟨k', d, ws, hc, _⟩⟩
  · simp [half, hw] at hh
  · simp [half, e] at hh
  · rw [ha] at hc
    injection hc with e1 e2
    subst e1 e2
    rw [e] at hl ⊢
    have hz := h.sizes a (by simp) k w ha
    obtain ⟨-, p2, p3⟩ := t.put hv hk hz (by rw [hsec]; exact hf.fits k hk) hl
    have hse : (MPT.update E k (refOf E k w) (all E l (EMPT.new E secure)).trie).2.secure = secure :=
      (T.update_secure E k _ _).trans hsec
    have t' : Tracks E (([k] ++ [a.call.key]) ++ l.map (fun a => a.call.key))
        { all E l (EMPT.new E secure) with
          trie := (MPT.update E k (refOf E k w) (all E l (EMPT.new E secure)).trie).2 }
        (eops ++ [.update k w]) [] (fun _ => false) := by
      refine ⟨p2, fun _ _ hg => (nomatch hg), fun k' hk' d hd => ⟨(t.present k' hk' d hd).1, ?_⟩, p3⟩
      rw [econtents_append]
      simp only [EOp.apply]
      split
      · simp
      · exact (t.present k' hk' d hd).2
    obtain ⟨r1, -⟩ := t'.reads hl (by rw [hse]; exact hf.fits) (by rw [hse]; exact hf.keys) hk
    obtain ⟨c1, c2⟩ := r1 w (by rw [econtents_append]; simp [EOp.apply, hv])
    refine ⟨c1, fun hn => ?_, fun v hv' => ?_⟩
    · have hd : dget (all E l (EMPT.new E secure)).data k = none := by rw [d1, ← d2, hn]
      refine ⟨EMPT.get_nothing hd, ?_⟩
      unfold EMPT.contains at c1
      rw [EMPT.delete_eq, c1]
      simp only [hd]
    · have hd : dget (all E l (EMPT.new E secure)).data k = some v := by rw [d1, ← d2, hv']
      exact EMPT.get_both c2 hz hd (t.present k hk v hd).1
  · rw [ha] at hc; exact (nomatch hc)

/-- What a `delete` that is ended half way leaves of its key: it is there for `contains`, but can be neither read nor
deleted. -/
theorem C111_delete_partial {E : Env} {secure : Bool} {l : List EAttempt} {a : EAttempt} {k : Bytes}
    (h : EAttempt.Fine E secure (l ++ [a]) [k]) (ha : a.call = .delete k)
    (hh : a.half E (all E l (EMPT.new E secure)) = true) :
    let obj := all E (l ++ [a]) (EMPT.new E secure)
    obj.contains E k = .ok true ∧ obj.get E k = .error .keyError ∧ EMPT.delete E k obj = (.error .keyError, obj) := by
  obtain ⟨hf, hl⟩ := Fine.cut h
  have hall : all E (l ++ [a]) (EMPT.new E secure) = (a.run E (all E l (EMPT.new E secure))).2 := by simp [all]
  obtain ⟨eops, t⟩ := hf.tracks
  have hsec : (all E l (EMPT.new E secure)).trie.secure = secure := all_secure l _
  have hk : k ∈ ([k] ++ [a.call.key]) ++ l.map (fun a => a.call.key) := by simp
  simp only [hall]
  rcases a.run_cases (E := E) (all E l (EMPT.new E secure)) with ⟨hw, _⟩ | ⟨_, ⟨ws, e⟩ | ⟨k', v', hc, hv, e⟩ |
      ⟨k', d, ws, hc, _, hd, e⟩⟩
  · simp [half, hw] at hh
  · simp [half, e] at hh
  · rw [ha] at hc; exact (nomatch hc)
  · rw [ha] at hc
    injection hc with e1
    subst e1
    rw [e] at hl ⊢
    have t' := t.nodes (ws := ws) (cnt' := []) (good' := fun _ => false) hl (fun _ _ hg => (nomatch hg))
    obtain ⟨r1, -⟩ := t'.reads hl (by rw [hsec]; exact hf.fits) (by rw [hsec]; exact hf.keys) hk
    obtain ⟨x, hx⟩ : ∃ x, econtents eops k = some x := by
      cases hx : econtents eops k with
      | none => exact absurd hx (t.present k hk d hd).2
      | some x => exact ⟨x, rfl⟩
    have c1 := (r1 x hx).1
    unfold EMPT.contains at c1
    have hd' : dget (ddel (all E l (EMPT.new E secure)).data k) k = none := by rw [dget_ddel, if_pos rfl]
    refine ⟨c1, EMPT.get_nothing hd', ?_⟩
    rw [EMPT.delete_eq]
    simp only at c1 ⊢
    rw [c1]
    simp only [hd']

/-- Whatever was ended before: a key can be written again, and then it is read. -/
theorem C111_repair {E : Env} {secure : Bool} {l : List EAttempt} {k : Bytes} {v : Value} (hv : v.storable = true)
    (h : EAttempt.Fine E secure (l ++ [⟨.update k v, none⟩]) [k]) :
    let obj := all E (l ++ [⟨.update k v, none⟩]) (EMPT.new E secure)
    obj.contains E k = .ok true ∧ obj.get E k = .ok v := by
  obtain ⟨hf, hl⟩ := Fine.cut h
  have hall : all E (l ++ [⟨.update k v, none⟩]) (EMPT.new E secure) =
    (EMPT.update E k v (all E l (EMPT.new E secure))).2 := by simp [all, run, ECall.seq]
  obtain ⟨eops, t⟩ := hf.tracks
  have hsec : (all E l (EMPT.new E secure)).trie.secure = secure := all_secure l _
  have hk : k ∈ ([k] ++ [k]) ++ l.map (fun a => a.call.key) := by simp
  have hz := h.sizes ⟨.update k v, none⟩ (by simp) k v rfl
  obtain ⟨eops', t'⟩ := t.exec (op := .update k v) (by rw [hsec]; exact hf.fits) (by rw [hsec]; exact hf.keys) hk
    (fun k' v' e => by injection e with e1 e2; subst e1 e2; exact hz) hl
  have hok : (EMPT.exec E (.update k v) (all E l (EMPT.new E secure))).1 = .ok () := by
    have hl1 : LogOk E (MPT.update E k (refOf E k v) (all E l (EMPT.new E secure)).trie).2.store.written := by
      have := hl
      simp only [run, ECall.seq] at this
      rw [EMPT.update_storable hv] at this
      revert this
      cases MPT.update E k (refOf E k v) (all E l (EMPT.new E secure)).trie with
      | mk r t => cases r <;> exact id
    have p1 := (t.put hv hk hz (by rw [hsec]; exact hf.fits k hk) hl1).1
    simp only [EMPT.exec]
    rw [EMPT.update_storable hv]
    revert p1
    cases MPT.update E k (refOf E k v) (all E l (EMPT.new E secure)).trie with
    | mk r t => intro p1; cases p1; rfl
  have hse : (EMPT.exec E (.update k v) (all E l (EMPT.new E secure))).2.trie.secure = secure :=
    (EAttempt.run_secure (⟨.update k v, none⟩ : EAttempt) _).trans hsec
  obtain ⟨d1, d2⟩ := t'.data k hk (by simp [EOp.key, hok])
  obtain ⟨r1, -⟩ := t'.reads hl (by rw [hse]; exact hf.fits) (by rw [hse]; exact hf.keys) hk
  have hx : econtents eops' k = some v := by rw [← d2, econtents_append]; simp [EOp.apply, hv]
  obtain ⟨c1, c2⟩ := r1 v hx
  simp only [hall]
  exact ⟨c1, (EMPT.get_both c2 hz (d1.trans hx) hv).trans (if_pos rfl)⟩

/-- A history in which an update of a present key, an update of a new key, and a delete are ended half way, and others
are ended without harm. -/
def interruptedE : List EAttempt :=
  [⟨.update [0x12] (.bytes [1]), none⟩,
   ⟨.update [0x34] sampleObj, some (2, .runtime)⟩,
   ⟨.update [0x34] sampleObj, none⟩,
   ⟨.update [0x56] (.bytes [3]), none⟩,
   ⟨.delete [0x56], some (3, .runtime)⟩,
   ⟨.update [0x12] (.bytes [2]), some (6, .runtime)⟩,
   ⟨.get [0x12], none⟩,
   ⟨.update [0x78] (.bytes [4]), some (5, .runtime)⟩,
   ⟨.delete [0x56], some (9, .runtime)⟩]

/-- C111_intact_partial: a key that is read though calls that name it were ended, and one that is absent. -/
example : EAttempt.Fine toyEnv false interruptedE [[0x34]] ∧ EAttempt.Fine toyEnv false interruptedE [[0x99]] ∧
    intact toyEnv [0x34] true interruptedE (EMPT.new toyEnv false) = true ∧
    intact toyEnv [0x12] true interruptedE (EMPT.new toyEnv false) = false ∧
    intact toyEnv [] true interruptedE (EMPT.new toyEnv false) = true ∧
    intact toyEnv [0x99] true interruptedE (EMPT.new toyEnv false) = true ∧
    counted toyEnv interruptedE (EMPT.new toyEnv false) =
      [.update [0x12] (.bytes [1]), .update [0x34] sampleObj, .update [0x56] (.bytes [3])] ∧
    (all toyEnv interruptedE (EMPT.new toyEnv false)).get toyEnv [0x34] = .ok sampleObj ∧
    (all toyEnv interruptedE (EMPT.new toyEnv false)).contains toyEnv [0x99] = .ok false := by
  refine ⟨fine_of (by decide +kernel), fine_of (by decide +kernel), ?_⟩
  decide +kernel

/-- C111_update_partial, for a key that was there and for a new one; C111_moment. -/
example : EAttempt.Fine toyEnv false (interruptedE.take 5 ++ [⟨.update [0x12] (.bytes [2]), some (6, .runtime)⟩]) [[0x12]] ∧
    intact toyEnv [0x12] true (interruptedE.take 5) (EMPT.new toyEnv false) = true ∧
    half toyEnv ⟨.update [0x12] (.bytes [2]), some (6, .runtime)⟩
      (all toyEnv (interruptedE.take 5) (EMPT.new toyEnv false)) = true ∧
    (all toyEnv (interruptedE.take 6) (EMPT.new toyEnv false)).get toyEnv [0x12] = .error .invalidReference ∧
    EAttempt.Fine toyEnv false (interruptedE.take 7 ++ [⟨.update [0x78] (.bytes [4]), some (5, .runtime)⟩]) [[0x78]] ∧
    intact toyEnv [0x78] true (interruptedE.take 7) (EMPT.new toyEnv false) = true ∧
    half toyEnv ⟨.update [0x78] (.bytes [4]), some (5, .runtime)⟩
      (all toyEnv (interruptedE.take 7) (EMPT.new toyEnv false)) = true := by
  refine ⟨fine_of (by decide +kernel), by decide +kernel, by decide +kernel, by decide +kernel, fine_of (by decide +kernel),
    by decide +kernel, by decide +kernel⟩

/-- C111_delete_partial. -/
example : EAttempt.Fine toyEnv false (interruptedE.take 8 ++ [⟨.delete [0x56], some (9, .runtime)⟩]) [[0x56]] ∧
    half toyEnv ⟨.delete [0x56], some (9, .runtime)⟩
      (all toyEnv (interruptedE.take 8) (EMPT.new toyEnv false)) = true :=
  ⟨fine_of (by decide +kernel), by decide +kernel⟩

/-- C111_repair: after a delete that was ended half way. -/
example : EAttempt.Fine toyEnv false (interruptedE ++ [⟨.update [0x56] (.bytes [5]), none⟩]) [[0x56]] ∧
    (all toyEnv interruptedE (EMPT.new toyEnv false)).get toyEnv [0x56] = .error .keyError :=
  ⟨fine_of (by decide +kernel), by decide +kernel⟩

end Props
end Pymt
