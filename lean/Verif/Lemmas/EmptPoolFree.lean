import Verif.Spec.EmptPool
import Verif.Lemmas.EmptPool
import Verif.Lemmas.EmptShared

/-!
# Lemmas: threads with an `EMPT` each over the same two dicts, and the same keys
-/

namespace Pymt

namespace EProg
variable {E : Env} {log : List Bytes} {α β : Type}

/-- Run with a trie that is alone, and whatever storable values the data storage has, the program ends like this (`Q`); and
`P` holds all the time. -/
def Copes (E : Env) (log : List Bytes) (P : MPT → Prop) (Q : Py α → MPT → Prop) : EProg α → MPT → Prop
  | .done r, t => P t ∧ Q r t
  | .load k n, t => P t ∧
    match dget t.store.kv k with
    | some v => (n v).Copes E log P Q t
    | none => k = emptyHash E ∧ Q (.error .keyError) t
  | .save k v n, t => P t ∧
    k = E.keccak v ∧ 32 ≤ v.length ∧ v ∈ log ∧ n.Copes E log P Q { t with store := t.store.set k v }
  | .root n, t => P t ∧ (n t.root).Copes E log P Q t
  | .setRoot r n, t => P t ∧ n.Copes E log P Q { t with root := r }
  | .data _ n, t => P t ∧ (∀ v : Value, v.storable = true → (n v).Copes E log P Q t) ∧ Q (.error .keyError) t
  | .setData _ v n, t => P t ∧ v.storable = true ∧ n.Copes E log P Q t
  | .delData _ n, t => P t ∧ n.Copes E log P Q t ∧ Q (.error .keyError) t

theorem Copes.holds {P : MPT → Prop} {Q : Py α → MPT → Prop} {p : EProg α} {t : MPT} (h : p.Copes E log P Q t) : P t := by
  cases p <;> (simp only [Copes] at h; exact h.1)

theorem Copes.bind {p : EProg α} {f : α → EProg β} {t : MPT} {P : MPT → Prop} {Q : Py β → MPT → Prop}
    (h : p.Copes E log P (fun r t => match r with
      | .ok a => (f a).Copes E log P Q t
      | .error e => Q (.error e) t) t) : (p >>= f).Copes E log P Q t := by
  show (p.bind f).Copes E log P Q t
  induction p generalizing t with
  | done r =>
    cases r with
    | ok a => exact h.2
    | error e => exact h
  | load k n ih =>
    simp only [Copes, EProg.bind] at h ⊢
    refine ⟨h.1, ?_⟩
    cases e : dget t.store.kv k with
    | none => rw [e] at h; exact h.2
    | some v => rw [e] at h; exact ih v h.2
  | save k v n ih => exact ⟨h.1, h.2.1, h.2.2.1, h.2.2.2.1, ih h.2.2.2.2⟩
  | root n ih => exact ⟨h.1, ih _ h.2⟩
  | setRoot r n ih => exact ⟨h.1, ih h.2⟩
  | data k n ih => exact ⟨h.1, fun v hv => ih v (h.2.1 v hv), h.2.2⟩
  | setData k v n ih => exact ⟨h.1, h.2.1, ih h.2.2⟩
  | delData k n ih => exact ⟨h.1, ih h.2.1, h.2.2⟩

/-- Saving a node does no harm. -/
def Stable (E : Env) (log : List Bytes) (P : MPT → Prop) : Prop :=
  ∀ t v, P t → v ∈ log → 32 ≤ v.length → P { t with store := t.store.set (E.keccak v) v }

theorem Copes.trie {p : Prog α} {t : MPT} {P : MPT → Prop} {Q : Py α → MPT → Prop} (hs : Stable E log P)
    (hf : p.Fine E t) (hp : Prog.Plain E p) (hw : ∀ x ∈ p.writes t, x ∈ log) (h0 : P t) (h1 : P (p.alone t).2)
    (hq : Q (p.alone t).1 (p.alone t).2) : (EProg.trie p).Copes E log P Q t := by
  induction p generalizing t with
  | done r => exact ⟨h0, hq⟩
  | load k n ih =>
    simp only [Prog.Fine, Prog.writes, EProg.trie, Copes, Prog.alone] at hf hw hq h1 ⊢
    refine ⟨h0, ?_⟩
    cases e : dget t.store.kv k with
    | none => rw [e] at hf hq; exact ⟨hf, hq⟩
    | some v => rw [e] at hf hw hq h1; exact ih v hf (hp v) hw h0 h1 hq
  | save k v n ih =>
    have hv := hw v List.mem_cons_self
    refine ⟨h0, hp.1, hp.2.1, hv, ih hf hp.2.2 (fun x hx => hw x (List.mem_cons_of_mem _ hx)) ?_ h1 hq⟩
    rw [hp.1]
    exact hs t v h0 hv hp.2.1
  | root n ih => exact ⟨h0, ih _ hf (hp _) hw h0 h1 hq⟩
  | setRoot r n ih =>
    obtain ⟨x, rfl⟩ := hp
    exact ⟨h0, h1, hq⟩

end EProg

/-- A trie that is alone, and the same trie over a dict that others use as well. -/
structure Inside (t : MPT) (S : EMPT) : Prop where
  sub : Sub t.store S.trie.store
  root : S.trie.root = t.root
  secure : S.trie.secure = t.secure

/-- Storable values only. -/
def Storables (d : Dict Value) : Prop := ∀ k v, dget d k = some v → v.storable = true

theorem Inside.access {E : Env} {log : List Bytes} {t : MPT} {S : EMPT} {p : EProg EAns} {P : MPT → Prop}
    {Q : Py EAns → MPT → Prop} (hL : LogOk E log) (h : Inside t S) (hg : GS E log S.trie.store) (hd : Storables S.data) (hn : p.Copes E log P Q t) :
    (∃ t', (EWorld.access p S).2.Copes E log P Q t' ∧ Inside t' (EWorld.access p S).1) ∧
    GS E log (EWorld.access p S).1.trie.store ∧ Sub S.trie.store (EWorld.access p S).1.trie.store ∧
    Storables (EWorld.access p S).1.data := by
  cases p with
  | done r => exact ⟨⟨t, hn, h⟩, hg, Sub.refl _, hd⟩
  | load k n =>
    simp only [EWorld.access, EProg.Copes] at hn ⊢
    obtain ⟨hp, hn⟩ := hn
    cases e : dget t.store.kv k with
    | none =>
      rw [e] at hn
      obtain ⟨rfl, hn⟩ := hn
      rw [hg.noEmpty hL]
      exact ⟨⟨t, ⟨hp, hn⟩, h⟩, hg, Sub.refl _, hd⟩
    | some v =>
      rw [e] at hn
      rw [h.sub _ _ e]
      exact ⟨⟨t, hn, h⟩, hg, Sub.refl _, hd⟩
  | save k v n =>
    obtain ⟨_, h1, h2, h3, h4⟩ := hn
    subst h1
    exact ⟨⟨_, h4, h.sub.set _ _, h.root, h.secure⟩, hg.set h3 h2, hg.sub_set hL h3, hd⟩
  | root n =>
    refine ⟨⟨t, ?_, h⟩, hg, Sub.refl _, hd⟩
    simp only [EWorld.access, h.root]
    exact hn.2
  | setRoot r n => exact ⟨⟨_, hn.2, h.sub, rfl, h.secure⟩, hg, Sub.refl _, hd⟩
  | data k n =>
    simp only [EWorld.access, EProg.Copes] at hn ⊢
    cases e : dget S.data k with
    | none => exact ⟨⟨t, ⟨hn.1, hn.2.2⟩, h⟩, hg, Sub.refl _, hd⟩
    | some v => exact ⟨⟨t, hn.2.1 v (hd k v e), h⟩, hg, Sub.refl _, hd⟩
  | setData k v n =>
    refine ⟨⟨t, hn.2.2, h.sub, h.root, h.secure⟩, hg, Sub.refl _, fun k' v' e => ?_⟩
    simp only [EWorld.access, dget_dset] at e
    split at e
    · injection e with e; subst e; exact hn.2.1
    · exact hd k' v' e
  | delData k n =>
    simp only [EWorld.access, EProg.Copes] at hn ⊢
    cases e : dget S.data k with
    | none => exact ⟨⟨t, ⟨hn.1, hn.2.2⟩, h⟩, hg, Sub.refl _, hd⟩
    | some v =>
      refine ⟨⟨t, hn.2.1, h.sub, h.root, h.secure⟩, hg, Sub.refl _, fun k' v' e => ?_⟩
      simp only [dget_ddel] at e
      split at e
      · exact nomatch e
      · exact hd k' v' e

/-! ## The calls -/

/-- The object that a thread alone would have after the changes. -/
structure MadeOk (E : Env) (b : Bool) (keys : List Bytes) (done : List EOp) (t : MPT) : Prop where
  eq : t = (EMPT.after E b done).trie
  secure : t.secure = b
  data : ∀ k, dget (EMPT.after E b done).data k = econtents done k
  map : ∃ m, Inv E t m ∧ RefMap E b keys m (econtents done)
  bears : ∃ a, Bears E t a

theorem EMPT.after_one (E : Env) (b : Bool) (done : List EOp) (op : EOp) :
    EMPT.after E b (done ++ [op]) = (EMPT.exec E op (EMPT.after E b done)).2 := by
  simp [EMPT.after, EMPT.run]

theorem changesMade_one (h : List (ECall × Py EAns)) (c : ECall) (r : Py EAns) :
    changesMade (h ++ [(c, r)]) = changesMade h ++ (match r with | .ok _ => c.op?.toList | .error _ => []) := by
  unfold changesMade
  rw [List.filterMap_append]
  cases r with
  | error e => simp
  | ok a => cases hc : c.op? <;> simp [hc]

section
variable {E : Env} {b : Bool} {keys : List Bytes} {done : List EOp} {t : MPT} {log : List Bytes}

theorem MadeOk.contains (h : MadeOk E b keys done t) (hL : LogOk E t.store.written) (ha : KeysApart E b keys)
    {k : Bytes} (hf : Fits E b k) (hk : k ∈ keys) : t.contains E k = .ok (econtents done k).isSome := by
  obtain ⟨m, h1, h2⟩ := h.map
  have hkey : t.keyOf E k = effective E b k := by rw [keyOf_eq, h.secure]; rfl
  have hm := h2.at_key k hk
  rw [← hkey] at hm
  have hf' : Fits E t.secure k := by rw [h.secure]; exact hf
  cases hc : econtents done k with
  | some x =>
    rw [hc] at hm
    exact h1.contains_some hL hf' hm
  | none =>
    rw [hc] at hm
    refine h1.contains_none hL hf' hm fun e he hne => ?_
    by_cases hn : m e = none
    · exact hn
    · obtain ⟨k', hk', rfl⟩ := h2.only e hn
      rw [hkey] at he hne
      exact absurd (by rw [ha k' hk' k hk he]) hne

theorem MadeOk.get_some (h : MadeOk E b keys done t) {k : Bytes} (hf : Fits E b k) (hk : k ∈ keys) {x : Value}
    (hx : econtents done k = some x) : t.get E k = .ok (refOf E k x) := by
  obtain ⟨m, h1, h2⟩ := h.map
  have hkey : t.keyOf E k = effective E b k := by rw [keyOf_eq, h.secure]; rfl
  have hm := h2.at_key k hk
  rw [← hkey, hx] at hm
  exact h1.get_some (by rw [h.secure]; exact hf) hm

theorem MadeOk.get_none (h : MadeOk E b keys done t) (hL : LogOk E t.store.written) (ha : KeysApart E b keys)
    {k : Bytes} (hf : Fits E b k) (hk : k ∈ keys) (hx : econtents done k = none) : ∃ e, t.get E k = .error e := by
  obtain ⟨m, h1, h2⟩ := h.map
  have hkey : t.keyOf E k = effective E b k := by rw [keyOf_eq, h.secure]; rfl
  have hm := h2.at_key k hk
  rw [← hkey, hx] at hm
  refine h1.get_none hL (by rw [h.secure]; exact hf) hm fun e he hne => ?_
  by_cases hn : m e = none
  · exact hn
  · obtain ⟨k', hk', rfl⟩ := h2.only e hn
    rw [hkey] at he hne
    exact absurd (by rw [ha k hk k' hk' he]) hne

theorem MadeOk.update (h : MadeOk E b keys done t) (ha : KeysApart E b keys) {k : Bytes} (hf : Fits E b k) (hk : k ∈ keys)
    {v : Value} (hs : v.storable = true)
    (hl : LogOk E (EMPT.after E b (done ++ [.update k v])).trie.store.written) :
    (EMPT.after E b (done ++ [.update k v])).trie = (MPT.update E k (refOf E k v) t).2 ∧
    (MPT.update E k (refOf E k v) t).1 = .ok () ∧ MadeOk E b keys (done ++ [.update k v]) (MPT.update E k (refOf E k v) t).2 := by
  have hu := EMPT.update_storable (E := E) (k := k) hs (EMPT.after E b done)
  rw [← h.eq] at hu
  have he : (EMPT.after E b (done ++ [.update k v])).trie = (MPT.update E k (refOf E k v) t).2 := by
    rw [EMPT.after_one]
    show (EMPT.update E k v (EMPT.after E b done)).2.trie = _
    rw [hu]
    cases MPT.update E k (refOf E k v) t with
    | mk r t => cases r <;> rfl
  rw [he] at hl
  obtain ⟨m, h1, h2⟩ := h.map
  have hkey : t.keyOf E k = effective E b k := by rw [keyOf_eq, h.secure]; rfl
  have h3 := h2.update ha hk v
  obtain ⟨hi, hi'⟩ := h1.update (v := refOf E k v) (by rw [hkey]; exact h3.clean) (by rw [h.secure]; exact hf) hl
  have hc : econtents (done ++ [.update k v]) = fun k' => if k' = k then some v else econtents done k' := by
    rw [econtents_append]
    funext k'
    simp [EOp.apply, hs]
  refine ⟨he, hi, he.symm, (T.update_secure E _ _ _).trans h.secure, fun k' => ?_, ⟨_, hi', ?_⟩, ?_⟩
  · rw [EMPT.after_one, hc]
    show dget (EMPT.update E k v (EMPT.after E b done)).2.data k' = _
    rw [hu]
    revert hi
    cases MPT.update E k (refOf E k v) t with
    | mk r t =>
      intro hi
      simp only at hi
      subst hi
      show dget (dset (EMPT.after E b done).data k v) k' = _
      rw [dget_dset, h.data]
      by_cases e : k = k'
      · subst e; simp
      · rw [if_neg e]; simp [Ne.symm e]
  · rw [hkey, hc]; exact h3
  · obtain ⟨a, hb⟩ := h.bears
    exact ⟨_, hb.exec (op := .update k (refOf E k v)) (by rw [h.secure]; exact hf) hl⟩

theorem MadeOk.delete (h : MadeOk E b keys done t) (hL : LogOk E t.store.written) (ha : KeysApart E b keys) {k : Bytes}
    (hf : Fits E b k) (hk : k ∈ keys) {x : Value} (hx : econtents done k = some x)
    (hl : LogOk E (EMPT.after E b (done ++ [.delete k])).trie.store.written) :
    (EMPT.after E b (done ++ [.delete k])).trie = (MPT.delete E k t).2 ∧
    (MPT.delete E k t).1 = .ok () ∧ MadeOk E b keys (done ++ [.delete k]) (MPT.delete E k t).2 := by
  have hcon := h.contains hL ha hf hk
  rw [hx] at hcon
  have hd : dgetItem (EMPT.after E b done).data k = .ok x := by
    unfold dgetItem; rw [h.data, hx]
  have he2 : (EMPT.delete E k (EMPT.after E b done)).2 =
      { trie := (MPT.delete E k t).2, data := ddel (EMPT.after E b done).data k } := by
    simp only [EMPT.delete, M.bind_apply, M.get, M.lift]
    rw [← h.eq, hcon]
    simp only [hd, Option.isSome_some, Bool.not_true, Bool.false_eq_true, if_false, M.bind_apply, M.lift, M.modify,
      EMPT.onTrie, ← h.eq]
  have he : (EMPT.after E b (done ++ [.delete k])).trie = (MPT.delete E k t).2 := by
    rw [EMPT.after_one]
    show (EMPT.delete E k (EMPT.after E b done)).2.trie = _
    rw [he2]
  rw [he] at hl
  obtain ⟨m, h1, h2⟩ := h.map
  have hkey : t.keyOf E k = effective E b k := by rw [keyOf_eq, h.secure]; rfl
  have hm := h2.at_key k hk
  rw [← hkey, hx] at hm
  obtain ⟨hi, hi'⟩ := h1.delete_some hm (by rw [h.secure]; exact hf) hl
  have hc : econtents (done ++ [.delete k]) = fun k' => if k' = k then none else econtents done k' := by
    rw [econtents_append]; rfl
  refine ⟨he, hi, he.symm, (T.delete_secure E _ _).trans h.secure, fun k' => ?_, ⟨_, hi', ?_⟩, ?_⟩
  · rw [EMPT.after_one, hc]
    show dget (EMPT.delete E k (EMPT.after E b done)).2.data k' = _
    rw [he2, dget_ddel, h.data]
    by_cases e : k = k'
    · subst e; simp
    · rw [if_neg e]; simp [Ne.symm e]
  · rw [hkey, hc]; exact h2.delete ha hk
  · obtain ⟨a, hb⟩ := h.bears
    exact ⟨_, hb.exec (op := .delete k) (by rw [h.secure]; exact hf) hl⟩

/-- The changes after a call. -/
def stepMade (done : List EOp) (c : ECall) (r : Py EAns) : List EOp :=
  done ++ (match r with | .ok _ => c.op?.toList | .error _ => [])

/-- In the middle of a call: the trie is as before it, or as after it, up to nodes that are not in use. -/
def Halfway (E : Env) (log : List Bytes) (b : Bool) (keys : List Bytes) (done : List EOp) (c : ECall) (t : MPT) : Prop :=
  GS E log t.store ∧ ∃ (f : Bool) (t' : MPT), MadeOk E b keys (done ++ if f then c.op?.toList else []) t' ∧
    Sub t'.store t.store ∧ t.root = t'.root ∧ t.secure = t'.secure

theorem Halfway.stable (hL : LogOk E log) {c : ECall} : EProg.Stable E log (Halfway E log b keys done c) := by
  rintro t v ⟨hg, f, t', h1, h2, h3, h4⟩ hv hl
  exact ⟨hg.set hv hl, f, t', h1, h2.trans (hg.sub_set hL hv), h3, h4⟩

theorem ECall.copes (h : MadeOk E b keys done t) (hL : LogOk E log) (hg : GS E log t.store)
    (hw : ∀ x ∈ t.store.written, x ∈ log) (ha : KeysApart E b keys)
    (hsize : ∀ k v, EOp.update k v ∈ done → k.length + v.payload.length < 2 ^ 60)
    {c : ECall} (hf : Fits E b c.key) (hk : c.key ∈ keys)
    (hop : ∀ op, c.op? = some op → ∀ x ∈ (EMPT.after E b (done ++ [op])).trie.store.written, x ∈ log) :
    (c.prog E b).Copes E log (Halfway E log b keys done c) (fun r t' => c.Fair E (econtents done) r ∧ MadeOk E b keys (stepMade done c r) t') t := by
  obtain rfl := h.secure
  have hwl : LogOk E t.store.written := hL.mono hw
  have herr : ∀ e, MadeOk E t.secure keys (stepMade done c (.error e)) t := fun e => by
    simpa [stepMade] using h
  have hP : Halfway E log t.secure keys done c t :=
    ⟨hg, false, t, by simpa using h, Sub.refl _, rfl, rfl⟩
  have hcontains : ∀ k, Fits E t.secure k → ∀ Q : Py Bool → MPT → Prop, Q (t.contains E k) t →
      (EMPT.containsCallP E t.secure k).Copes E log (Halfway E log t.secure keys done c) Q t := by
    intro k hf Q hq
    obtain ⟨h1, h2⟩ := Call.tidy h.bears hL hg (c := .contains k) hf hw
    unfold EMPT.containsCallP
    simp only [Call.prog] at h1 h2
    have ea : (MPT.containsCallP E (t.keyOf E k)).alone t = (t.contains E k, t) := Prog.Reads.containsCall E k
    rw [keyOf_eq] at ea
    refine .trie (Halfway.stable hL) (Prog.fine_left h1) (Prog.Quiet.containsCall E _).plain
      (fun x hx => h2 x (Prog.writes_left hx)) hP (by rw [ea]; exact hP) ?_
    rw [ea]
    exact hq
  cases c with
  | update k v =>
    change Fits E t.secure k at hf
    change k ∈ keys at hk
    cases hs : v.storable with
    | false =>
      have e : EMPT.updateCallP E t.secure k v = .raise .notImplemented ∨ ∃ e, EMPT.updateCallP E t.secure k v = .raise e := by
        cases v with
        | bytes x => exact nomatch hs
        | bytearray x => exact .inr ⟨_, rfl⟩
        | obj i a c enc =>
          cases a with
          | false => exact .inl rfl
          | true =>
            cases c with
            | false => exact .inl rfl
            | true => exact nomatch hs
      obtain ⟨e, he⟩ : ∃ e, EMPT.updateCallP E t.secure k v = .raise e := by
        rcases e with e | e
        · exact ⟨_, e⟩
        · exact e
      show (EMPT.updateCallP E t.secure k v >>= fun _ => pure EAns.none).Copes E log _ _ t
      rw [he]
      refine ⟨hP, ?_, herr e⟩
      simp [ECall.Fair, hs]
    | true =>
      have e : EMPT.updateCallP E t.secure k v = EMPT.putP E t.secure k v := by
        match v, hs with
        | .bytes _, _ => rfl
        | .obj _ true true _, _ => rfl
      have hx := hop _ rfl
      obtain ⟨e1, e2, e3⟩ := h.update ha hf hk hs (hL.mono hx)
      rw [e1] at hx
      obtain ⟨h1, h2⟩ := Call.tidy h.bears hL hg (c := .update k (refOf E k v)) hf hx
      show (EMPT.updateCallP E t.secure k v >>= fun _ => pure EAns.none).Copes E log _ _ t
      rw [e]
      unfold EMPT.putP
      rw [Props.ofValue_storable hs]
      refine EProg.Copes.bind ?_
      refine EProg.Copes.bind (p := EProg.trie _) ?_
      simp only [Call.prog] at h1 h2
      have ea := Prog.updateCall_alone E k (refOf E k v) t
      rw [keyOf_eq] at ea
      have hend : Halfway E log t.secure keys done (.update k v) (MPT.update E k (refOf E k v) t).2 := by
        refine ⟨?_, true, _, e3, Sub.refl _, rfl, rfl⟩
        rw [← ea]
        exact Prog.alone_gs _ _ (Prog.Plain.updateCall _ _) hg fun x hx => h2 x (Prog.writes_left hx)
      refine .trie (Halfway.stable hL) (Prog.fine_left h1) (Prog.Plain.updateCall _ _)
        (fun x hx => h2 x (Prog.writes_left hx)) hP ?_ ?_
      · exact (congrArg Prod.snd ea) ▸ hend
      · change (MPT.updateCallP E (if t.secure then E.keccak k else k) (DataRef.encode E ⟨k, v.payload⟩)).alone t = _ at ea
        rw [ea, e2]
        refine ⟨hend, hs, hend, hend, ?_, e3⟩
        simp [ECall.Fair, hs]
  | delete k =>
    change Fits E t.secure k at hf
    change k ∈ keys at hk
    refine EProg.Copes.bind ?_
    refine EProg.Copes.bind (hcontains k hf _ ?_)
    rw [h.contains hwl ha hf hk]
    cases hx : econtents done k with
    | none =>
      refine ⟨hP, ?_, herr _⟩
      simp [ECall.Fair, hx]
    | some x =>
      have hw' := hop _ rfl
      obtain ⟨e1, e2, e3⟩ := h.delete hwl ha hf hk hx (hL.mono hw')
      rw [e1] at hw'
      obtain ⟨h1, h2⟩ := Call.tidy h.bears hL hg (c := .delete k) hf hw'
      show (EMPT.dropP E t.secure k).Copes E log _ _ t
      refine ⟨hP, ?_, ?_, herr _⟩
      · simp only [Call.prog] at h1 h2
        have ea := Prog.deleteCall_alone E k t
        rw [keyOf_eq] at ea
        have hend : Halfway E log t.secure keys done (.delete k) (MPT.delete E k t).2 := by
          refine ⟨?_, true, _, e3, Sub.refl _, rfl, rfl⟩
          rw [← ea]
          exact Prog.alone_gs _ _ (Prog.Plain.deleteCall _) hg fun x hx => h2 x (Prog.writes_left hx)
        refine .trie (Halfway.stable hL) (Prog.fine_left h1) (Prog.Plain.deleteCall _)
          (fun x hx => h2 x (Prog.writes_left hx)) hP (by rw [ea]; exact hend) ?_
        rw [ea, e2]
        refine ⟨hend, ?_, e3⟩
        simp [ECall.Fair, hx]
      · simp [ECall.Fair, hx]
  | get k =>
    change Fits E t.secure k at hf
    change k ∈ keys at hk
    refine EProg.Copes.bind ?_
    obtain ⟨h1, h2⟩ := Call.tidy h.bears hL hg (c := .get k) hf hw
    unfold EMPT.getCallP
    refine EProg.Copes.bind (p := EProg.dataItem k) ⟨hP, fun v hv => ⟨hP, ?_⟩, ?_, herr _⟩
    · refine EProg.Copes.bind (p := EProg.trie _) ?_
      simp only [Call.prog] at h1 h2
      have ea : (MPT.getCallP E (t.keyOf E k)).alone t = (t.get E k, t) := Prog.Reads.getCall E k
      rw [keyOf_eq] at ea
      refine .trie (Halfway.stable hL) (Prog.fine_left h1) (Prog.Quiet.getCall E _).plain
        (fun x hx => h2 x (Prog.writes_left hx)) hP (by rw [ea]; exact hP) ?_
      rw [ea]
      cases hx : econtents done k with
      | none =>
        obtain ⟨e, he⟩ := h.get_none hwl ha hf hk hx
        rw [he]
        refine ⟨?_, herr _⟩
        simp [ECall.Fair, hx]
      | some x =>
        rw [h.get_some hf hk hx]
        have hc : EMPT.compareRef E k (refOf E k x) v =
            if E.keccak (k ++ x.payload) = E.keccak (k ++ v.payload) then .ok v else .error .invalidReference := by
          unfold EMPT.compareRef
          simp only [Except.bind_ok', decode_ref (hsize k x (econtents_some_mem hx)), Props.ofValue_storable hv]
          by_cases e : E.keccak (k ++ x.payload) = E.keccak (k ++ v.payload)
          · rw [(DataRef.eq_iff E ⟨k, x.payload⟩ ⟨k, v.payload⟩).2 e, if_pos e]; rfl
          · rw [if_neg e]
            have : DataRef.eq E ⟨k, x.payload⟩ ⟨k, v.payload⟩ = false := by
              rw [Bool.eq_false_iff]; exact fun hb => e ((DataRef.eq_iff E _ _).1 hb)
            rw [this]; rfl
        simp only [EProg.lift, hc]
        by_cases e : E.keccak (k ++ x.payload) = E.keccak (k ++ v.payload)
        · rw [if_pos e]
          refine ⟨hP, hP, ?_, ?_⟩
          · simp only [ECall.Fair, hx]
            exact .inl ⟨v, rfl, e.symm⟩
          · simpa [stepMade, ECall.op?] using h
        · rw [if_neg e]
          refine ⟨hP, ?_, herr _⟩
          simp [ECall.Fair, hx]
    · simp only [ECall.Fair]
      cases econtents done k with
      | none => exact ⟨_, rfl⟩
      | some x => exact .inr (.inl trivial)
  | contains k =>
    change Fits E t.secure k at hf
    change k ∈ keys at hk
    refine EProg.Copes.bind (hcontains k hf _ ?_)
    rw [h.contains hwl ha hf hk]
    refine ⟨hP, ?_, ?_⟩
    · simp [ECall.Fair]
    · simpa [stepMade, ECall.op?] using h

end

/-! ## The threads -/

theorem changesMade_sublist (h : List (ECall × Py EAns)) : (changesMade h).Sublist ((h.map (·.1)).filterMap ECall.op?) := by
  induction h with
  | nil => exact List.Sublist.slnil
  | cons e h ih =>
    obtain ⟨c, r⟩ := e
    unfold changesMade at ih ⊢
    simp only [List.filterMap_cons, List.map_cons]
    cases hc : c.op? with
    | none => cases r <;> simpa [hc] using ih
    | some op =>
      cases r with
      | error e => exact (ih.cons op)
      | ok a => exact (ih.cons_cons op)

theorem stepMade_eq (h : List (ECall × Py EAns)) (c : ECall) (r : Py EAns) :
    stepMade (changesMade h) c r = changesMade (h ++ [(c, r)]) := (changesMade_one h c r).symm

/-- What the outcomes of a thread must be. -/
def HistFair (E : Env) (h : List (ECall × Py EAns)) : Prop :=
  ∀ (p : Nat) (c : ECall) (r : Py EAns), h[p]? = some (c, r) → c.Fair E (econtents (changesMade (h.take p))) r

theorem HistFair.snoc {E : Env} {h : List (ECall × Py EAns)} (hh : HistFair E h) {c : ECall} {r : Py EAns}
    (hr : c.Fair E (econtents (changesMade h)) r) : HistFair E (h ++ [(c, r)]) := by
  intro p c' r' e
  by_cases hp : p < h.length
  · rw [List.getElem?_append_left hp] at e
    rw [List.take_append_of_le_length (by omega)]
    exact hh p c' r' e
  · have : p = h.length := by
      have := (List.getElem?_eq_some_iff.1 e).1
      simp at this
      omega
    subst this
    simp at e
    obtain ⟨rfl, rfl⟩ := e
    simpa using hr

/-- A thread, the calls it has made with their outcomes, and its trie as if it were alone. -/
structure FreeThread (E : Env) (log : List Bytes) (b : Bool) (calls : List ECall) (th : EThread) (S : EMPT)
    (h : List (ECall × Py EAns)) (t : MPT) : Prop where
  inside : Inside t S
  outs : th.outs = h.map (·.2)
  fair : HistFair E h
  idle : th.cur = none → calls = h.map (·.1) ++ th.rest ∧ MadeOk E b (calls.map ECall.key) (changesMade h) t
  busy : ∀ p, th.cur = some p → ∃ c, calls = h.map (·.1) ++ c :: th.rest ∧
    p.Copes E log (Halfway E log b (calls.map ECall.key) (changesMade h) c) (fun r t' => c.Fair E (econtents (changesMade h)) r ∧
      MadeOk E b (calls.map ECall.key) (stepMade (changesMade h) c r) t') t

/-- All the threads. -/
structure FreeOk (E : Env) (log : List Bytes) (secure : Nat → Bool) (calls : Nat → List ECall) (w : EPool) : Prop where
  gs : GS E log w.store
  sec : w.secure = secure
  data : Storables w.data
  thread : ∀ j, ∃ h t, FreeThread E log (secure j) (calls j) (w.threads j) (w.obj j) h t

section
variable {E : Env} {log : List Bytes} {secure : Nat → Bool} {calls : Nat → List ECall} {w : EPool}

theorem FreeOk.setThread (h : FreeOk E log secure calls w) (j : Nat) (th : EThread)
    (ht : ∃ hh t, FreeThread E log (secure j) (calls j) th (w.obj j) hh t) : FreeOk E log secure calls (w.setThread j th) where
  gs := h.gs
  sec := h.sec
  data := h.data
  thread i := by
    by_cases e : i = j
    · subst e
      simp only [EPool.setThread, if_true]
      exact ht
    · simp only [EPool.setThread, if_neg e]
      exact h.thread i

theorem FreeOk.step (hP : PoolPeace E secure calls log) (h : FreeOk E log secure calls w) (j : Nat) :
    FreeOk E log secure calls (w.step E j) := by
  obtain ⟨hh, t, hs⟩ := h.thread j
  have hgs : GS E log t.store := h.gs.of_sub hs.inside.sub
  cases hcur : (w.threads j).cur with
  | none =>
    cases hrest : (w.threads j).rest with
    | nil =>
      have e : w.step E j = w := by unfold EPool.step; simp only [hcur, hrest]
      rw [e]; exact h
    | cons c rest =>
      have e : w.step E j = w.setThread j { w.threads j with cur := some (c.prog E (w.secure j)), rest := rest } := by
        unfold EPool.step; simp only [hcur, hrest]
      rw [e]
      obtain ⟨hcalls, hm⟩ := hs.idle hcur
      rw [hrest] at hcalls
      have hc : c ∈ calls j := by rw [hcalls]; simp
      have hsub : (changesMade hh).Sublist ((calls j).filterMap ECall.op?) := by
        rw [hcalls, List.filterMap_append]
        exact (changesMade_sublist hh).trans (List.sublist_append_left _ _)
      refine h.setThread j _ ⟨hh, t, hs.inside, hs.outs, hs.fair, fun e => (nomatch e), fun p hp => ⟨c, hcalls, ?_⟩⟩
      injection hp with hp
      subst hp
      rw [h.sec]
      refine ECall.copes hm hP.log hgs (fun x hx => hP.all j _ hsub x (by rw [← hm.eq]; exact hx)) (hP.apart j)
        (fun k v hv => ?_) (hP.fits j c hc) (List.mem_map_of_mem hc) fun op hop => hP.all j _ ?_
      · obtain ⟨c', hc', e'⟩ := List.mem_filterMap.1 (hsub.subset hv)
        refine hP.size j k v ?_
        cases c' <;> simp [ECall.op?] at e'
        obtain ⟨rfl, rfl⟩ := e'
        exact hc'
      · rw [hcalls, List.filterMap_append]
        refine (changesMade_sublist hh).append ?_
        simp [hop]
  | some p =>
    obtain ⟨c, hcalls, hn⟩ := hs.busy p hcur
    have move : FreeOk E log secure calls
        ((w.setThread j { w.threads j with cur := some (EWorld.access p (w.obj j)).2 }).put j
          (EWorld.access p (w.obj j)).1) := by
      obtain ⟨⟨t', a1, a2⟩, a3, a4, a5⟩ := hs.inside.access hP.log h.gs h.data hn
      refine ⟨a3, h.sec, a5, fun i => ?_⟩
      by_cases e : i = j
      · subst e
        have eo : ((w.setThread i { w.threads i with cur := some (EWorld.access p (w.obj i)).2 }).put i
            (EWorld.access p (w.obj i)).1).obj i = (EWorld.access p (w.obj i)).1 := by
          have e1 : w.secure i = (EWorld.access p (w.obj i)).1.trie.secure := (EProg.access_secure p (w.obj i)).symm
          generalize EWorld.access p (w.obj i) = x at e1 ⊢
          obtain ⟨⟨⟨st, r, b⟩, d⟩, q⟩ := x
          simp only [EPool.obj, EPool.put, EPool.setThread, if_true] at e1 ⊢
          rw [e1]
        have et : ((w.setThread i { w.threads i with cur := some (EWorld.access p (w.obj i)).2 }).put i
            (EWorld.access p (w.obj i)).1).threads i = { w.threads i with cur := some (EWorld.access p (w.obj i)).2 } := by
          simp [EPool.put, EPool.setThread]
        rw [eo, et]
        refine ⟨hh, t', a2, hs.outs, hs.fair, fun e => (nomatch e), fun q hq => ⟨c, hcalls, ?_⟩⟩
        injection hq with hq
        subst hq
        exact a1
      · obtain ⟨hh', t'', hs'⟩ := h.thread i
        have et : ((w.setThread j { w.threads j with cur := some (EWorld.access p (w.obj j)).2 }).put j
            (EWorld.access p (w.obj j)).1).threads i = w.threads i := by
          simp [EPool.put, EPool.setThread, e]
        rw [et]
        refine ⟨hh', t'', ⟨hs'.inside.sub.trans a4, ?_, hs'.inside.secure⟩, hs'.outs, hs'.fair, hs'.idle, hs'.busy⟩
        simp only [EPool.obj, EPool.put, EPool.setThread, if_neg e]
        exact hs'.inside.root
    cases p with
    | done r =>
      have e : w.step E j = w.setThread j { w.threads j with cur := none, outs := (w.threads j).outs ++ [r] } := by
        unfold EPool.step; simp only [hcur]
      rw [e]
      obtain ⟨-, hfair, hm⟩ := hn
      rw [stepMade_eq] at hm
      refine h.setThread j _ ⟨hh ++ [(c, r)], t, hs.inside, ?_, hs.fair.snoc hfair, fun _ => ⟨?_, hm⟩, fun p hp => (nomatch hp)⟩
      · simp [hs.outs]
      · simpa using hcalls
    | load | save | root | setRoot | data | setData | delData =>
      unfold EPool.step
      simp only [hcur]
      exact move

theorem FreeOk.run (hP : PoolPeace E secure calls log) (h : FreeOk E log secure calls w) (sched : List Nat) :
    FreeOk E log secure calls (w.run E sched) := by
  induction sched generalizing w with
  | nil => exact h
  | cons j sched ih => exact ih (h.step hP j)

end

theorem FreeOk.new (E : Env) (log : List Bytes) (secure : Nat → Bool) (calls : Nat → List ECall) :
    FreeOk E log secure calls (EPool.new E secure calls) where
  gs := GS.empty E log
  sec := rfl
  data _ _ e := nomatch e
  thread j := by
    refine ⟨[], MPT.new E (secure j), ⟨Sub.refl _, rfl, rfl⟩, rfl, fun p c r e => by simp at e, fun _ => ⟨rfl, ?_⟩,
      fun _ hp => (nomatch hp)⟩
    refine ⟨rfl, rfl, fun _ => rfl, ⟨fun _ => none, ?_, ⟨fun _ _ => rfl, fun _ h => absurd rfl h, fun _ h => nomatch h⟩⟩,
      ⟨_, Bears.new E (secure j)⟩⟩
    exact Inv.new E (secure j)

end Pymt
