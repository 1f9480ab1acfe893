import Verif.Spec.EmptInterrupt
import Verif.Lemmas.Interrupt
import Verif.Lemmas.EmptTurns
import Verif.Lemmas.EmptShared
import Verif.Lemmas.Crowd
import Verif.Props.Crowd

/-!
# Calls on an `EMPT` that are ended by an exception from elsewhere
-/

namespace Pymt
namespace EProg

variable {E : Env} {α β : Type}

theorem cut_all (p : EProg α) (s : EMPT) {n : Nat} (h : p.accesses s ≤ n) : p.cut n s = (p.alone s).2 := by
  induction p generalizing s n with
  | done r => cases n <;> rfl
  | load k p ih =>
    simp only [accesses] at h
    cases n with
    | zero => exfalso; split at h <;> simp at h
    | succ n =>
      simp only [cut, alone]
      cases e : dget s.trie.store.kv k with
      | none => rfl
      | some v => rw [e] at h; exact ih v s (Nat.le_of_succ_le_succ h)
  | data k p ih =>
    simp only [accesses] at h
    cases n with
    | zero => exfalso; split at h <;> simp at h
    | succ n =>
      simp only [cut, alone]
      cases e : dget s.data k with
      | none => rfl
      | some v => rw [e] at h; exact ih v s (Nat.le_of_succ_le_succ h)
  | delData k p ih =>
    simp only [accesses] at h
    cases n with
    | zero => exfalso; split at h <;> simp at h
    | succ n =>
      simp only [cut, alone]
      cases e : dget s.data k with
      | none => rfl
      | some v => rw [e] at h; exact ih _ (Nat.le_of_succ_le_succ h)
  | save k v p ih =>
    cases n with
    | zero => simp [accesses] at h
    | succ n => exact ih _ (Nat.le_of_succ_le_succ h)
  | setData k v p ih =>
    cases n with
    | zero => simp [accesses] at h
    | succ n => exact ih _ (Nat.le_of_succ_le_succ h)
  | root p ih =>
    cases n with
    | zero => simp [accesses] at h
    | succ n => exact ih _ _ (Nat.le_of_succ_le_succ h)
  | setRoot r p ih =>
    cases n with
    | zero => simp [accesses] at h
    | succ n => exact ih _ (Nat.le_of_succ_le_succ h)

theorem accesses_bind (p : EProg α) (f : α → EProg β) (s : EMPT) :
    (p >>= f).accesses s = p.accesses s + match p.alone s with
      | (.ok a, s') => (f a).accesses s'
      | (.error _, _) => 0 := by
  show (p.bind f).accesses s = _
  induction p generalizing s with
  | done r => cases r <;> simp [EProg.bind, accesses, alone]
  | load k n ih =>
    simp only [EProg.bind, alone, accesses]
    cases dget s.trie.store.kv k with
    | none => rfl
    | some v => simp only; rw [ih, Nat.add_right_comm]
  | data k n ih =>
    simp only [EProg.bind, alone, accesses]
    cases dget s.data k with
    | none => rfl
    | some v => simp only; rw [ih, Nat.add_right_comm]
  | delData k n ih =>
    simp only [EProg.bind, alone, accesses]
    cases dget s.data k with
    | none => rfl
    | some v => simp only; rw [ih, Nat.add_right_comm]
  | save k v n ih => simp only [EProg.bind, alone, accesses]; rw [ih, Nat.add_right_comm]
  | setData k v n ih => simp only [EProg.bind, alone, accesses]; rw [ih, Nat.add_right_comm]
  | root n ih => simp only [EProg.bind, alone, accesses]; rw [ih, Nat.add_right_comm]
  | setRoot r n ih => simp only [EProg.bind, alone, accesses]; rw [ih, Nat.add_right_comm]

theorem cut_bind (p : EProg α) (f : α → EProg β) (s : EMPT) (n : Nat) :
    (p >>= f).cut n s = if n < p.accesses s then p.cut n s else
      match p.alone s with
      | (.ok a, s') => (f a).cut (n - p.accesses s) s'
      | (.error _, s') => s' := by
  show (p.bind f).cut n s = _
  induction p generalizing s n with
  | done r => cases r <;> cases n <;> simp [EProg.bind, accesses, alone, cut]
  | load k m ih =>
    cases n with
    | zero => simp only [cut]; rw [if_pos]; simp only [accesses]; split <;> omega
    | succ n =>
      simp only [EProg.bind, alone, accesses, cut]
      cases dget s.trie.store.kv k with
      | none => simp
      | some v => simp only; rw [ih]; simp only [Nat.add_lt_add_iff_right, Nat.add_sub_add_right]
  | data k m ih =>
    cases n with
    | zero => simp only [cut]; rw [if_pos]; simp only [accesses]; split <;> omega
    | succ n =>
      simp only [EProg.bind, alone, accesses, cut]
      cases dget s.data k with
      | none => simp
      | some v => simp only; rw [ih]; simp only [Nat.add_lt_add_iff_right, Nat.add_sub_add_right]
  | delData k m ih =>
    cases n with
    | zero => simp only [cut]; rw [if_pos]; simp only [accesses]; split <;> omega
    | succ n =>
      simp only [EProg.bind, alone, accesses, cut]
      rcases Option.eq_none_or_eq_some (dget s.data k) with e | ⟨v, e⟩
      · simp [e]
      · simp only [e]; rw [ih]; simp only [Nat.add_lt_add_iff_right, Nat.add_sub_add_right]
  | save k v m ih =>
    cases n with
    | zero => simp [cut, accesses]
    | succ n =>
      simp only [EProg.bind, alone, accesses, cut]; rw [ih]
      simp only [Nat.add_lt_add_iff_right, Nat.add_sub_add_right]
  | setData k v m ih =>
    cases n with
    | zero => simp [cut, accesses]
    | succ n =>
      simp only [EProg.bind, alone, accesses, cut]; rw [ih]
      simp only [Nat.add_lt_add_iff_right, Nat.add_sub_add_right]
  | root m ih =>
    cases n with
    | zero => simp [cut, accesses]
    | succ n =>
      simp only [EProg.bind, alone, accesses, cut]; rw [ih]
      simp only [Nat.add_lt_add_iff_right, Nat.add_sub_add_right]
  | setRoot r m ih =>
    cases n with
    | zero => simp [cut, accesses]
    | succ n =>
      simp only [EProg.bind, alone, accesses, cut]; rw [ih]
      simp only [Nat.add_lt_add_iff_right, Nat.add_sub_add_right]

theorem trie_accesses (p : Prog α) (s : EMPT) : (trie p).accesses s = p.accesses s.trie := by
  induction p generalizing s with
  | done r => rfl
  | load k n ih =>
    simp only [trie, accesses, Prog.accesses]
    cases dget s.trie.store.kv k with
    | none => rfl
    | some v => simp only; rw [ih]
  | save k v n ih => simp only [trie, accesses, Prog.accesses]; rw [ih]
  | root n ih => simp only [trie, accesses, Prog.accesses]; rw [ih]
  | setRoot r n ih => simp only [trie, accesses, Prog.accesses]; rw [ih]

theorem trie_cut (p : Prog α) (s : EMPT) (n : Nat) : (trie p).cut n s = { s with trie := p.cut n s.trie } := by
  induction p generalizing s n with
  | done r => cases n <;> rfl
  | load k m ih =>
    cases n with
    | zero => rfl
    | succ n =>
      simp only [trie, cut, Prog.cut]
      cases dget s.trie.store.kv k with
      | none => rfl
      | some v => simp only; rw [ih]
  | save k v m ih =>
    cases n with
    | zero => rfl
    | succ n => simp only [trie, cut, Prog.cut]; rw [ih]
  | root m ih =>
    cases n with
    | zero => rfl
    | succ n => simp only [trie, cut, Prog.cut]; rw [ih]
  | setRoot r m ih =>
    cases n with
    | zero => rfl
    | succ n => simp only [trie, cut, Prog.cut]; rw [ih]

theorem Still.cut {p : EProg α} (h : p.Still) (s : EMPT) (n : Nat) : p.cut n s = s := by
  induction p generalizing n with
  | done r => cases n <;> rfl
  | load k m ih =>
    cases n with
    | zero => rfl
    | succ n =>
      simp only [EProg.cut]
      cases dget s.trie.store.kv k with
      | none => rfl
      | some v => exact ih v (h v) n
  | root m ih =>
    cases n with
    | zero => rfl
    | succ n => exact ih _ (h _) n
  | data k m ih =>
    cases n with
    | zero => rfl
    | succ n =>
      simp only [EProg.cut]
      cases dget s.data k with
      | none => rfl
      | some v => exact ih v (h v) n
  | save | setRoot | setData | delData => exact h.elim

end EProg

namespace EMPT

variable {E : Env}

/-- What is left when an `update` is ended early. -/
theorem updateP_cut {k : Bytes} {v : Value} (hv : v.storable = true) (s : EMPT) {n : Nat}
    (h : n < ((ECall.update k v).prog E s.trie.secure).accesses s) :
    (∃ ws, ((ECall.update k v).prog E s.trie.secure).cut n s =
      { s with trie := { s.trie with store := replay E ws s.trie.store } }) ∨
    (n + 1 = ((ECall.update k v).prog E s.trie.secure).accesses s ∧ ((ECall.update k v).prog E s.trie.secure).cut n s =
      { s with trie := (MPT.update E k (refOf E k v) s.trie).2 }) := by
  have hp : (ECall.update k v).prog E s.trie.secure =
      (EProg.trie (MPT.updateCallP E (if s.trie.secure then E.keccak k else k) (refOf E k v)) >>= fun _ =>
        EProg.setData k v (.done (.ok EAns.none))) := by
    show (EMPT.updateCallP E s.trie.secure k v >>= fun _ => EProg.done (.ok EAns.none)) = _
    rw [EMPT.updateCallP_storable E _ k hv]
    unfold EMPT.putP
    rw [Props.ofValue_storable hv]
    show ((EProg.trie (MPT.updateCallP E (if s.trie.secure then E.keccak k else k) (refOf E k v)) >>= fun _ =>
      EProg.setData k v (.done (.ok ()))) >>= fun _ => EProg.done (.ok EAns.none)) = _
    generalize MPT.updateCallP E (if s.trie.secure then E.keccak k else k) (refOf E k v) = q
    show ((EProg.trie q).bind _).bind _ = (EProg.trie q).bind _
    clear h
    induction q with
    | done r => cases r <;> rfl
    | load k n ih => simp only [EProg.trie, EProg.bind]; congr 1; funext v; exact ih v
    | save k v n ih => simp only [EProg.trie, EProg.bind]; congr 1
    | root n ih => simp only [EProg.trie, EProg.bind]; congr 1; funext v; exact ih v
    | setRoot r n ih => simp only [EProg.trie, EProg.bind]; congr 1
  have ha : (MPT.updateCallP E (if s.trie.secure then E.keccak k else k) (refOf E k v)).alone s.trie =
      MPT.update E k (refOf E k v) s.trie := Prog.updateCall_alone E k _ _
  rw [hp] at h ⊢
  rw [EProg.accesses_bind, EProg.trie_alone, EProg.trie_accesses, ha] at h ⊢
  rw [EProg.cut_bind, EProg.trie_alone, EProg.trie_accesses, EProg.trie_cut, ha]
  by_cases hn : n < (MPT.updateCallP E (if s.trie.secure then E.keccak k else k) (refOf E k v)).accesses s.trie
  · rw [if_pos hn]
    obtain ⟨ws, e⟩ := Prog.cut_early _ _ (Prog.Plain.updateCall (E := E) _ _) hn
    exact .inl ⟨ws, by rw [e]⟩
  · rw [if_neg hn]
    revert h
    cases MPT.update E k (refOf E k v) s.trie with
    | mk r t =>
      cases r with
      | error e => intro h; simp at h; omega
      | ok u =>
        intro h
        simp only [EProg.accesses] at h
        refine .inr ⟨by simp only [EProg.accesses]; omega, ?_⟩
        have : n - (MPT.updateCallP E (if s.trie.secure then E.keccak k else k) (refOf E k v)).accesses s.trie = 0 := by
          omega
        simp only [this]
        rfl

/-- What is left when a `delete` is ended early. -/
theorem deleteP_cut (k : Bytes) (s : EMPT) {n : Nat}
    (h : n < ((ECall.delete k).prog E s.trie.secure).accesses s) :
    ((ECall.delete k).prog E s.trie.secure).cut n s = s ∨
    (s.contains E k = .ok true ∧ (∃ d, dget s.data k = some d) ∧ ∃ ws, ((ECall.delete k).prog E s.trie.secure).cut n s =
      { trie := { s.trie with store := replay E ws s.trie.store }, data := ddel s.data k }) := by
  have hstill : (EMPT.containsCallP E s.trie.secure k).Still := .trie (Prog.Quiet.containsCall E _)
  have hp : (ECall.delete k).prog E s.trie.secure = (EMPT.containsCallP E s.trie.secure k >>= fun b =>
      (if !b then .raise .keyNotFound else EMPT.dropP E s.trie.secure k) >>= fun _ => EProg.done (.ok EAns.none)) := by
    show ((EMPT.containsCallP E s.trie.secure k).bind _).bind _ = (EMPT.containsCallP E s.trie.secure k).bind _
    generalize EMPT.containsCallP E s.trie.secure k = q
    clear h hstill
    induction q with
    | done r => cases r <;> rfl
    | load k n ih => simp only [EProg.bind]; congr 1; funext v; exact ih v
    | save k v n ih => simp only [EProg.bind]; congr 1
    | root n ih => simp only [EProg.bind]; congr 1; funext v; exact ih v
    | setRoot r n ih => simp only [EProg.bind]; congr 1
    | data k n ih => simp only [EProg.bind]; congr 1; funext v; exact ih v
    | setData k v n ih => simp only [EProg.bind]; congr 1
    | delData k n ih => simp only [EProg.bind]; congr 1
  rw [hp] at h ⊢
  rw [EProg.accesses_bind, EMPT.containsCall_alone] at h
  rw [EProg.cut_bind, EMPT.containsCall_alone, hstill.cut]
  by_cases hn : n < (EMPT.containsCallP E s.trie.secure k).accesses s
  · rw [if_pos hn]; exact .inl rfl
  · rw [if_neg hn]
    revert h
    cases hc : s.contains E k with
    | error e => intro h; simp at h; omega
    | ok b =>
      intro h
      simp only at h ⊢
      generalize hm : n - (EMPT.containsCallP E s.trie.secure k).accesses s = m
      have hm' : m < ((if !b then .raise .keyNotFound else EMPT.dropP E s.trie.secure k) >>= fun _ =>
          EProg.done (.ok EAns.none) : EProg EAns).accesses s := by omega
      cases b with
      | false => exact absurd hm' (Nat.not_lt_zero m)
      | true =>
        simp only [Bool.not_true, Bool.false_eq_true, if_false] at hm' ⊢
        rw [EProg.accesses_bind] at hm'
        have hm' : m < (EMPT.dropP E s.trie.secure k).accesses s := by
          revert hm'
          cases (EMPT.dropP E s.trie.secure k).alone s with
          | mk r t => cases r <;> exact id
        rw [EProg.cut_bind, if_pos hm']
        cases m with
        | zero => exact .inl rfl
        | succ m =>
          simp only [EMPT.dropP, EProg.accesses, EProg.cut] at hm' ⊢
          cases hd : dget s.data k with
          | none => exact .inl rfl
          | some d =>
            rw [hd] at hm'
            simp only at hm' ⊢
            rw [EProg.trie_accesses] at hm'
            rw [EProg.trie_cut]
            obtain ⟨ws, e⟩ := Prog.cut_early _ s.trie (Prog.Plain.deleteCall (E := E) _) (Nat.lt_of_succ_lt_succ hm')
            exact .inr ⟨trivial, ⟨d, rfl⟩, ws, by simp only [e]⟩

end EMPT

/-- The trie inside has had the calls `eops`, the calls counted are `cnt`; where `good` holds, data and trie agree. -/
structure Tracks (E : Env) (keys : List Bytes) (s : EMPT) (eops cnt : List EOp) (good : Bytes → Bool) : Prop where
  bears : Bears E s.trie (T.grow .empty ((refOps E eops).map (Op.mapKey (effective E s.trie.secure))))
  data : ∀ k ∈ keys, good k = true → dget s.data k = econtents eops k ∧ econtents cnt k = econtents eops k
  present : ∀ k ∈ keys, ∀ d, dget s.data k = some d → d.storable = true ∧ econtents eops k ≠ none
  among : ∀ op ∈ eops, op.key ∈ keys ∧ ∀ k v, op = .update k v → k.length + v.payload.length < 2 ^ 60

section
variable {E : Env} {keys : List Bytes} {s : EMPT} {eops cnt : List EOp} {good : Bytes → Bool}

theorem refOps_keys (E : Env) {eops : List EOp} {P : Bytes → Prop} (h : ∀ op ∈ eops, P op.key) :
    ∀ b ∈ (refOps E eops).map Op.key, P b := by
  intro b hb
  obtain ⟨o, ho, rfl⟩ := List.mem_map.1 hb
  obtain ⟨e, he, ho⟩ := List.mem_flatMap.1 ho
  cases e with
  | update k v =>
    simp only [refOp] at ho
    split at ho
    · simp at ho; subst ho; exact h _ he
    · simp at ho
  | delete k => simp [refOp] at ho; subst ho; exact h _ he

theorem Tracks.reads (h : Tracks E keys s eops cnt good) (hl : LogOk E s.trie.store.written)
    (hf : ∀ k ∈ keys, Fits E s.trie.secure k) (hc : s.trie.secure = true → CollFree E keys) {k : Bytes} (hk : k ∈ keys) :
    (∀ v, econtents eops k = some v → s.contains E k = .ok true ∧ s.trie.get E k = .ok (refOf E k v)) ∧
    (econtents eops k = none →
      (s.trie.secure = true ∨ ∀ k', k' <+: k → k' ≠ k → econtents eops k' = none) → s.contains E k = .ok false) := by
  have hst : ∀ k b, Stored s.trie.secure (refOps E eops) k b ↔ contents (refOps E eops) k = some b := fun k b =>
    Props.stored_iff _ _ (fun _ => refOps_nonempty E eops) k b
  obtain ⟨r1, r2⟩ := h.bears.reads hl k (hf k hk) (fun hs => (hc hs).mono (by
    intro b hb
    rcases List.mem_cons.1 hb with rfl | hb
    · exact hk
    · exact refOps_keys E (P := fun k => k ∈ keys) (fun op ho => (h.among op ho).1) b hb))
  refine ⟨fun v hv => ?_, fun hn hp => ?_⟩
  · have := r1 _ ((hst k (refOf E k v)).2 (by rw [contents_refOps, hv]; rfl))
    exact ⟨this.2, this.1⟩
  · refine r2 (fun b hb => ?_) ?_
    · rw [hst, contents_refOps, hn] at hb; exact (nomatch hb)
    · rcases hp with hp | hp
      · exact .inl hp
      · refine .inr fun k' p1 p2 b hb => ?_
        rw [hst, contents_refOps, hp k' p1 p2] at hb
        exact (nomatch hb)

theorem Tracks.nodes (h : Tracks E keys s eops cnt good) {ws : List Bytes} {cnt' : List EOp} {good' : Bytes → Bool}
    (hl : LogOk E (replay E ws s.trie.store).written)
    (hd : ∀ k ∈ keys, good' k = true → good k = true ∧ econtents cnt' k = econtents cnt k) :
    Tracks E keys { s with trie := { s.trie with store := replay E ws s.trie.store } } eops cnt' good' := by
  refine ⟨⟨h.bears.holds.withStore ⟨ws, rfl⟩ hl, h.bears.full⟩, fun k hk hg => ?_, h.present, h.among⟩
  obtain ⟨g, e⟩ := hd k hk hg
  exact ⟨(h.data k hk g).1, e.trans (h.data k hk g).2⟩

theorem refOps_snoc (E : Env) (eops : List EOp) (op : EOp) : refOps E (eops ++ [op]) = refOps E eops ++ refOp E op := by
  simp [refOps]

theorem Tracks.trieOp (h : Tracks E keys s eops cnt good) {op : EOp} {o : Op} (ho : refOp E op = [o])
    (hk : op.key = o.key) (hf : Fits E s.trie.secure op.key) (hl : LogOk E (MPT.exec E o s.trie).2.store.written) :
    Bears E (MPT.exec E o s.trie).2 (T.grow .empty ((refOps E (eops ++ [op])).map
      (Op.mapKey (effective E (MPT.exec E o s.trie).2.secure)))) := by
  have := h.bears.exec (op := o) (by rw [← hk]; exact hf) hl
  rw [refOps_snoc, ho, exec_secure, List.map_append, T.grow, List.foldl_append]
  exact this

theorem Tracks.put (h : Tracks E keys s eops cnt good) {k : Bytes} {v : Value} (hv : v.storable = true) (hk : k ∈ keys)
    (hz : k.length + v.payload.length < 2 ^ 60) (hf : Fits E s.trie.secure k)
    (hl : LogOk E (MPT.update E k (refOf E k v) s.trie).2.store.written) :
    (MPT.update E k (refOf E k v) s.trie).1 = .ok () ∧
    Bears E (MPT.update E k (refOf E k v) s.trie).2 (T.grow .empty ((refOps E (eops ++ [.update k v])).map
      (Op.mapKey (effective E (MPT.update E k (refOf E k v) s.trie).2.secure)))) ∧
    ∀ op ∈ eops ++ [.update k v], op.key ∈ keys ∧ ∀ k v, op = .update k v → k.length + v.payload.length < 2 ^ 60 := by
  refine ⟨(h.bears.holds.update (fits_nibs hf) rfl hl).1,
    h.trieOp (op := .update k v) (o := .update k (refOf E k v)) (by simp [refOp, hv]) rfl hf hl, fun op ho => ?_⟩
  rcases List.mem_append.1 ho with ho | ho
  · exact h.among op ho
  · rw [List.mem_singleton] at ho
    subst ho
    exact ⟨hk, fun k' v' e => by injection e with e1 e2; subst e1 e2; exact hz⟩

/-- One call that is not ended early. -/
theorem Tracks.exec (h : Tracks E keys s eops cnt good) (hf : ∀ k ∈ keys, Fits E s.trie.secure k)
    (hc : s.trie.secure = true → CollFree E keys) {op : EOp} (hk : op.key ∈ keys)
    (hz : ∀ k v, op = .update k v → k.length + v.payload.length < 2 ^ 60)
    (hl : LogOk E (EMPT.exec E op s).2.trie.store.written) :
    ∃ eops', Tracks E keys (EMPT.exec E op s).2 eops' (cnt ++ [op])
      (fun k => if op.key = k then (if (EMPT.exec E op s).1 = .ok () then true else good k) else good k) := by
  have hl0 : LogOk E s.trie.store.written := log_of_replay (EMPT.exec_writes E op s) hl
  cases op with
  | update k v =>
    have hk : k ∈ keys := hk
    cases hv : v.storable with
    | false =>
      obtain ⟨e, he⟩ := EMPT.update_other (E := E) (k := k) hv s
      simp only [EMPT.exec, he]
      refine ⟨eops, h.bears, fun k' hk' hg => ?_, h.present, h.among⟩
      have hg : good k' = true := by
        revert hg; split <;> simp
      rw [econtents_append]
      simpa [EOp.apply, hv] using h.data k' hk' hg
    | true =>
      have heq := EMPT.update_storable (E := E) (k := k) hv s
      have hl1 : LogOk E (MPT.update E k (refOf E k v) s.trie).2.store.written := by
        have := hl
        simp only [EMPT.exec, heq] at this
        revert this
        cases MPT.update E k (refOf E k v) s.trie with
        | mk r t => cases r <;> exact id
      obtain ⟨p1, p2, p3⟩ := h.put hv hk (hz k v rfl) (hf k hk) hl1
      have heq' : EMPT.update E k v s =
          (.ok (), { trie := (MPT.update E k (refOf E k v) s.trie).2, data := dset s.data k v }) := by
        rw [heq]
        revert p1
        cases MPT.update E k (refOf E k v) s.trie with
        | mk r t => intro p1; cases p1; rfl
      simp only [EMPT.exec, heq']
      refine ⟨eops ++ [.update k v], p2, fun k' hk' hg => ?_, fun k' hk' d hd => ?_, p3⟩
      · rw [econtents_append, econtents_append, dget_dset]
        simp only [EOp.apply, hv, true_and]
        by_cases e : k' = k
        · subst e; simp
        · rw [if_neg (Ne.symm e), if_neg e, if_neg e]
          refine h.data k' hk' ?_
          simpa [EOp.key, Ne.symm e] using hg
      · rw [econtents_append]
        rw [dget_dset] at hd
        simp only [EOp.apply, hv, true_and]
        by_cases e : k' = k
        · subst e
          simp at hd
          subst hd
          exact ⟨hv, by simp⟩
        · rw [if_neg (Ne.symm e)] at hd
          rw [if_neg e]
          exact h.present k' hk' d hd
  | delete k =>
    have hk : k ∈ keys := hk
    obtain ⟨r1, -⟩ := h.reads hl0 hf hc hk
    have same : (EMPT.delete E k s).2 = s → (∀ x, econtents eops k = some x → good k = true → False) →
        (EMPT.delete E k s).1 ≠ .ok () →
        ∃ eops', Tracks E keys (EMPT.delete E k s).2 eops' (cnt ++ [.delete k])
          (fun k' => if k = k' then (if (EMPT.delete E k s).1 = .ok () then true else good k') else good k') := by
      intro hs hno hne
      rw [hs]
      refine ⟨eops, h.bears, fun k' hk' hg => ?_, h.present, h.among⟩
      have hg' : good k' = true := by
        simp only [if_neg hne] at hg
        revert hg; split <;> exact id
      obtain ⟨d1, d2⟩ := h.data k' hk' hg'
      refine ⟨d1, ?_⟩
      rw [econtents_append]
      simp only [EOp.apply]
      by_cases e : k' = k
      · subst e
        rw [if_pos rfl]
        cases hx : econtents eops k' with
        | none => rfl
        | some x => exact (hno x hx hg').elim
      · rw [if_neg e]; exact d2
    show ∃ eops', Tracks E keys (EMPT.delete E k s).2 eops' (cnt ++ [.delete k])
      (fun k' => if k = k' then (if (EMPT.delete E k s).1 = .ok () then true else good k') else good k')
    have hdel := EMPT.delete_eq E k s
    cases hct : s.trie.contains E k with
    | error e =>
      rw [hct] at hdel
      refine same (by rw [hdel]) (fun x hx _ => ?_) (by rw [hdel]; simp)
      have := (r1 x hx).1
      unfold EMPT.contains at this
      rw [hct] at this; exact (nomatch this)
    | ok b =>
      rw [hct] at hdel
      cases b with
      | false =>
        refine same (by rw [hdel]) (fun x hx _ => ?_) (by rw [hdel]; simp)
        have := (r1 x hx).1
        unfold EMPT.contains at this
        rw [hct] at this; exact (nomatch this)
      | true =>
        cases hd : dget s.data k with
        | none =>
          rw [hd] at hdel
          refine same (by rw [hdel]) (fun x hx hg => ?_) (by rw [hdel]; simp)
          have := (h.data k hk hg).1
          rw [hd, hx] at this; exact (nomatch this)
        | some d =>
          rw [hd] at hdel
          simp only at hdel
          have hl1 : LogOk E (MPT.exec E (.delete k) s.trie).2.store.written := by
            have := hl
            simp only [EMPT.exec, hdel] at this
            exact this
          refine ⟨eops ++ [.delete k], ?_, fun k' hk' hg => ?_, fun k' hk' d' hd' => ?_, fun op ho => ?_⟩
          · rw [hdel]
            exact h.trieOp (op := .delete k) (o := .delete k) rfl rfl (hf k hk) hl1
          · rw [hdel, econtents_append, econtents_append]
            simp only [EOp.apply]
            rw [dget_ddel]
            by_cases e : k' = k
            · subst e; simp
            · rw [if_neg (Ne.symm e), if_neg e, if_neg e]
              refine h.data k' hk' ?_
              simpa [Ne.symm e] using hg
          · rw [hdel] at hd'
            simp only at hd'
            rw [dget_ddel] at hd'
            rw [econtents_append]
            simp only [EOp.apply]
            by_cases e : k' = k
            · subst e; simp at hd'
            · rw [if_neg (Ne.symm e)] at hd'
              rw [if_neg e]
              exact h.present k' hk' d' hd'
          · rcases List.mem_append.1 ho with ho | ho
            · exact h.among op ho
            · rw [List.mem_singleton] at ho
              subst ho
              exact ⟨hk, fun _ _ e => (nomatch e)⟩

end

namespace EAttempt

variable {E : Env}

theorem run_cases (a : EAttempt) (s : EMPT) :
    (a.whole E s = true ∧ (a.run E s).2 = (a.call.seq E s).2) ∨
    (a.whole E s = false ∧
      ((∃ ws, (a.run E s).2 = { s with trie := { s.trie with store := replay E ws s.trie.store } }) ∨
       (∃ k v, a.call = .update k v ∧ v.storable = true ∧
         (a.run E s).2 = { s with trie := (MPT.update E k (refOf E k v) s.trie).2 }) ∨
       (∃ k d ws, a.call = .delete k ∧ s.contains E k = .ok true ∧ dget s.data k = some d ∧
         (a.run E s).2 = { trie := { s.trie with store := replay E ws s.trie.store }, data := ddel s.data k }))) := by
  obtain ⟨c, stop⟩ := a
  cases stop with
  | none => exact .inl ⟨rfl, rfl⟩
  | some q =>
    obtain ⟨n, e⟩ := q
    by_cases h : (c.prog E s.trie.secure).accesses s ≤ n
    · refine .inl ⟨by simpa [whole] using h, ?_⟩
      show (c.prog E s.trie.secure).cut n s = _
      rw [EProg.cut_all _ _ h, ECall.prog_alone]
    · refine .inr ⟨by simpa [whole] using h, ?_⟩
      have hlt := Nat.lt_of_not_le h
      show ((∃ ws, (c.prog E s.trie.secure).cut n s = _) ∨ (∃ k v, _ ∧ _ ∧ (c.prog E s.trie.secure).cut n s = _) ∨
        (∃ k d ws, _ ∧ _ ∧ _ ∧ (c.prog E s.trie.secure).cut n s = _))
      cases c with
      | update k v =>
        cases hv : v.storable with
        | true =>
          rcases EMPT.updateP_cut hv s hlt with h1 | ⟨_, h2⟩
          · exact .inl h1
          · exact .inr (.inl ⟨k, v, rfl, hv, h2⟩)
        | false =>
          obtain ⟨e, h1, _⟩ := EMPT.updateCallP_other E s.trie.secure k hv
          have : (ECall.update k v).prog E s.trie.secure = .done (.error e) := by
            show (EMPT.updateCallP E s.trie.secure k v >>= fun _ => _) = _
            rw [h1]; rfl
          rw [this] at hlt
          exact absurd hlt (Nat.not_lt_zero n)
      | delete k =>
        rcases EMPT.deleteP_cut k s hlt with h1 | ⟨h1, ⟨d, h2⟩, ws, h3⟩
        · exact .inl ⟨[], h1⟩
        · exact .inr (.inr ⟨k, d, ws, rfl, h1, h2, h3⟩)
      | get k => exact .inl ⟨[], (ECall.still E _ rfl).cut s n⟩
      | contains k => exact .inl ⟨[], (ECall.still E _ rfl).cut s n⟩

theorem seq_writes (c : ECall) (s : EMPT) : ∃ ws, (c.seq E s).2.trie.store = replay E ws s.trie.store := by
  cases c with
  | update k v => exact EMPT.exec_writes E (.update k v) s
  | delete k => exact EMPT.exec_writes E (.delete k) s
  | get k => exact ⟨[], rfl⟩
  | contains k => exact ⟨[], rfl⟩

theorem run_writes (a : EAttempt) (s : EMPT) : ∃ ws, (a.run E s).2.trie.store = replay E ws s.trie.store := by
  rcases a.run_cases (E := E) s with ⟨_, h⟩ | ⟨_, ⟨ws, h⟩ | ⟨k, v, _, _, h⟩ | ⟨k, d, ws, _, _, _, h⟩⟩
  · rw [h]; exact seq_writes _ _
  · rw [h]; exact ⟨ws, rfl⟩
  · rw [h]; exact T.update_writes E k _ _
  · rw [h]; exact ⟨ws, rfl⟩

theorem all_writes (l : List EAttempt) (s : EMPT) : ∃ ws, (all E l s).trie.store = replay E ws s.trie.store := by
  induction l generalizing s with
  | nil => exact ⟨[], rfl⟩
  | cons a l ih =>
    obtain ⟨ws, h⟩ := a.run_writes (E := E) s
    obtain ⟨ws', h'⟩ := ih (a.run E s).2
    exact ⟨ws ++ ws', by rw [replay_append, ← h]; exact h'⟩

theorem run_secure (a : EAttempt) (s : EMPT) : (a.run E s).2.trie.secure = s.trie.secure := by
  rcases a.run_cases (E := E) s with ⟨_, h⟩ | ⟨_, ⟨ws, h⟩ | ⟨k, v, _, _, h⟩ | ⟨k, d, ws, _, _, _, h⟩⟩
  · rw [h]
    cases a.call with
    | update k v =>
      obtain ⟨ops, e⟩ := EMPT.exec_trie E (.update k v) s
      exact (congrArg MPT.secure e).trans (Pymt.run_secure E ops _)
    | delete k =>
      obtain ⟨ops, e⟩ := EMPT.exec_trie E (.delete k) s
      exact (congrArg MPT.secure e).trans (Pymt.run_secure E ops _)
    | get k => rfl
    | contains k => rfl
  · rw [h]
  · rw [h]; exact T.update_secure E k _ _
  · rw [h]

theorem all_secure (l : List EAttempt) (s : EMPT) : (all E l s).trie.secure = s.trie.secure := by
  induction l generalizing s with
  | nil => rfl
  | cons a l ih => exact (ih _).trans (a.run_secure s)

/-- Whether a key is intact after one more call. -/
def next (E : Env) (a : EAttempt) (s : EMPT) (good : Bytes → Bool) (k : Bytes) : Bool :=
  if a.call.op?.map EOp.key = some k then
    (if a.half E s then false else if a.whole E s ∧ (a.call.seq E s).1 = .ok .none then true else good k)
  else good k

theorem intact_cons (k : Bytes) (good : Bytes → Bool) (a : EAttempt) (l : List EAttempt) (s : EMPT) :
    intact E k (good k) (a :: l) s = intact E k (a.next E s good k) l (a.run E s).2 := rfl

variable {keys : List Bytes} {s : EMPT} {eops cnt : List EOp} {good : Bytes → Bool}

theorem step (h : Tracks E keys s eops cnt good) (hf : ∀ k ∈ keys, Fits E s.trie.secure k)
    (hc : s.trie.secure = true → CollFree E keys) (a : EAttempt) (hk : a.call.key ∈ keys)
    (hz : ∀ k v, a.call = .update k v → k.length + v.payload.length < 2 ^ 60)
    (hl : LogOk E (a.run E s).2.trie.store.written) :
    ∃ eops', Tracks E keys (a.run E s).2 eops'
      (cnt ++ if a.whole E s then a.call.op?.toList else []) (a.next E s good) := by
  rcases a.run_cases (E := E) s with ⟨hw, h1⟩ | ⟨hw, hcut⟩
  · -- not ended early
    have hh : a.half E s = false := by simp [half, hw]
    rw [h1] at hl ⊢
    rw [hw, if_pos rfl]
    cases hop : a.call.op? with
    | none =>
      have hs : (a.call.seq E s).2 = s := by
        revert hop
        cases a.call <;> simp [ECall.op?, ECall.seq]
      rw [hs]
      refine ⟨eops, h.bears, fun k hk' hg => ?_, h.present, h.among⟩
      simp only [next, hop, Option.map_none, reduceCtorEq, if_false] at hg
      simpa using h.data k hk' hg
    | some op =>
      have hseq := ECall.seq_op (E := E) hop s
      have hkey : op.key = a.call.key := by
        revert hop
        cases a.call <;> simp [ECall.op?] <;> rintro rfl <;> rfl
      rw [hseq] at hl ⊢
      obtain ⟨eops', t⟩ := h.exec hf hc (op := op) (by rw [hkey]; exact hk) (fun k v e => by
        subst e
        refine hz k v ?_
        revert hop
        cases a.call <;> simp [ECall.op?]) hl
      refine ⟨eops', ?_⟩
      have hgood : a.next E s good =
          (fun k => if op.key = k then (if (EMPT.exec E op s).1 = .ok () then true else good k) else good k) := by
        funext k
        simp only [next, hop, hh, hw, hseq, Option.map_some, Option.some.injEq, true_and, Bool.false_eq_true, if_false]
        have : ((EMPT.exec E op s).1.map (fun _ => EAns.none) = .ok .none) ↔ (EMPT.exec E op s).1 = .ok () := by
          cases (EMPT.exec E op s).1 <;> simp [Except.map]
        simp only [this]
      rw [hgood]
      exact t
  · -- ended early
    rw [hw, if_neg (by simp), List.append_nil]
    have idle : ∀ ws, (a.run E s).2 = { s with trie := { s.trie with store := replay E ws s.trie.store } } →
        ∃ eops', Tracks E keys (a.run E s).2 eops' cnt (a.next E s good) := by
      intro ws e
      rw [e] at hl ⊢
      refine ⟨eops, h.nodes hl fun k hk' hg => ⟨?_, rfl⟩⟩
      revert hg
      simp only [next, hw, Bool.false_eq_true, false_and, if_false]
      split
      · split
        · simp
        · exact id
      · exact id
    by_cases hh : a.half E s = true
    · rcases hcut with ⟨ws, e⟩ | ⟨k, v, hcall, hv, e⟩ | ⟨k, d, ws, hcall, _, hd, e⟩
      · exact idle ws e
      · have hgood : ∀ k', a.next E s good k' = true → k' ≠ k ∧ good k' = true := by
          intro k'
          simp only [next, hcall, ECall.op?, Option.map_some, EOp.key, Option.some.injEq, hh, if_true]
          by_cases e' : k = k'
          · simp [e']
          · simp [e', Ne.symm e']
        rw [e] at hl ⊢
        have hk : k ∈ keys := by rw [hcall] at hk; exact hk
        obtain ⟨_, p2, p3⟩ := h.put hv hk (hz k v hcall) (hf k hk) hl
        refine ⟨eops ++ [.update k v], p2, fun k' hk' hg => ?_, fun k' hk' d hd => ?_, p3⟩
        · obtain ⟨g1, g2⟩ := hgood k' hg
          rw [econtents_append]
          simpa only [EOp.apply, g1, and_false, if_false] using h.data k' hk' g2
        · refine ⟨(h.present k' hk' d hd).1, ?_⟩
          rw [econtents_append]
          simp only [EOp.apply]
          split
          · simp
          · exact (h.present k' hk' d hd).2
      · have hgood : ∀ k', a.next E s good k' = true → k' ≠ k ∧ good k' = true := by
          intro k'
          simp only [next, hcall, ECall.op?, Option.map_some, EOp.key, Option.some.injEq, hh, if_true]
          by_cases e' : k = k'
          · simp [e']
          · simp [e', Ne.symm e']
        rw [e] at hl ⊢
        refine ⟨eops, ⟨h.bears.holds.withStore ⟨ws, rfl⟩ hl, h.bears.full⟩, fun k' hk' hg => ?_,
          fun k' hk' d' hd' => ?_, h.among⟩
        · obtain ⟨g1, g2⟩ := hgood k' hg
          simp only
          rw [dget_ddel, if_neg (Ne.symm g1)]
          exact h.data k' hk' g2
        · simp only at hd'
          rw [dget_ddel] at hd'
          split at hd'
          · simp at hd'
          · exact h.present k' hk' d' hd'
    · -- the root is as before, and so is the data
      simp only [half, hw, Bool.not_false, Bool.true_and, Bool.not_eq_true', Bool.not_eq_false, Bool.and_eq_true,
        beq_iff_eq] at hh
      obtain ⟨ws, hws⟩ := a.run_writes (E := E) s
      refine idle ws ?_
      have hsec := a.run_secure (E := E) s
      revert hh hws hsec
      cases (a.run E s).2 with
      | mk t d =>
        cases t with
        | mk st r sec =>
          rintro ⟨h1, h2⟩ h3 h4
          simp only at h1 h2 h3 h4
          subst h1 h2 h3 h4
          rfl

theorem tracks {l : List EAttempt} (h : Tracks E keys s eops cnt good) (hf : ∀ k ∈ keys, Fits E s.trie.secure k)
    (hc : s.trie.secure = true → CollFree E keys) (hk : ∀ a ∈ l, a.call.key ∈ keys)
    (hz : ∀ a ∈ l, ∀ k v, a.call = .update k v → k.length + v.payload.length < 2 ^ 60)
    (hl : LogOk E (all E l s).trie.store.written) :
    ∃ eops', Tracks E keys (all E l s) eops' (cnt ++ counted E l s) (fun k => intact E k (good k) l s) := by
  induction l generalizing s eops cnt good with
  | nil => exact ⟨eops, by simpa [counted, all, intact] using h⟩
  | cons a l ih =>
    have hl1 : LogOk E (a.run E s).2.trie.store.written := log_of_replay (all_writes l _) hl
    obtain ⟨e1, t1⟩ := step h hf hc a (hk a (by simp)) (hz a (by simp)) hl1
    obtain ⟨e2, t2⟩ := ih t1 (by rw [a.run_secure]; exact hf) (by rw [a.run_secure]; exact hc)
      (fun b hb => hk b (by simp [hb])) (fun b hb => hz b (by simp [hb])) hl
    refine ⟨e2, ?_⟩
    rw [List.append_assoc] at t2
    exact t2

end EAttempt
end Pymt
