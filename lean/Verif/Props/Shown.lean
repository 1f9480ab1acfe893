import Verif.Spec.Shown
import Verif.Props.Partial
import Verif.Props.EmptObjects

/-!
# Property C100: the value a proof of inclusion shows

A `Proof` has no field for the value.  Whoever wants to know the value of the key takes it from the last node listed.
-/

namespace Pymt
namespace Props

/-- The full statement of C100: the last node of an accepted proof of inclusion of a present key has the value of the
key. -/
def C100 : Prop := ∀ (E : Env) (secure : Bool) (ops : List Op) (k v : Bytes) (p : Proof Bytes), Valid E secure ops [k] →
  contents ops k = some v → CollFree E ((MPT.after E secure ops).store.written ++ checked p) →
  p.targetKey = effective E secure k → (MPT.after E secure ops).verifyPoi E p = .ok true →
  ∃ e n, p.proof.getLast? = some e ∧ Node.decode e = .ok n ∧ n.value? = some v

/-- C100 is false: a leaf with another value may be added to a proof. -/
theorem C100_false : ¬ C100 := by
  intro h
  have hv : Valid realEnv false [.update [0x12] (bigValue 1)] [[0x12]] := valid_of (by decide +kernel)
  obtain ⟨g, h1, h2⟩ := ok_of (m := (MPT.after realEnv false [.update [0x12] (bigValue 1)]).getPoi realEnv [] [0x12])
    (f := fun g => collFreeB realEnv ((MPT.after realEnv false [.update [0x12] (bigValue 1)]).store.written ++
        checked { g with proof := g.proof ++ forged }) && decide (g.targetKey = [0x12]) &&
      decide ((MPT.after realEnv false [.update [0x12] (bigValue 1)]).verifyPoi realEnv
        { g with proof := g.proof ++ forged } = .ok true)) (by decide +kernel)
  simp only [Bool.and_eq_true, decide_eq_true_eq] at h2
  obtain ⟨e, n, e1, e2, e3⟩ := h _ _ _ _ (bigValue 1) _ hv (by decide +kernel) (collFree_of h2.1.1) h2.1.2 h2.2
  simp only [forged, List.getLast?_append, List.getLast?_singleton, Option.some_or, Option.some.injEq] at e1
  subst e1
  have h5 : okAnd (Node.decode [0xc2, 0x20, 0x05]) (fun n => decide (n.value? = some [5])) = true := by decide +kernel
  rw [e2] at h5
  simp only [okAnd, decide_eq_true_eq, e3] at h5
  revert h5
  decide

/-- C100 in part: proofs as the trie makes them, whether they are accepted or not. -/
theorem C100_made_partial {E : Env} {secure : Bool} {ops : List Op} {k v now : Bytes} {p : Proof Bytes}
    (h : Valid E secure ops [k]) (hk : contents ops k = some v) (hp : (MPT.after E secure ops).getPoi E now k = .ok p) :
    ∃ e n, p.proof.getLast? = some e ∧ Node.decode e = .ok n ∧ n.value? = some v := by
  obtain ⟨a, h1, h2, h3, h4⟩ := h.inv
  have hn : a ≠ .empty := (nonempty_iff h h2 h3 h4).1 ⟨k, by simp [hk]⟩
  have hlk : T.lookup a (toNibs (effective E secure k)) = some v := by
    rw [h3, eff_eq h.keys (by simp), hk]
  obtain ⟨-, hpp⟩ := own_proof h h1 hn hp
  have hst := T.trail_stored h1.stored (toNibs (effective E secure k)) (T.seek a (toNibs (effective E secure k))).1
    (by simp [T.trail])
  have hsn := T.seek_ne_empty h1.shape hn (toNibs (effective E secure k))
  obtain ⟨n, hd, hr⟩ := T.decode_enc (E := E) hsn (T.enc_len hst)
  refine ⟨_, n, by simp [hpp, T.trail], hd, ?_⟩
  rw [T.lookup_seek] at hlk
  have hstk := T.seek_stuck h1.shape hn (toNibs (effective E secure k))
  have hsc := h2.seek (toNibs (effective E secure k))
  generalize T.seek a (toNibs (effective E secure k)) = s at *
  obtain ⟨x, r⟩ := s
  cases x with
  | empty => exact absurd rfl hsn
  | leaf q w =>
    simp only [T.lookup] at hlk
    split at hlk
    · cases n <;> simp_all [T.Rep, Node.value?]
    · simp at hlk
  | ext q c =>
    exfalso
    rcases hstk with h0 | h0
    · simp only at h0
      subst h0
      have hq : ¬ q <+: [] := fun hq => hsc.1 (List.prefix_nil.1 hq)
      simp [T.lookup, hq] at hlk
    · simp [T.lookup, h0] at hlk
  | branch cs w =>
    rcases hstk with h0 | ⟨i, r', h0, h0'⟩
    · simp only at h0
      subst h0
      simp only [T.lookup] at hlk
      split at hlk
      · simp at hlk
      · cases n <;> simp_all [T.Rep, Node.value?]
    · simp only at h0
      subst h0
      simp [T.lookup, h0'] at hlk

/-- The trie a client builds from the nodes of a proof and a root it knows:
`MPT({keccak_hash(n): n for n in proof.proof}, root, secure=secure)`. -/
def fromNodes (E : Env) (nodes : List Bytes) (root : Option Bytes) (secure : Bool) : MPT :=
  MPT.init E (MPT.rebuild E nodes) root secure

theorem mem_dset {β : Type} {d : Dict β} {k : Bytes} {v : β} {x : Bytes × β} (h : x ∈ dset d k v) :
    x ∈ d ∨ x.2 = v := by
  induction d with
  | nil => simp only [dset, List.mem_singleton] at h; subst h; exact .inr rfl
  | cons e d ih =>
    obtain ⟨k', v'⟩ := e
    simp only [dset] at h
    split at h
    · rcases List.mem_cons.1 h with rfl | h
      · exact .inr rfl
      · exact .inl (List.mem_cons_of_mem _ h)
    · rcases List.mem_cons.1 h with rfl | h
      · exact .inl (by simp)
      · exact (ih h).imp (List.mem_cons_of_mem _) id

theorem rebuild_has {E : Env} (l : List Bytes) (st : Store) (x : Bytes) (h : x ∈ l ∨ dget st.kv (E.keccak x) ≠ none) :
    dget (l.foldl (fun s n => s.set (E.keccak n) n) st).kv (E.keccak x) ≠ none := by
  induction l generalizing st with
  | nil => exact h.resolve_left (by simp)
  | cons w l ih =>
    refine ih _ ?_
    rcases h with h | h
    · rcases List.mem_cons.1 h with rfl | h
      · right; simp [Store.set, dget_dset]
      · exact .inl h
    · right
      simp only [Store.set, dget_dset]
      split <;> simp_all

theorem fromNodes_claims {E : Env} {secure : Bool} {ops : List Op} {ks : List Bytes} {nodes : List Bytes}
    (h : Valid E secure ops ks) (hr : ∃ r, (MPT.after E secure ops).root = some r)
    (hc : CollFree E ((MPT.after E secure ops).store.written ++ nodes)) :
    Claims E (fromNodes E nodes (MPT.after E secure ops).root secure) (MPT.after E secure ops) := by
  have hsub : ∀ (l : List Bytes) (st : Store) (x : Bytes), x ∈ (l.foldl (fun s n => s.set (E.keccak n) n) st).kv.map (·.2) →
      x ∈ st.kv.map (·.2) ∨ x ∈ l := by
    intro l
    induction l with
    | nil => intro st x hx; exact .inl hx
    | cons w l ih =>
      intro st x hx
      rcases ih _ x hx with hx | hx
      · simp only [Store.set] at hx
        obtain ⟨⟨k, y⟩, hy, rfl⟩ := List.mem_map.1 hx
        rcases mem_dset hy with hy | hy
        · exact .inl (List.mem_map.2 ⟨_, hy, rfl⟩)
        · exact .inr (List.mem_cons.2 (.inl hy))
      · exact .inr (List.mem_cons_of_mem _ hx)
  obtain ⟨r, hr⟩ := hr
  refine ⟨by simp [fromNodes, MPT.init, hr], (after_secure E secure ops).symm, ?_, ?_⟩
  · exact rebuild_addressed nodes (by simp [Store.empty, dget])
  · refine hc.mono fun x hx => ?_
    rcases List.mem_append.1 hx with hx | hx
    · exact List.mem_append_left _ hx
    · rcases hsub nodes Store.empty x hx with hx | hx
      · simp [Store.empty] at hx
      · exact List.mem_append_right _ hx

/-- C100 in part: looking the key up in a trie built from the nodes of any proof raises KeyError or gives the value of the
key, and gives the value if the proof is accepted and lists nodes as the trie encodes them. -/
theorem C100_lookup_partial {E : Env} {secure : Bool} {ops : List Op} {k v : Bytes} {p : Proof Bytes}
    (h : Valid E secure ops [k]) (hk : contents ops k = some v)
    (hc : CollFree E ((MPT.after E secure ops).store.written ++ checked p)) :
    ((fromNodes E p.proof (MPT.after E secure ops).root secure).get E k = .error .keyError ∨
      (fromNodes E p.proof (MPT.after E secure ops).root secure).get E k = .ok v) ∧
    (p.targetKey = effective E secure k → (MPT.after E secure ops).verifyPoi E p = .ok true →
      (∀ e ∈ p.proof, reenc e = some e) →
      (fromNodes E p.proof (MPT.after E secure ops).root secure).get E k = .ok v) := by
  obtain ⟨g, r, hg, hr, -⟩ := C18_exact [] h (by simp [hk])
  have hcl : Claims E (fromNodes E p.proof (MPT.after E secure ops).root secure) (MPT.after E secure ops) := by
    refine fromNodes_claims h ⟨r, hr⟩ (hc.mono fun x hx => ?_)
    simp only [checked, List.mem_append] at hx ⊢
    rcases hx with hx | hx
    · exact .inl hx
    · exact .inr (.inl hx)
  have hq := (C68_query h hcl).1 ⟨k, by simp [hk]⟩
  rw [C02_get h hk] at hq
  refine ⟨hq, fun ht hv hre => ?_⟩
  have hgk : g.targetKey = effective E secure k := by
    obtain ⟨a, h1, h2, h3, h4⟩ := h.inv
    exact (own_proof h h1 ((nonempty_iff h h2 h3 h4).1 ⟨k, by simp [hk]⟩) hg).1
  have hneed := C67_needed_partial h (by simp [hk]) hg hc (ht.trans hgk.symm) hv
  refine ((C69_poi_partial h hcl hg).2 fun e he => ?_).2.1.trans (C02_get h hk)
  by_cases hl : e.length < 32
  · exact .inl hl
  · obtain ⟨w, hw, hw'⟩ := hneed e he (by omega)
    rw [hre w hw] at hw'
    cases hw'
    exact .inr (rebuild_has _ _ _ (.inl hw))

/-- C100 in part, `EMPT`: the last node of a proof as the EMPT makes it has a reference that decodes to the key and the
value stored under it. -/
theorem C100_empt_partial {E : Env} {secure : Bool} {ops : List EOp} {k now : Bytes} {v : Value} {p : Proof Bytes}
    (h : EValid E secure ops [k]) (hk : econtents ops k = some v)
    (hp : (EMPT.after E secure ops).getPoi E now k = .ok p) :
    ∃ e n d, p.proof.getLast? = some e ∧ Node.decode e = .ok n ∧ n.value? = some d ∧
      DataRef.decode E d = .ok ⟨k, v.payload⟩ := by
  have hm := h.mirror
  rw [EMPT.getPoi, hm.trie] at hp
  obtain ⟨e, n, e1, e2, e3⟩ := C100_made_partial (h.valid hm) (v := refOf E k v) (by rw [contents_refOps, hk]; rfl) hp
  exact ⟨e, n, _, e1, e2, e3, decode_refOf h hk⟩

/-- C100 in part, `EMPT`: a client that knows the root and mode of an EMPT and builds a trie from the nodes of any proof
gets the key and the value stored under it, or KeyError. -/
theorem C100_client_partial {E : Env} {secure : Bool} {ops : List EOp} {k d : Bytes} {v : Value} {p : Proof Bytes}
    (h : EValid E secure ops [k]) (hk : econtents ops k = some v)
    (hc : CollFree E ((EMPT.after E secure ops).trie.store.written ++ checked p))
    (hd : (fromNodes E p.proof (EMPT.after E secure ops).trie.root secure).get E k = .ok d) :
    DataRef.decode E d = .ok ⟨k, v.payload⟩ := by
  have hm := h.mirror
  rw [hm.trie] at hc hd
  rcases (C100_lookup_partial (h.valid hm) (v := refOf E k v) (by rw [contents_refOps, hk]; rfl) hc).1 with g | g
  · rw [g] at hd; simp at hd
  · rw [g] at hd
    cases hd
    exact decode_refOf h hk

/-! ### Cases -/

/-- The proof of `12 34`, made by the trie, and with the nodes after the first in another order and a node added: the
last node has the value only in the first, the trie built from the nodes gives it in both. -/
example : ∃ g, (MPT.after toyEnv false sampleOps).getPoi toyEnv [] [0x12, 0x34] = .ok g ∧
    Valid toyEnv false sampleOps [[0x12, 0x34]] ∧ contents sampleOps [0x12, 0x34] = some (bigValue 3) ∧
    2 ≤ g.proof.length ∧
    ∃ p : Proof Bytes, p.proof = g.proof.take 1 ++ (g.proof.drop 1).reverse ++ forged ∧
      CollFree toyEnv ((MPT.after toyEnv false sampleOps).store.written ++ checked p) ∧
      p.targetKey = effective toyEnv false [0x12, 0x34] ∧
      (MPT.after toyEnv false sampleOps).verifyPoi toyEnv p = .ok true ∧ (∀ e ∈ p.proof, reenc e = some e) := by
  obtain ⟨g, h1, h2⟩ := ok_of (m := (MPT.after toyEnv false sampleOps).getPoi toyEnv [] [0x12, 0x34])
    (f := fun g => decide (2 ≤ g.proof.length) && collFreeB toyEnv ((MPT.after toyEnv false sampleOps).store.written ++
        checked { g with proof := g.proof.take 1 ++ (g.proof.drop 1).reverse ++ forged }) &&
      decide (g.targetKey = effective toyEnv false [0x12, 0x34]) &&
      decide ((MPT.after toyEnv false sampleOps).verifyPoi toyEnv
        { g with proof := g.proof.take 1 ++ (g.proof.drop 1).reverse ++ forged } = .ok true) &&
      decide (∀ e ∈ g.proof.take 1 ++ (g.proof.drop 1).reverse ++ forged, reenc e = some e)) (by decide +kernel)
  simp only [Bool.and_eq_true, decide_eq_true_eq] at h2
  exact ⟨g, h1, valid_of (by decide +kernel), by decide +kernel, h2.1.1.1.1,
    { g with proof := g.proof.take 1 ++ (g.proof.drop 1).reverse ++ forged }, rfl, collFree_of h2.1.1.1.2, h2.1.1.2,
    h2.1.2, h2.2⟩

/-- An EMPT with an object, a proof of which gives its encoding to a client. -/
example : ∃ g d, (EMPT.after toyEnv true sampleEOps).getPoi toyEnv [] [0x99] = .ok g ∧
    EValid toyEnv true sampleEOps [[0x99]] ∧ econtents sampleEOps [0x99] ≠ none ∧
    CollFree toyEnv ((EMPT.after toyEnv true sampleEOps).trie.store.written ++ checked g) ∧
    (fromNodes toyEnv g.proof (EMPT.after toyEnv true sampleEOps).trie.root true).get toyEnv [0x99] = .ok d := by
  obtain ⟨g, h1, h2⟩ := ok_of (m := (EMPT.after toyEnv true sampleEOps).getPoi toyEnv [] [0x99])
    (f := fun g => collFreeB toyEnv ((EMPT.after toyEnv true sampleEOps).trie.store.written ++ checked g) &&
      okAnd ((fromNodes toyEnv g.proof (EMPT.after toyEnv true sampleEOps).trie.root true).get toyEnv [0x99])
        (fun _ => true)) (by decide +kernel)
  simp only [Bool.and_eq_true] at h2
  obtain ⟨d, hd, -⟩ := ok_of h2.2
  exact ⟨g, d, h1, evalid_of (by decide +kernel), by decide +kernel, collFree_of h2.1, hd⟩

end Props
end Pymt
