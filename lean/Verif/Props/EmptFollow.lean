import Verif.Model.EmptProofs
import Verif.Spec.EmptCollect
import Verif.Spec.ToyEmpt
import Verif.Lemmas.Heap
import Verif.Props.Nearest
import Verif.Props.Shown

/-!
# Property C108: a `SparseEMPT` over a few nodes follows an `EMPT`
-/

namespace Pymt

/-- The outcomes of the calls of a history of a `SparseEMPT`. -/
def Sparse.outcomes (E : Env) : List EOp → MPT → List (Py Unit)
  | [], _ => []
  | op :: ops, t => (Sparse.exec E op t).1 :: Sparse.outcomes E ops (Sparse.exec E op t).2

/-- `k'` is, of the present keys besides `k`, one that shares most digits with `k` (those of the hashes in secure
mode). -/
def ENearest (E : Env) (secure : Bool) (ops : List EOp) (k k' : Bytes) : Prop :=
  econtents ops k' ≠ none ∧ k' ≠ k ∧ ∀ e, econtents ops e ≠ none → e ≠ k →
    sharedDigits (effective E secure k) (effective E secure e) ≤
      sharedDigits (effective E secure k) (effective E secure k')

/-- The keys of the trie of an `EMPT` are those of the mapping. -/
theorem keptKeys_refOps {E : Env} {secure : Bool} {ops : List EOp} {ks : List Bytes} (h : EValid E secure ops ks)
    (e : Bytes) : e ∈ keptKeys E secure (refOps E ops) ↔ ∃ k, econtents ops k ≠ none ∧ effective E secure k = e := by
  have hv := h.valid h.mirror
  have hkeep := T.Keeps.after ((refOps E ops).map (Op.mapKey (effective E secure)))
  constructor
  · intro hm
    obtain ⟨⟨e', v⟩, hm', rfl⟩ := List.mem_map.1 hm
    obtain ⟨k, hk, hq⟩ := T.grow_sub ((hkeep.pairs e' v).2 hm')
    refine ⟨k, fun hn => ?_, (toNibs_inj hq).symm⟩
    rw [contents_refOps, hn] at hk
    exact (nomatch hk)
  · rintro ⟨k, hk, rfl⟩
    obtain ⟨v, hv'⟩ := Option.ne_none_iff_exists'.1 hk
    have hc : contents (refOps E ops) k = some (refOf E k v) := by rw [contents_refOps, hv']; rfl
    have he := eff_eq (k := k) hv.keys (List.mem_append_right _ (contents_some_mem hc))
    rw [hc] at he
    rcases kept_of (l := []) (m := fun _ => none) (by simp) _ he with hm | hm
    · exact List.mem_map.2 ⟨_, hm, rfl⟩
    · exact absurd hm (Item.encode_ne_nil _)

theorem effective_inj {E : Env} {secure : Bool} {ops : List EOp} {ks : List Bytes} (h : EValid E secure ops ks)
    {k k' : Bytes} (hk : k ∈ ks ++ ops.map EOp.key) (hk' : k' ∈ ks ++ ops.map EOp.key)
    (he : effective E secure k = effective E secure k') : k = k' := by
  cases secure with
  | false => exact he
  | true => exact h.keys rfl k hk k' hk' he

theorem econtents_mem {ops : List EOp} {k : Bytes} (h : econtents ops k ≠ none) : k ∈ ops.map EOp.key := by
  obtain ⟨v, hv⟩ := Option.ne_none_iff_exists'.1 h
  exact List.mem_map.2 ⟨_, econtents_some_mem hv, rfl⟩

theorem ENearest.nearest {E : Env} {secure : Bool} {ops : List EOp} {ks : List Bytes} (h : EValid E secure ops ks)
    {k k' : Bytes} (hk : k ∈ ks ++ ops.map EOp.key) (hn : ENearest E secure ops k k') :
    Nearest E secure (refOps E ops) k k' := by
  refine ⟨(keptKeys_refOps h _).2 ⟨k', hn.1, rfl⟩, fun e => hn.2.1 ?_, fun e he hne => ?_⟩
  · exact effective_inj h (List.mem_append_right _ (econtents_mem hn.1)) hk e
  · obtain ⟨x, hx, rfl⟩ := (keptKeys_refOps h _).1 he
    exact hn.2.2 x hx fun e => hne (by rw [e])

/-- What one call on a client object does. -/
theorem Follows.sparse {E : Env} {secure : Bool} {ops : List EOp} {c : MPT} {K : List Bytes} {op : EOp}
    (h : Follows E c (MPT.after E secure (refOps E ops))
      (T.grow .empty ((refOps E ops).map (Op.mapKey (effective E secure)))) K)
    (hv : EValid E secure (ops ++ [op]) K) (hk : op.key ∈ K) (hb : ∀ k v, op = .update k v → Sparse.flat v = true) :
    (∃ k, op = .delete k ∧ (Sparse.exec E op c).1 = .error .keyError ∧ econtents ops k ≠ none ∧
      (∃ e, econtents ops e ≠ none ∧ e ≠ k) ∧
      ∀ k', Fits E secure k' → ENearest E secure ops k k' → c.contains E k' = .error .keyError) ∨
    ((Sparse.exec E op c).1.isOk = (EMPT.exec E op (EMPT.after E secure ops)).1.isOk ∧
      Follows E (Sparse.exec E op c).2 (MPT.after E secure (refOps E (ops ++ [op])))
        (T.grow .empty ((refOps E (ops ++ [op])).map (Op.mapKey (effective E secure)))) K) := by
  have hcut := hv.cut
  have hm := hcut.mirror
  have hval := hcut.valid hm
  have hlog : LogOk E (MPT.after E secure (refOps E (ops ++ [op]))).store.written := by
    rw [← hv.mirror.trie]; exact hv.log
  rw [refOps_append] at hlog ⊢
  cases op with
  | update k v =>
    right
    match v, hb k v rfl with
    | .bytes b, _ =>
      have he : refOps E [.update k (.bytes b)] = [.update k (refOf E k (.bytes b))] := rfl
      rw [he] at hlog ⊢
      rcases h.exec (op := .update k (refOf E k (.bytes b))) hk (hv.fitsq _ hk) hlog with ⟨k', e, -⟩ | ⟨h1, h2⟩
      · cases e
      · refine ⟨?_, h2⟩
        have hs : Sparse.exec E (.update k (.bytes b)) c = MPT.exec E (.update k (refOf E k (.bytes b))) c := rfl
        rw [hs, h1]
        simp only [EMPT.exec]
        rw [EMPT.update_storable rfl, hm.trie]
        simp only [MPT.exec]
        cases MPT.update E k (refOf E k (.bytes b)) (MPT.after E secure (refOps E ops)) with
        | mk r t => cases r <;> rfl
    | .bytearray b, _ =>
      have he : refOps E [.update k (.bytearray b)] = [] := rfl
      rw [he, List.append_nil]
      exact ⟨rfl, h⟩
  | delete k =>
    have hk' : k ∈ K := hk
    have he : refOps E [.delete k] = [.delete k] := rfl
    rw [he] at hlog ⊢
    have hl0 := hval.log
    have hfit : Fits E secure k := hv.fitsq _ hk'
    have hcon := (h.answers hl0 hk' (by rw [after_secure]; exact hfit)).1
    have hmem : k ∈ K ++ [EOp.delete k].map EOp.key := List.mem_append_left _ hk'
    have hdel : EMPT.exec E (.delete k) (EMPT.after E secure ops) = EMPT.delete E k (EMPT.after E secure ops) := rfl
    have hsp : Sparse.exec E (.delete k) c = Sparse.delete E k c := rfl
    have hrun := h.exec (op := .delete k) hk' hfit hlog
    rw [hdel, hsp, Sparse.delete_eq, hcon]
    cases hec : econtents ops k with
    | none =>
      right
      obtain ⟨e, hdn⟩ := hm.delete_none hec
      obtain ⟨e', hd', -⟩ := hval.inv.delete_none ((hval.eff_key hmem).trans (by rw [contents_refOps, hec]; rfl))
        (hval.fit hmem) hl0
      have hnk : effective E secure k ∉ keptKeys E secure (refOps E ops) := by
        intro hin
        obtain ⟨x, hx, hxe⟩ := (keptKeys_refOps hcut _).1 hin
        have := effective_inj hcut (List.mem_append_right _ (econtents_mem hx)) (List.mem_append_left _ hmem) hxe
        rw [this] at hx
        exact hx hec
      have hrun' : (MPT.delete E k c).1 = .error e' ∧ Follows E (MPT.delete E k c).2
          (MPT.after E secure (refOps E ops ++ [.delete k]))
          (T.grow .empty ((refOps E ops ++ [Op.delete k]).map (Op.mapKey (effective E secure)))) K := by
        rcases hrun with ⟨k1, e1, -, e2, -⟩ | ⟨h1, h2⟩
        · cases e1; exact absurd e2 hnk
        · refine ⟨?_, h2⟩
          simp only [MPT.exec] at h1
          rw [h1, hd']
      have hstay : Follows E c (MPT.after E secure (refOps E ops ++ [.delete k]))
          (T.grow .empty ((refOps E ops ++ [Op.delete k]).map (Op.mapKey (effective E secure)))) K := by
        have e1 : MPT.after E secure (refOps E ops ++ [.delete k]) = MPT.after E secure (refOps E ops) := by
          rw [Pymt.after_append]
          simp only [MPT.run, List.foldl_cons, List.foldl_nil, MPT.exec]
          rw [hd']
        have hkeep := T.Keeps.after ((refOps E ops).map (Op.mapKey (effective E secure)))
        have hlook : T.lookup (T.grow .empty ((refOps E ops).map (Op.mapKey (effective E secure))))
            (toNibs (effective E secure k)) = none := by
          cases hq : T.lookup (T.grow .empty ((refOps E ops).map (Op.mapKey (effective E secure))))
            (toNibs (effective E secure k)) with
          | none => rfl
          | some w => exact absurd (List.mem_map.2 ⟨_, (hkeep.pairs _ w).1 hq, rfl⟩) hnk
        have e2 : T.grow .empty ((refOps E ops ++ [Op.delete k]).map (Op.mapKey (effective E secure))) =
            T.grow .empty ((refOps E ops).map (Op.mapKey (effective E secure))) := by
          rw [grow_snoc]
          by_cases hne : T.grow .empty ((refOps E ops).map (Op.mapKey (effective E secure))) = .empty
          · rw [hne]; rfl
          · obtain ⟨e, hr, -⟩ := hkeep.full.remove_none hne hlook
            simp only [Op.mapKey, T.act, hr]
        rw [e1, e2]
        exact h
      rw [hdn]
      cases (MPT.after E secure (refOps E ops)).contains E k with
      | error e2 => exact ⟨rfl, hstay⟩
      | ok b =>
        cases b with
        | false => exact ⟨rfl, hstay⟩
        | true =>
          refine ⟨?_, hrun'.2⟩
          simp only [hrun'.1]
          rfl
    | some v =>
      have hq : Valid E secure (refOps E ops) [k] := hval.subset fun x hx => by
        rw [List.mem_singleton.1 hx]; exact List.mem_append_left _ hmem
      have hcr : contents (refOps E ops) k = some (refOf E k v) := by rw [contents_refOps, hec]; rfl
      have hct := Props.C01_contains_partial hq (.inr (.inl (by rw [hcr]; rfl)))
      rw [hcr] at hct
      rw [hct]
      simp only [Option.isSome_some]
      have hld : LogOk E (MPT.delete E k (MPT.after E secure (refOps E ops))).2.store.written := by
        rw [Pymt.after_append] at hlog; exact hlog
      have hd := hval.inv.delete_some ((hval.eff_key hmem).trans hcr) (hval.fit hmem) hld
      have hev : EValid E secure (ops ++ [.delete k]) [] := ⟨hv.fits, fun _ h => (nomatch h), hv.sizes, hv.log,
        fun hs => (hv.keys hs).mono fun a ha => List.mem_append_right _ ha⟩
      rcases hrun with ⟨k1, e1, r1, r2, ⟨x, r3, r3'⟩, r4⟩ | ⟨h1, h2⟩
      · cases e1
        left
        obtain ⟨y, hy, rfl⟩ := (keptKeys_refOps hcut _).1 r3
        exact ⟨k, rfl, r1, by rw [hec]; simp, ⟨y, hy, fun e => r3' (by rw [e])⟩, fun k' hf hn =>
          r4 k' hf (hn.nearest hcut (List.mem_append_left _ hmem))⟩
      · right
        refine ⟨?_, h2⟩
        rw [hm.delete_some hev hld hec]
        simp only [MPT.exec] at h1
        rw [h1, hd.1]

/-- All calls on a client object, or those before the first delete that lacks a node. -/
theorem Follows.sparse_history {E : Env} {secure : Bool} {K : List Bytes} {ops' : List EOp}
    (hops : ∀ op ∈ ops', op.key ∈ K) (hb : ∀ k v, .update k v ∈ ops' → Sparse.flat v = true) :
    ∀ {ops : List EOp} {c : MPT}, EValid E secure (ops ++ ops') K →
    Follows E c (MPT.after E secure (refOps E ops))
      (T.grow .empty ((refOps E ops).map (Op.mapKey (effective E secure)))) K →
    ((Sparse.outcomes E ops' c).map Except.isOk =
        (EMPT.outcomes E ops' (EMPT.after E secure ops)).map Except.isOk ∧
      Follows E (Sparse.run E ops' c) (MPT.after E secure (refOps E (ops ++ ops')))
        (T.grow .empty ((refOps E (ops ++ ops')).map (Op.mapKey (effective E secure)))) K) ∨
    ∃ pre k post, ops' = pre ++ .delete k :: post ∧
      (Sparse.outcomes E pre c).map Except.isOk = (EMPT.outcomes E pre (EMPT.after E secure ops)).map Except.isOk ∧
      Follows E (Sparse.run E pre c) (MPT.after E secure (refOps E (ops ++ pre)))
        (T.grow .empty ((refOps E (ops ++ pre)).map (Op.mapKey (effective E secure)))) K ∧
      (Sparse.delete E k (Sparse.run E pre c)).1 = .error .keyError ∧
      econtents (ops ++ pre) k ≠ none ∧ (∃ e, econtents (ops ++ pre) e ≠ none ∧ e ≠ k) ∧
      ∀ k', Fits E secure k' → ENearest E secure (ops ++ pre) k k' →
        (Sparse.run E pre c).contains E k' = .error .keyError := by
  induction ops' with
  | nil =>
    intro ops c _ h
    exact .inl ⟨rfl, by rw [List.append_nil]; exact h⟩
  | cons op ops' ih =>
    intro ops c hv h
    have e : ops ++ op :: ops' = (ops ++ [op]) ++ ops' := by simp
    rw [e] at hv
    have hv1 : EValid E secure (ops ++ [op]) K := by
      have := hv.cut
      exact ⟨this.fits, hv.fitsq, this.sizes, this.log, fun hs => (this.keys hs).mono fun a ha => by
        rcases List.mem_append.1 ha with ha | ha
        · exact List.mem_append_left _ (List.mem_append_left _ ha)
        · exact List.mem_append_right _ ha⟩
    have e1 : EMPT.after E secure (ops ++ [op]) = (EMPT.exec E op (EMPT.after E secure ops)).2 := EMPT.after_append ..
    rcases h.sparse hv1 (hops op (by simp)) (fun k v e => hb k v (by rw [e]; simp)) with ⟨k, rfl, h1, h2⟩ | ⟨h1, h2⟩
    · exact .inr ⟨[], k, ops', rfl, rfl, by rw [List.append_nil]; exact h, h1, by rw [List.append_nil]; exact h2⟩
    · rcases ih (fun o ho => hops o (List.mem_cons_of_mem _ ho)) (fun k v hm => hb k v (List.mem_cons_of_mem _ hm)) hv h2
        with ⟨h3, h4⟩ | ⟨pre, k, post, h3, h4, h5, h6⟩
      · left
        refine ⟨?_, ?_⟩
        · simp only [Sparse.outcomes, EMPT.outcomes, List.map_cons, h1, h3, e1]
        · rw [e]; exact h4
      · right
        refine ⟨op :: pre, k, post, by rw [h3]; rfl, ?_, ?_⟩
        · simp only [Sparse.outcomes, EMPT.outcomes, List.map_cons, h1, h4, e1]
        · rw [show ops ++ op :: pre = (ops ++ [op]) ++ pre by simp]
          exact ⟨h5, h6⟩

theorem Follows.start {E : Env} {secure : Bool} {K : List Bytes} {ops ops' : List EOp} {c : MPT}
    (h : EValid E secure (ops ++ ops') K) (hc : Claims E c (EMPT.after E secure ops).trie)
    (hq : ∀ k ∈ K, c.contains E k ≠ .error .keyError) :
    Follows E c (MPT.after E secure (refOps E ops))
      (T.grow .empty ((refOps E ops).map (Op.mapKey (effective E secure)))) K := by
  have hcut := h.cut
  have hval := hcut.valid hcut.mirror
  exact Props.claims_follows_grow hval.fits hval.log (hcut.mirror.trie ▸ hc) h.fitsq hq

/-- What a client object that has followed the calls answers. -/
theorem Follows.sparse_answers {E : Env} {secure : Bool} {K : List Bytes} {ops : List EOp} {c : MPT}
    (h : EValid E secure ops K) (hf : Follows E c (MPT.after E secure (refOps E ops))
      (T.grow .empty ((refOps E ops).map (Op.mapKey (effective E secure)))) K) {k : Bytes} (hk : k ∈ K) :
    c.contains E k = (EMPT.after E secure ops).contains E k ∧
    (∀ r, EMPT.getReference E (EMPT.after E secure ops).trie k = .ok r → EMPT.getReference E c k = .ok r) ∧
    (∀ v, econtents ops k = some v → EMPT.getReference E c k = .ok ⟨k, v.payload⟩) ∧
    (∀ now p, (EMPT.after E secure ops).getPoi E now k = .ok p → Sparse.getPoi E c now k = .ok p) ∧
    (∀ now p, (EMPT.after E secure ops).getPoe E now k = .ok p → Sparse.getPoe E c now k = .ok p) := by
  have hm := h.mirror
  have hval := h.valid hm
  obtain ⟨a1, a2, a3, a4⟩ := hf.answers hval.log hk (by rw [after_secure]; exact h.fitsq k hk)
  rw [← hm.trie] at a1 a2 a3 a4
  have href : ∀ r, EMPT.getReference E (EMPT.after E secure ops).trie k = .ok r → EMPT.getReference E c k = .ok r := by
    intro r hr
    unfold EMPT.getReference at hr ⊢
    cases hg : (EMPT.after E secure ops).trie.get E k with
    | error e => rw [hg] at hr; exact (nomatch hr)
    | ok b =>
      rw [hg] at hr
      rw [a2 b hg]
      exact hr
  refine ⟨a1, href, fun v hv => href _ ?_, a3, a4⟩
  have hq : EValid E secure ops [k] := ⟨h.fits, fun x hx => by rw [List.mem_singleton.1 hx]; exact h.fitsq k hk,
    h.sizes, h.log, fun hs => (h.keys hs).mono fun a ha => by
      rcases List.mem_append.1 ha with ha | ha
      · rw [List.mem_singleton.1 ha]; exact List.mem_append_left _ hk
      · exact List.mem_append_right _ ha⟩
  exact (Props.C30_reference_partial hq).1 v hv

namespace Props

/-- C108: a `SparseEMPT` over any storage has the root of an `EMPT` and can look up some keys.  It is given the calls the
`EMPT` is given, all on these keys and with byte strings as values, and whenever one of these keys is deleted, no other
key is left or a nearest of the others is among these keys.  Then every call succeeds on both or raises on both, the
root is the same, and for these keys the client keeps giving the answers, references and proofs of the `EMPT`, and for
any proof its verdict. -/
theorem C108 {E : Env} {secure : Bool} {ops ops' : List EOp} {c : MPT} {K : List Bytes}
    (h : EValid E secure (ops ++ ops') K) (hops : ∀ op ∈ ops', op.key ∈ K)
    (hb : ∀ k v, .update k v ∈ ops' → ∃ b, v = .bytes b)
    (hc : Claims E c (EMPT.after E secure ops).trie) (hq : ∀ k ∈ K, c.contains E k ≠ .error .keyError)
    (hn : ∀ pre k post, ops' = pre ++ .delete k :: post → econtents (ops ++ pre) k ≠ none →
      (∀ e, econtents (ops ++ pre) e ≠ none → e = k) ∨ ∃ k' ∈ K, ENearest E secure (ops ++ pre) k k') :
    let c' := Sparse.run E ops' c
    let s := EMPT.after E secure (ops ++ ops')
    (Sparse.outcomes E ops' c).map Except.isOk = (EMPT.outcomes E ops' (EMPT.after E secure ops)).map Except.isOk ∧
    c'.root = s.trie.root ∧
    (∀ k ∈ K, c'.contains E k = s.contains E k ∧
      (∀ r, EMPT.getReference E s.trie k = .ok r → EMPT.getReference E c' k = .ok r) ∧
      (∀ v, econtents (ops ++ ops') k = some v → EMPT.getReference E c' k = .ok ⟨k, v.payload⟩) ∧
      (∀ now p, s.getPoi E now k = .ok p → Sparse.getPoi E c' now k = .ok p) ∧
      (∀ now p, s.getPoe E now k = .ok p → Sparse.getPoe E c' now k = .ok p)) ∧
    ∀ p, Sparse.verifyPoi E c' p = s.verifyPoi E p ∧ Sparse.verifyPoe E c' p = s.verifyPoe E p := by
  intro c' s
  have h0 := Follows.start h hc hq
  have hflat : ∀ k v, .update k v ∈ ops' → Sparse.flat v = true := by
    intro k v hm
    obtain ⟨b, rfl⟩ := hb k v hm
    rfl
  rcases h0.sparse_history hops hflat h with ⟨h1, h2⟩ | ⟨pre, k, post, h1, h2, h3, h4, h5, ⟨e, he, hne⟩, h7⟩
  · have hal := h2.alike
    rw [← h.mirror.trie] at hal
    exact ⟨h1, hal.root, fun k hk => h2.sparse_answers h hk, fun p => ⟨hal.verifyPoi p, hal.verifyPoe p⟩⟩
  · exfalso
    rcases hn pre k post h1 h5 with hn | ⟨k', hk', hn⟩
    · exact hne (hn e he)
    · have hcut : EValid E secure (ops ++ pre) (K ++ (EOp.delete k :: post).map EOp.key) := by
        rw [h1, ← List.append_assoc] at h
        exact h.cut
      have := h7 k' (h.fitsq k' hk') hn
      have hm := hcut.mirror
      have hval := hcut.valid hm
      rw [(h3.answers hval.log hk' (by rw [after_secure]; exact h.fitsq k' hk')).1] at this
      exact (Bears.after hval.fits hval.log).holds.never_key hval.log
        (fits_nibs (by rw [after_secure]; exact h.fitsq k' hk')) |>.2.1 this

/-- C108, what is needed: the client is given any such calls on these keys.  All of them succeed or raise as on the
`EMPT`, or some delete raises KeyError; up to the first such delete all is as in `C108`, its key is present and not the
only one, and no nearest of the other keys can be looked up by the client. -/
theorem C108_needed {E : Env} {secure : Bool} {ops ops' : List EOp} {c : MPT} {K : List Bytes}
    (h : EValid E secure (ops ++ ops') K) (hops : ∀ op ∈ ops', op.key ∈ K)
    (hb : ∀ k v, .update k v ∈ ops' → ∃ b, v = .bytes b)
    (hc : Claims E c (EMPT.after E secure ops).trie) (hq : ∀ k ∈ K, c.contains E k ≠ .error .keyError) :
    ((Sparse.outcomes E ops' c).map Except.isOk = (EMPT.outcomes E ops' (EMPT.after E secure ops)).map Except.isOk ∧
      (Sparse.run E ops' c).root = (EMPT.after E secure (ops ++ ops')).trie.root) ∨
    ∃ pre k post, ops' = pre ++ .delete k :: post ∧
      (Sparse.outcomes E pre c).map Except.isOk = (EMPT.outcomes E pre (EMPT.after E secure ops)).map Except.isOk ∧
      (Sparse.run E pre c).root = (EMPT.after E secure (ops ++ pre)).trie.root ∧
      (∀ k ∈ K, (Sparse.run E pre c).contains E k = (EMPT.after E secure (ops ++ pre)).contains E k) ∧
      (Sparse.delete E k (Sparse.run E pre c)).1 = .error .keyError ∧
      econtents (ops ++ pre) k ≠ none ∧ (∃ e, econtents (ops ++ pre) e ≠ none ∧ e ≠ k) ∧
      ∀ k', Fits E secure k' → ENearest E secure (ops ++ pre) k k' →
        (Sparse.run E pre c).contains E k' = .error .keyError := by
  have h0 := Follows.start h hc hq
  have hflat : ∀ k v, .update k v ∈ ops' → Sparse.flat v = true := by
    intro k v hm
    obtain ⟨b, rfl⟩ := hb k v hm
    rfl
  rcases h0.sparse_history hops hflat h with ⟨h1, h2⟩ | ⟨pre, k, post, h1, h2, h3, h4⟩
  · exact .inl ⟨h1, by rw [h.mirror.trie]; exact h2.alike.root⟩
  · have hcut : EValid E secure (ops ++ pre) (K ++ (EOp.delete k :: post).map EOp.key) := by
      rw [h1, ← List.append_assoc] at h
      exact h.cut
    have hm := hcut.mirror
    have hval := hcut.valid hm
    refine .inr ⟨pre, k, post, h1, h2, by rw [hm.trie]; exact h3.alike.root, fun x hx => ?_, h4⟩
    have := (h3.answers hval.log hx (by rw [after_secure]; exact h.fitsq x hx)).1
    rw [this, ← hm.trie]
    rfl

/-- The hypothesis of `C108` on deletes, computed. -/
def enearB (E : Env) (secure : Bool) (K : List Bytes) : List EOp → List EOp → Bool
  | _, [] => true
  | ops, op :: rest =>
    (match op with
      | .delete k => decide (econtents ops k ≠ none →
          (∀ e ∈ ops.map EOp.key, econtents ops e ≠ none → e = k) ∨
          ∃ k' ∈ K, econtents ops k' ≠ none ∧ k' ≠ k ∧ ∀ e ∈ ops.map EOp.key, econtents ops e ≠ none → e ≠ k →
            sharedDigits (effective E secure k) (effective E secure e) ≤
              sharedDigits (effective E secure k) (effective E secure k'))
      | .update _ _ => true) && enearB E secure K (ops ++ [op]) rest

theorem enear_of {E : Env} {secure : Bool} {K : List Bytes} {ops' : List EOp} :
    ∀ {ops : List EOp}, enearB E secure K ops ops' = true → ∀ pre k post, ops' = pre ++ .delete k :: post →
      econtents (ops ++ pre) k ≠ none →
      (∀ e, econtents (ops ++ pre) e ≠ none → e = k) ∨ ∃ k' ∈ K, ENearest E secure (ops ++ pre) k k' := by
  induction ops' with
  | nil => intro ops _ pre k post e; cases pre <;> cases e
  | cons op rest ih =>
    intro ops h pre k post e
    simp only [enearB, Bool.and_eq_true] at h
    cases pre with
    | nil =>
      rw [List.nil_append, List.cons.injEq] at e
      obtain ⟨rfl, -⟩ := e
      rw [List.append_nil]
      intro hk
      rcases of_decide_eq_true h.1 hk with h1 | ⟨k', h1, h2, h3, h4⟩
      · exact .inl fun e he => h1 e (econtents_mem he) he
      · exact .inr ⟨k', h1, h2, h3, fun e he => h4 e (econtents_mem he) he⟩
    | cons o pre =>
      rw [List.cons_append, List.cons.injEq] at e
      obtain ⟨rfl, e⟩ := e
      have := ih h.2 pre k post e
      rwa [List.append_assoc] at this

/-- The `EMPT` of the examples; one value is an object. -/
private def baseEOps : List EOp :=
  [.update [0x12, 0x34] (.bytes [1, 2]), .update [0x12, 0x56] (.bytes [3]), .update [0x99] (.obj 4 true true [5])]

/-- The client that has the proofs of `12 34` and `12 56`; it lacks the node of `99`. -/
private def sparseClient : MPT :=
  fromNodes toyEnv (proofNodes toyEnv (refOps toyEnv baseEOps) [0x12, 0x34] ++
    proofNodes toyEnv (refOps toyEnv baseEOps) [0x12, 0x56]) (EMPT.after toyEnv false baseEOps).trie.root false

/-- Changes of keys the client can look up, `12 77` being absent at first. -/
private def clientEOps : List EOp :=
  [.update [0x12, 0x77] (.bytes [7]), .delete [0x12, 0x34], .delete [0x12, 0x34], .update [0x12, 0x56] (.bytes []),
   .delete [0x12, 0x56]]

private theorem sparse_claims : Claims toyEnv sparseClient (EMPT.after toyEnv false baseEOps).trie :=
  claims_of (by decide +kernel) (by decide +kernel) (by decide +kernel) (collFree_of (by decide +kernel))

/-- The hypotheses of `C108`, of a client that lacks a node. -/
example : EValid toyEnv false (baseEOps ++ clientEOps) nearKeys ∧
    Claims toyEnv sparseClient (EMPT.after toyEnv false baseEOps).trie ∧
    (∀ op ∈ clientEOps, op.key ∈ nearKeys) ∧
    (∀ k ∈ nearKeys, sparseClient.contains toyEnv k ≠ .error .keyError) ∧
    enearB toyEnv false nearKeys baseEOps clientEOps = true ∧
    sparseClient.contains toyEnv [0x99] = .error .keyError :=
  ⟨evalid_of (by decide +kernel), sparse_claims, by decide +kernel, by decide +kernel, by decide +kernel,
    by decide +kernel⟩

/-- The conclusion evaluated. -/
example : (Sparse.run toyEnv clientEOps sparseClient).root =
      (EMPT.after toyEnv false (baseEOps ++ clientEOps)).trie.root ∧
    Sparse.outcomes toyEnv clientEOps sparseClient = [.ok (), .ok (), .error .keyNotFound, .ok (), .ok ()] ∧
    EMPT.getReference toyEnv (Sparse.run toyEnv clientEOps sparseClient) [0x12, 0x77] = .ok ⟨[0x12, 0x77], [7]⟩ :=
  ⟨by decide +kernel, by decide +kernel, by decide +kernel⟩

/-- The second case of `C108_needed`: deleting `12 77`, the last of the three, needs the node of `99`. -/
example : (Sparse.delete toyEnv [0x12, 0x77] (Sparse.run toyEnv clientEOps sparseClient)).1 = .error .keyError ∧
    (EMPT.delete toyEnv [0x12, 0x77] (EMPT.after toyEnv false (baseEOps ++ clientEOps))).1 = .ok () :=
  ⟨by decide +kernel, by decide +kernel⟩

end Props
end Pymt
