import Verif.Lemmas.History

/-!
# The storage at every moment

Every node is written after the nodes it refers to.  This needs no assumption about values, keys,
recursion limit or collisions; it is an induction over the code (not over abstract tries).
-/

namespace Pymt

/-- The references in a node. -/
def Node.refs : Node → List Bytes
  | .leaf _ _ => []
  | .ext _ r => [r]
  | .branch bs _ => bs

/-- A branch has 16 children. -/
def Node.Arity : Node → Prop
  | .branch bs _ => bs.length = 16
  | _ => True

/-- A reference is short, or the hash of something written. -/
def OkRef (E : Env) (log : List Bytes) (r : Bytes) : Prop :=
  r.length ≤ 32 ∧ (r.length = 32 → ∃ w ∈ log, E.keccak w = r)

/-- All references of the node are fine. -/
def OkNode (E : Env) (log : List Bytes) (n : Node) : Prop := n.Arity ∧ ∀ r ∈ n.refs, OkRef E log r

/-- Nodes are written after what they refer to, and never when shorter than 32 bytes. -/
def Chain (E : Env) (log : List Bytes) : Prop :=
  ∀ l1 w l2, log = l1 ++ w :: l2 → 32 ≤ w.length ∧ ∃ n, Node.decode w = .ok n ∧ OkNode E l1 n

theorem OkRef.mono {E : Env} {log log' : List Bytes} {r : Bytes} (h : OkRef E log r) (hs : log <+: log') :
    OkRef E log' r := by
  refine ⟨h.1, fun hl => ?_⟩
  obtain ⟨w, hw, he⟩ := h.2 hl
  exact ⟨w, hs.subset hw, he⟩

theorem OkNode.mono {E : Env} {log log' : List Bytes} {n : Node} (h : OkNode E log n) (hs : log <+: log') :
    OkNode E log' n := ⟨h.1, fun r hr => (h.2 r hr).mono hs⟩

theorem OkRef.nil (E : Env) (log : List Bytes) : OkRef E log [] := by simp [OkRef]

theorem Chain.nil (E : Env) : Chain E [] := by
  intro l1 w l2 h; simp at h

theorem Chain.snoc {E : Env} {log : List Bytes} (h : Chain E log) {w : Bytes} (hw : 32 ≤ w.length)
    {n : Node} (hd : Node.decode w = .ok n) (hn : OkNode E log n) : Chain E (log ++ [w]) := by
  intro l1 w' l2 he
  rcases List.eq_nil_or_concat l2 with rfl | ⟨l2', x, rfl⟩
  · have := List.append_inj' he (by simp)
    obtain ⟨rfl, h2⟩ := this
    obtain rfl : w = w' := by simpa using h2
    exact ⟨hw, n, hd, hn⟩
  · have : log ++ [w] = (l1 ++ w' :: l2') ++ [x] := by simpa using he
    exact h l1 w' l2' (List.append_inj' this rfl).1

theorem Chain.prefix {E : Env} {log log' : List Bytes} (h : Chain E log') (hs : log <+: log') :
    Chain E log := by
  obtain ⟨t, rfl⟩ := hs
  intro l1 w l2 he
  refine h l1 w (l2 ++ t) ?_
  rw [he]; simp

theorem Chain.mem {E : Env} {log : List Bytes} (h : Chain E log) {w : Bytes} (hw : w ∈ log) :
    32 ≤ w.length ∧ ∃ n, Node.decode w = .ok n ∧ OkNode E log n := by
  obtain ⟨l1, l2, he⟩ := List.append_of_mem hw
  obtain ⟨h1, n, h2, h3⟩ := h l1 w l2 he
  exact ⟨h1, n, h2, h3.mono ⟨w :: l2, he.symm⟩⟩

/-! ### Decoding and references -/

theorem encodeList_mem {l : List Item} {x : Item} (h : x ∈ l) :
    x.encode.length ≤ (Item.encodeList l).length := by
  induction l with
  | nil => simp at h
  | cons y l ih =>
    simp only [Item.encodeList, List.length_append]
    rcases List.mem_cons.1 h with rfl | h
    · omega
    · have := ih h; omega

theorem usage_length (x : Item) : (prepareForUsage x).length ≤ x.encode.length := by
  cases x with
  | str b => rw [prepareForUsage, Item.encode]; exact encStr_length_ge b
  | list l => rw [prepareForUsage]; exact Nat.le_refl _

theorem usage_lt {l : List Item} {x : Item} (h : x ∈ l) :
    (prepareForUsage x).length < (Item.encode (.list l)).length := by
  have h1 := usage_length x
  have h2 := encodeList_mem h
  have h3 := lenPrefix_length_pos 192 (Item.encodeList l).length
  rw [Item.encode, List.length_append]
  omega

theorem decode_str {b raw : Bytes} (hi : rlpDecode raw = .ok (.str b)) :
    Node.decode raw = if b.length = 17 ∨ b.length = 2 then .error .typeError else .error .assertion := by
  unfold Node.decode; rw [hi]; rfl

/-- The references of a decoded node are shorter than its encoding; a branch has 16. -/
theorem decode_refs {raw : Bytes} {n : Node} (h : Node.decode raw = .ok n) :
    n.Arity ∧ ∀ r ∈ n.refs, r.length < raw.length := by
  cases hi : rlpDecode raw with
  | error e => unfold Node.decode at h; rw [hi] at h; simp at h
  | ok x =>
    have he := encode_rlpDecode hi
    cases x with
    | str b =>
      rw [decode_str hi] at h
      split at h <;> simp at h
    | list l =>
      unfold Node.decode at h
      rw [hi] at h
      simp only [Except.bind_ok'] at h
      split at h
      · rename_i h17
        split at h
        · rename_i d hd
          cases hv : Node.asBytes d with
          | error e => rw [hv] at h; simp at h
          | ok v =>
            rw [hv] at h
            simp only [Except.bind_ok', Except.pure_ok', Except.ok.injEq] at h
            subst h
            refine ⟨by simp [Node.Arity, h17], fun r hr => ?_⟩
            simp only [Node.refs, List.mem_map] at hr
            obtain ⟨x, hx, rfl⟩ := hr
            rw [← he]
            exact usage_lt (List.mem_of_mem_take hx)
        · simp at h
      · split at h
        · rename_i p d _
          split at h
          · simp at h
          · simp at h
          · rename_i pb _
            cases hp : NibblePath.decodeWithType pb with
            | error e => rw [hp] at h; simp at h
            | ok q =>
              obtain ⟨path, isLeaf⟩ := q
              rw [hp] at h
              simp only [Except.bind_ok'] at h
              split at h
              · cases hv : Node.asBytes d with
                | error e => rw [hv] at h; simp at h
                | ok v =>
                  rw [hv] at h
                  simp only [Except.bind_ok', Except.pure_ok', Except.ok.injEq] at h
                  subst h
                  exact ⟨trivial, fun r hr => by simp [Node.refs] at hr⟩
              · simp only [Except.pure_ok', Except.ok.injEq] at h
                subst h
                refine ⟨trivial, fun r hr => ?_⟩
                simp only [Node.refs, List.mem_singleton] at hr
                subst hr
                rw [← he]
                exact usage_lt (by simp)
        · simp at h

theorem OkRef.prepare {E : Env} {log : List Bytes} {r : Bytes} {x : Item} (hr : OkRef E log r)
    (h : prepareForEncoding r = .ok x) : OkRef E log (prepareForUsage x) := by
  unfold prepareForEncoding at h
  split at h
  · rename_i hl
    have he := encode_rlpDecode h
    have hu := usage_length x
    rw [he] at hu
    exact ⟨by omega, fun h32 => by omega⟩
  · simp only [Except.ok.injEq] at h
    subst h; exact hr

theorem prepareAll_ok {E : Env} {log : List Bytes} {rs : List Bytes} {xs : List Item}
    (hr : ∀ r ∈ rs, OkRef E log r) (h : prepareAll rs = .ok xs) :
    xs.length = rs.length ∧ ∀ x ∈ xs, OkRef E log (prepareForUsage x) := by
  induction rs generalizing xs with
  | nil =>
    simp only [prepareAll, Except.ok.injEq] at h
    subst h; simp
  | cons r rs ih =>
    rw [prepareAll] at h
    cases h1 : prepareForEncoding r with
    | error e => rw [h1] at h; simp at h
    | ok x =>
      cases h2 : prepareAll rs with
      | error e => rw [h1, h2] at h; simp at h
      | ok xs' =>
        rw [h1, h2] at h
        simp only [Except.bind_ok', Except.pure_ok', Except.ok.injEq] at h
        subst h
        obtain ⟨g1, g2⟩ := ih (fun r hr' => hr r (List.mem_cons_of_mem _ hr')) h2
        refine ⟨by simp [g1], fun y hy => ?_⟩
        rcases List.mem_cons.1 hy with rfl | hy
        · exact (hr r List.mem_cons_self).prepare h1
        · exact g2 y hy

theorem NibblePath.encode_wf {p : NibblePath} {leaf : Bool} {b : Bytes} (h : p.encode leaf = .ok b) :
    p.WF ∧ b = hp leaf p.nibs := by
  by_cases hw : p.WF
  · rw [NibblePath.encode_spec hw] at h
    simp only [Except.ok.injEq] at h
    exact ⟨hw, h.symm⟩
  · have : p.len = .error .valueError := by
      unfold NibblePath.len
      rw [if_neg (show ¬ p.offset ≤ p.data.length * 2 from hw)]
    rw [NibblePath.encode, this] at h
    simp at h

/-- What is written can be decoded, and refers to what the node referred to. -/
theorem decode_encode_ok {E : Env} {log : List Bytes} {n : Node} {w : Bytes} (hn : OkNode E log n)
    (h : n.encode = .ok w) (hs : w.length < 2 ^ 64) :
    ∃ n', Node.decode w = .ok n' ∧ OkNode E log n' := by
  cases n with
  | leaf p d =>
    rw [Node.encode] at h
    cases hp : p.encode true with
    | error e => rw [hp] at h; simp at h
    | ok b =>
      rw [hp] at h
      simp only [Except.bind_ok', Except.pure_ok', Except.ok.injEq] at h
      subst h
      obtain ⟨_, rfl⟩ := NibblePath.encode_wf hp
      obtain ⟨q, hq, _⟩ := NibblePath.decodeWithType_spec true p.nibs
      refine ⟨.leaf q d, ?_, trivial, fun r hr => by simp [Node.refs] at hr⟩
      unfold Node.decode
      rw [rlpDecode_encode _ hs]
      simp [hq, Node.asBytes]
  | ext p r =>
    rw [Node.encode] at h
    cases hx : prepareForEncoding r with
    | error e => rw [hx] at h; simp at h
    | ok x =>
      cases hp : p.encode false with
      | error e => rw [hx, hp] at h; simp at h
      | ok b =>
        rw [hx, hp] at h
        simp only [Except.bind_ok', Except.pure_ok', Except.ok.injEq] at h
        subst h
        obtain ⟨_, rfl⟩ := NibblePath.encode_wf hp
        obtain ⟨q, hq, _⟩ := NibblePath.decodeWithType_spec false p.nibs
        refine ⟨.ext q (prepareForUsage x), ?_, trivial, fun r' hr => ?_⟩
        · unfold Node.decode
          rw [rlpDecode_encode _ hs]
          simp [hq]
        · simp only [Node.refs, List.mem_singleton] at hr
          subst hr
          exact (hn.2 r (by simp [Node.refs])).prepare hx
  | branch bs d =>
    rw [Node.encode] at h
    cases hx : prepareAll bs with
    | error e => rw [hx] at h; simp at h
    | ok xs =>
      rw [hx] at h
      simp only [Except.bind_ok', Except.pure_ok', Except.ok.injEq] at h
      subst h
      obtain ⟨h1, h2⟩ := prepareAll_ok (fun r hr => hn.2 r hr) hx
      have h16 : xs.length = 16 := by rw [h1]; exact hn.1
      refine ⟨.branch (xs.map prepareForUsage) d, ?_, by simp [Node.Arity, h16], fun r' hr => ?_⟩
      · unfold Node.decode
        rw [rlpDecode_encode _ hs]
        simp [h16, Node.asBytes]
      · simp only [Node.refs, List.mem_map] at hr
        obtain ⟨x, hx, rfl⟩ := hr
        exact h2 x hx

/-! ### Hoare triples -/

/-- Sizes RLP can represent. -/
def Sizes (log : List Bytes) : Prop := ∀ w ∈ log, w.length < 2 ^ 64

/-- From every storage whose log extends `log`, the computation keeps the storage in order, and its
result satisfies `Post` at the log reached. -/
def Keeps {α : Type} (E : Env) (log : List Bytes) (m : M Store α) (Post : List Bytes → α → Prop) : Prop :=
  ∀ st, Good E st → Chain E st.written → log <+: st.written → Sizes (m st).2.written →
    Good E (m st).2 ∧ Chain E (m st).2.written ∧ st.written <+: (m st).2.written ∧
      ∀ a, (m st).1 = .ok a → Post (m st).2.written a

namespace Keeps
variable {E : Env} {log : List Bytes} {α β : Type}

theorem lift (p : Py α) : Keeps E log (M.lift p : M Store α) (fun _ a => p = .ok a) :=
  fun _ h1 h2 _ _ => ⟨h1, h2, List.prefix_refl _, fun _ h => h⟩

theorem raise (e : Err) {P : List Bytes → α → Prop} : Keeps E log (M.raise e : M Store α) P :=
  fun _ h1 h2 _ _ => ⟨h1, h2, List.prefix_refl _, fun _ h => by simp at h⟩

theorem pure {a : α} {P : List Bytes → α → Prop} (h : ∀ log', log <+: log' → P log' a) :
    Keeps E log (Pure.pure a : M Store α) P :=
  fun st h1 h2 h3 _ => ⟨h1, h2, List.prefix_refl _, fun b hb => by
    simp only [M.pure_apply, Except.ok.injEq] at hb
    subst hb; exact h _ h3⟩

/-- Logs only grow. -/
def Grows (m : M Store α) : Prop := ∀ st, st.written <+: (m st).2.written

theorem _root_.Pymt.Writes.grows {E : Env} {α : Type} {m : M Store α} (h : Writes E m) : Grows m := by
  intro st
  obtain ⟨ws, hw⟩ := h st
  rw [hw, replay_written]
  exact List.prefix_append _ _

theorem bind {m : M Store α} {f : α → M Store β} {P : List Bytes → α → Prop} {Q : List Bytes → β → Prop}
    (hm : Keeps E log m P) (hg : ∀ a, Writes E (f a))
    (hf : ∀ log' a, log <+: log' → P log' a → Keeps E log' (f a) Q) : Keeps E log (m >>= f) Q := by
  intro st h1 h2 h3 hs
  rw [M.bind_apply] at hs ⊢
  cases h : m st with
  | mk r st1 =>
    have hm' := hm st h1 h2 h3
    rw [h] at hm' hs
    cases r with
    | error e =>
      obtain ⟨k1, k2, k3, _⟩ := hm' hs
      exact ⟨k1, k2, k3, fun a ha => by simp at ha⟩
    | ok a =>
      have hgr := (hg a).grows st1
      have hs1 : Sizes st1.written := fun w hw => hs w (hgr.subset hw)
      obtain ⟨k1, k2, k3, k4⟩ := hm' hs1
      obtain ⟨q1, q2, q3, q4⟩ := hf st1.written a (h3.trans k3) (k4 a rfl) st1 k1 k2 (List.prefix_refl _) hs
      exact ⟨q1, q2, k3.trans q3, q4⟩

theorem mono {m : M Store α} {P Q : List Bytes → α → Prop} (h : Keeps E log m P)
    (hpq : ∀ log' a, log <+: log' → P log' a → Q log' a) : Keeps E log m Q := by
  intro st h1 h2 h3 hs
  obtain ⟨k1, k2, k3, k4⟩ := h st h1 h2 h3 hs
  exact ⟨k1, k2, k3, fun a ha => hpq _ a (h3.trans k3) (k4 a ha)⟩

theorem getNodeM {ref : Bytes} (hr : OkRef E log ref) :
    Keeps E log (MPT.getNodeM ref) (fun log' n => OkNode E log' n) := by
  intro st h1 h2 h3 hs
  refine ⟨h1, h2, List.prefix_refl _, fun n hn => ?_⟩
  have hn' : MPT.getNode st.kv ref = .ok n := hn
  unfold MPT.getNode at hn'
  by_cases h32 : ref.length = 32
  · rw [if_pos h32, dgetItem] at hn'
    cases hd : dget st.kv ref with
    | none => rw [hd] at hn'; simp at hn'
    | some v =>
      rw [hd] at hn'
      obtain ⟨_, hv⟩ := h1 _ _ hd
      obtain ⟨_, n', e1, e2⟩ := h2.mem hv
      simp only [Except.bind_ok', e1, Except.ok.injEq] at hn'
      subst hn'
      exact e2
  · rw [if_neg h32] at hn'
    simp only [Except.bind_ok'] at hn'
    obtain ⟨g1, g2⟩ := decode_refs hn'
    refine ⟨g1, fun r hr' => ?_⟩
    have := g2 r hr'
    have := hr.1
    exact ⟨by omega, fun h => by omega⟩

theorem storeNode {n : Node} (hn : OkNode E log n) :
    Keeps E log (MPT.storeNode E n) (fun log' r => OkRef E log' r) := by
  intro st h1 h2 h3 hs
  unfold MPT.storeNode Node.intoReference at hs ⊢
  cases he : n.encode with
  | error e =>
    simp only [M.bind_apply, M.lift_apply, Except.bind_error']
    exact ⟨h1, h2, List.prefix_refl _, fun a ha => by simp at ha⟩
  | ok enc =>
    by_cases hl : enc.length < 32
    · have h32 : enc.length ≠ 32 := by omega
      simp only [M.bind_apply, M.lift_apply, Except.bind_ok', hl, if_true, Except.pure_ok', h32, if_false,
        M.pure_apply]
      refine ⟨h1, h2, List.prefix_refl _, fun a ha => ?_⟩
      simp only [Except.ok.injEq] at ha
      subst ha
      exact ⟨by omega, fun h => by omega⟩
    · simp only [he, M.bind_apply, M.lift_apply, Except.bind_ok', hl, if_false, Except.pure_ok', E.keccak_len,
        if_true, M.modify_apply, M.pure_apply] at hs ⊢
      have hw : (st.set (E.keccak enc) enc).written = st.written ++ [enc] := rfl
      have hsz : enc.length < 2 ^ 64 := hs enc (by rw [hw]; simp)
      obtain ⟨n', d1, d2⟩ := decode_encode_ok (hn.mono h3) he hsz
      refine ⟨h1.set enc, ?_, ?_, fun a ha => ?_⟩
      · rw [hw]; exact h2.snoc (by omega) d1 d2
      · rw [hw]; exact List.prefix_append _ _
      · simp only [Except.ok.injEq] at ha
        subst ha
        refine ⟨by rw [E.keccak_len]; omega, fun _ => ⟨enc, by rw [hw]; simp, rfl⟩⟩

end Keeps

theorem pySet_ok {E : Env} {log : List Bytes} {bs bs' : List Bytes} {i : Nat} {r : Bytes}
    (h : pySet bs i r = .ok bs') (hb : bs.length = 16 ∧ ∀ x ∈ bs, OkRef E log x) (hr : OkRef E log r) :
    bs'.length = 16 ∧ ∀ x ∈ bs', OkRef E log x := by
  unfold pySet at h
  split at h
  · simp only [Except.ok.injEq] at h
    subst h
    refine ⟨by simp [hb.1], fun x hx => ?_⟩
    rcases List.mem_or_eq_of_mem_set hx with hx | rfl
    · exact hb.2 x hx
    · exact hr
  · simp at h

theorem pyIndex_ok {E : Env} {log : List Bytes} {bs : List Bytes} {i : Nat} {r : Bytes}
    (h : pyIndex bs i = .ok r) (hb : ∀ x ∈ bs, OkRef E log x) : OkRef E log r := by
  unfold pyIndex at h
  split at h
  · rename_i a ha
    simp only [Except.ok.injEq] at h
    subst h
    exact hb _ (List.mem_of_getElem? ha)
  · simp at h

/-- A list of 16 references. -/
def OkRefs (E : Env) (log : List Bytes) (bs : List Bytes) : Prop :=
  bs.length = 16 ∧ ∀ x ∈ bs, OkRef E log x

theorem OkRefs.mono {E : Env} {log log' bs : List Bytes} (h : OkRefs E log bs) (hs : log <+: log') :
    OkRefs E log' bs := ⟨h.1, fun x hx => (h.2 x hx).mono hs⟩

theorem OkRefs.none (E : Env) (log : List Bytes) : OkRefs E log (List.replicate 16 []) := by
  refine ⟨by simp, fun x hx => ?_⟩
  rw [(List.mem_replicate.1 hx).2]
  exact OkRef.nil E log

theorem OkNode.leaf {E : Env} {log : List Bytes} {p : NibblePath} {d : Bytes} : OkNode E log (.leaf p d) :=
  ⟨trivial, fun r hr => by simp [Node.refs] at hr⟩

theorem OkNode.ext {E : Env} {log : List Bytes} {p : NibblePath} {r : Bytes} (h : OkRef E log r) :
    OkNode E log (.ext p r) := ⟨trivial, fun r' hr => by
      simp only [Node.refs, List.mem_singleton] at hr
      subst hr; exact h⟩

theorem OkNode.next {E : Env} {log : List Bytes} {p : NibblePath} {r : Bytes} (h : OkNode E log (.ext p r)) :
    OkRef E log r := h.2 r (by simp [Node.refs])

theorem OkNode.branch {E : Env} {log : List Bytes} {bs : List Bytes} {d : Bytes} :
    OkNode E log (.branch bs d) ↔ OkRefs E log bs := Iff.rfl

namespace Keeps
variable {E : Env} {log : List Bytes}

/-- `bind` after a pure computation. -/
theorem lift_bind {α β : Type} {p : Py α} {f : α → M Store β} {Q : List Bytes → β → Prop}
    (hf : ∀ a, p = .ok a → Keeps E log (f a) Q) : Keeps E log ((M.lift p : M Store α) >>= f) Q := by
  cases hp : p with
  | error e =>
    intro st h1 h2 _ _
    exact ⟨h1, h2, List.prefix_refl _, fun a ha => by simp at ha⟩
  | ok a =>
    intro st h1 h2 h3 hs
    exact hf a hp st h1 h2 h3 hs

theorem createBranchLeaf {path : NibblePath} {v : Bytes} {bs : List Bytes} (hb : OkRefs E log bs) :
    Keeps E log (MPT.createBranchLeaf E path v bs) (fun log' bs' => OkRefs E log' bs') := by
  unfold MPT.createBranchLeaf
  refine lift_bind fun n _ => ?_
  split
  · refine lift_bind fun idx _ => ?_
    refine (storeNode OkNode.leaf).bind (fun _ => .lift _) fun log' r hl hr => ?_
    exact (lift _).mono fun log'' bs' hl' h => pySet_ok h (hb.mono (hl.trans hl')) (hr.mono hl')
  · exact pure fun log' hl => hb.mono hl

theorem createBranchExtension {path : NibblePath} {r : Bytes} {bs : List Bytes} (hr : OkRef E log r)
    (hb : OkRefs E log bs) :
    Keeps E log (MPT.createBranchExtension E path r bs) (fun log' bs' => OkRefs E log' bs') := by
  unfold MPT.createBranchExtension
  refine lift_bind fun n _ => ?_
  split
  · exact raise _
  split
  · refine lift_bind fun idx _ => ?_
    exact (lift _).mono fun log'' bs' hl' h => pySet_ok h (hb.mono hl') (hr.mono hl')
  · refine lift_bind fun idx _ => ?_
    refine (storeNode (OkNode.ext hr)).bind (fun _ => .lift _) fun log' r hl hr => ?_
    exact (lift _).mono fun log'' bs' hl' h => pySet_ok h (hb.mono (hl.trans hl')) (hr.mono hl')

theorem createBranchNode {pa pb : NibblePath} {va vb : Bytes} :
    Keeps E log (MPT.createBranchNode E pa va pb vb) (fun log' r => OkRef E log' r) := by
  unfold MPT.createBranchNode
  refine lift_bind fun a _ => lift_bind fun b _ => ?_
  split
  · exact raise _
  · refine (createBranchLeaf (OkRefs.none E log)).bind
      (fun _ => (Writes.createBranchLeaf _ _ _).bind fun _ => .storeNode _) fun log' bs _ hb => ?_
    refine (createBranchLeaf hb).bind (fun _ => .storeNode _) fun log' bs _ hb => ?_
    exact storeNode (OkNode.branch.2 hb)

theorem updateAux (f : Nat) {ref : Bytes} {path : NibblePath} {v : Bytes}
    (hr : ref = emptyHash E ∨ OkRef E log ref) :
    Keeps E log (MPT.updateAux E f ref path v) (fun log' r => OkRef E log' r) := by
  induction f generalizing ref path log with
  | zero => exact raise _
  | succ f ih =>
    unfold MPT.updateAux
    split
    · exact storeNode OkNode.leaf
    · rename_i hne
      have hr : OkRef E log ref := by
        rcases hr with h | h
        · exact absurd (.inr h) hne
        · exact h
      refine (getNodeM hr).bind (fun node => ?_) fun log1 node hl1 hn => ?_
      · have := Writes.updateAux (E := E) (f + 1) ref path v
        cases node with
        | leaf npath ndata =>
          refine (Writes.lift _).bind fun same => ?_
          split
          · exact .storeNode _
          · refine (Writes.lift _).bind fun c => (Writes.lift _).bind fun n =>
              (Writes.createBranchNode _ _ _ _).bind fun r => ?_
            split
            · exact .storeNode _
            · exact .pure _
        | ext npath nextRef =>
          refine (Writes.lift _).bind fun pre => ?_
          split
          · exact (Writes.lift _).bind fun _ => (Writes.updateAux _ _ _ _).bind fun _ => .storeNode _
          · refine (Writes.lift _).bind fun c => (Writes.lift _).bind fun n => (Writes.lift _).bind fun m =>
              (Writes.createBranchLeaf _ _ _).bind fun _ => (Writes.createBranchExtension _ _ _).bind fun _ =>
              (Writes.storeNode _).bind fun r => ?_
            split
            · exact .storeNode _
            · exact .pure _
        | branch branches data =>
          refine (Writes.lift _).bind fun n => ?_
          split
          · exact .storeNode _
          · exact (Writes.lift _).bind fun _ => (Writes.lift _).bind fun _ =>
              (Writes.updateAux _ _ _ _).bind fun _ => (Writes.lift _).bind fun _ => .storeNode _
      · cases node with
        | leaf npath ndata =>
          refine lift_bind fun same _ => ?_
          split
          · exact storeNode OkNode.leaf
          · refine lift_bind fun c _ => lift_bind fun n _ => ?_
            refine createBranchNode.bind (fun r => ?_) fun log2 r hl2 hr2 => ?_
            · split
              · exact .storeNode _
              · exact .pure _
            · split
              · exact storeNode (OkNode.ext hr2)
              · exact pure fun log' hl => hr2.mono hl
        | ext npath nextRef =>
          refine lift_bind fun pre _ => ?_
          split
          · refine lift_bind fun m _ => ?_
            refine (ih (.inr hn.next)).bind (fun _ => .storeNode _) fun log2 r hl2 hr2 => ?_
            exact storeNode (OkNode.ext hr2)
          · refine lift_bind fun c _ => lift_bind fun n _ => lift_bind fun m _ => ?_
            refine (createBranchLeaf (OkRefs.none E log1)).bind (fun _ =>
              (Writes.createBranchExtension _ _ _).bind fun _ => (Writes.storeNode _).bind fun r => ?_)
              fun log2 bs hl2 hb => ?_
            · split
              · exact .storeNode _
              · exact .pure _
            refine (createBranchExtension (hn.next.mono hl2) hb).bind (fun _ =>
              (Writes.storeNode _).bind fun r => ?_) fun log3 bs hl3 hb => ?_
            · split
              · exact .storeNode _
              · exact .pure _
            refine (storeNode (OkNode.branch.2 hb)).bind (fun r => ?_) fun log4 r hl4 hr4 => ?_
            · split
              · exact .storeNode _
              · exact .pure _
            · split
              · exact storeNode (OkNode.ext hr4)
              · exact pure fun log' hl => hr4.mono hl
        | branch branches data =>
          refine lift_bind fun n _ => ?_
          split
          · exact storeNode (OkNode.branch.2 (OkNode.branch.1 hn))
          · refine lift_bind fun idx _ => lift_bind fun child hc => ?_
            refine (ih (.inr (pyIndex_ok hc hn.2))).bind
              (fun _ => (Writes.lift _).bind fun _ => .storeNode _) fun log2 r hl2 hr2 => ?_
            refine lift_bind fun bs hbs => ?_
            exact storeNode (OkNode.branch.2 (pySet_ok hbs ((OkNode.branch.1 hn).mono hl2) hr2))

/-- The reference that `_delete` reports is fine. -/
def OkAct (E : Env) (log : List Bytes) : MPT.DeleteAction → Prop
  | .deleted => True
  | .updated r => OkRef E log r
  | .useless _ r => OkRef E log r

theorem storeAct {n : Node} {g : Bytes → MPT.DeleteAction} (hn : OkNode E log n)
    (hg : ∀ log' r, OkRef E log' r → OkAct E log' (g r)) :
    Keeps E log (do let r ← MPT.storeNode E n; return g r) (fun log' a => OkAct E log' a) :=
  (storeNode hn).bind (fun _ => .pure _) fun _ r _ hr => pure fun log' hl => hg log' r (hr.mono hl)

theorem buildFromLastBranch {bs : List Bytes} (hb : OkRefs E log bs) :
    Keeps E log (MPT.buildFromLastBranch E bs) (fun log' a => OkAct E log' a) := by
  unfold MPT.buildFromLastBranch
  refine lift_bind fun r hr => ?_
  have hr := pyIndex_ok hr hb.2
  refine (getNodeM hr).bind (fun n => ?_) fun log1 n hl1 hn => ?_
  · split
    · exact (Writes.lift _).bind fun _ => (Writes.storeNode _).bind fun _ => .pure _
    · exact (Writes.lift _).bind fun _ => (Writes.storeNode _).bind fun _ => .pure _
    · exact (Writes.storeNode _).bind fun _ => .pure _
  · cases n with
    | leaf p d => exact lift_bind fun _ _ => storeAct OkNode.leaf fun _ _ h => h
    | ext p r => exact lift_bind fun _ _ => storeAct (OkNode.ext hn.next) fun _ _ h => h
    | branch _ _ => exact storeAct (OkNode.ext (hr.mono hl1)) fun _ _ h => h

theorem afterDeleted {bs : List Bytes} {d : Bytes} (hb : OkRefs E log bs) :
    Keeps E log (MPT.afterDeleted E bs d) (fun log' a => OkAct E log' a) := by
  unfold MPT.afterDeleted
  simp only
  split
  · exact pure fun _ _ => trivial
  split
  · exact storeAct OkNode.leaf fun _ _ h => h
  split
  · exact buildFromLastBranch hb
  · exact storeAct (OkNode.branch.2 hb) fun _ _ h => h

theorem deleteAux (f : Nat) {ref : Bytes} {path : NibblePath} (hr : OkRef E log ref) :
    Keeps E log (MPT.deleteAux E f ref path) (fun log' a => OkAct E log' a) := by
  induction f generalizing ref path log with
  | zero => exact raise _
  | succ f ih =>
    unfold MPT.deleteAux
    refine (getNodeM hr).bind (fun node => ?_) fun log1 node hl1 hn => ?_
    · cases node with
      | leaf npath _ =>
        refine (Writes.lift _).bind fun same => ?_
        split
        · exact .pure _
        · exact .raise _
      | ext npath nextRef =>
        refine (Writes.lift _).bind fun pre => ?_
        split
        · exact .raise _
        · refine (Writes.lift _).bind fun m => (Writes.deleteAux _ _ _).bind fun act => ?_
          cases act with
          | deleted => exact .pure _
          | updated _ => exact (Writes.storeNode _).bind fun _ => .pure _
          | useless _ _ =>
            refine (Writes.getNodeM _).bind fun n => ?_
            cases n <;> exact (Writes.lift _).bind fun _ => (Writes.storeNode _).bind fun _ => .pure _
      | branch branches data =>
        refine (Writes.lift _).bind fun n => ?_
        split
        · exact .raise _
        · split
          · exact .raise _
          · split
            · exact .afterDeleted _ _
            · refine (Writes.lift _).bind fun i => (Writes.lift _).bind fun c => ?_
              split
              · exact .raise _
              · refine (Writes.deleteAux _ _ _).bind fun act => ?_
                cases act with
                | deleted => exact (Writes.lift _).bind fun _ => .afterDeleted _ _
                | updated _ => exact (Writes.lift _).bind fun _ => (Writes.storeNode _).bind fun _ => .pure _
                | useless _ _ => exact (Writes.lift _).bind fun _ => (Writes.storeNode _).bind fun _ => .pure _
    · cases node with
      | leaf npath _ =>
        refine lift_bind fun same _ => ?_
        split
        · exact pure fun _ _ => trivial
        · exact raise _
      | ext npath nextRef =>
        refine lift_bind fun pre _ => ?_
        split
        · exact raise _
        · refine lift_bind fun m _ => ?_
          refine (ih hn.next).bind (fun act => ?_) fun log2 act hl2 ha => ?_
          · cases act with
            | deleted => exact .pure _
            | updated _ => exact (Writes.storeNode _).bind fun _ => .pure _
            | useless _ _ =>
              refine (Writes.getNodeM _).bind fun n => ?_
              cases n <;> exact (Writes.lift _).bind fun _ => (Writes.storeNode _).bind fun _ => .pure _
          · cases act with
            | deleted => exact pure fun _ _ => trivial
            | updated r => exact storeAct (OkNode.ext ha) fun _ _ h => h
            | useless p r =>
              have ha : OkRef E log2 r := ha
              refine (getNodeM ha).bind (fun n => ?_) fun log3 n hl3 hn3 => ?_
              · cases n <;> exact (Writes.lift _).bind fun _ => (Writes.storeNode _).bind fun _ => .pure _
              · cases n with
                | leaf p d => exact lift_bind fun _ _ => storeAct OkNode.leaf fun _ _ h => h
                | ext p r => exact lift_bind fun _ _ => storeAct (OkNode.ext hn3.next) fun _ _ h => h
                | branch _ _ => exact lift_bind fun _ _ => storeAct (OkNode.ext (ha.mono hl3)) fun _ _ h => h
      | branch branches data =>
        have hb := OkNode.branch.1 hn
        refine lift_bind fun n _ => ?_
        split
        · exact raise _
        split
        · exact raise _
        split
        · exact afterDeleted hb
        · refine lift_bind fun i _ => lift_bind fun c hc => ?_
          split
          · exact raise _
          · refine (ih (pyIndex_ok hc hb.2)).bind (fun act => ?_) fun log2 act hl2 ha => ?_
            · cases act with
              | deleted => exact (Writes.lift _).bind fun _ => .afterDeleted _ _
              | updated _ => exact (Writes.lift _).bind fun _ => (Writes.storeNode _).bind fun _ => .pure _
              | useless _ _ => exact (Writes.lift _).bind fun _ => (Writes.storeNode _).bind fun _ => .pure _
            · cases act with
              | deleted =>
                exact lift_bind fun bs hbs => afterDeleted (pySet_ok hbs (hb.mono hl2) (OkRef.nil E _))
              | updated r =>
                exact lift_bind fun bs hbs =>
                  storeAct (OkNode.branch.2 (pySet_ok hbs (hb.mono hl2) ha)) fun _ _ h => h
              | useless p r =>
                exact lift_bind fun bs hbs =>
                  storeAct (OkNode.branch.2 (pySet_ok hbs (hb.mono hl2) ha)) fun _ _ h => h

end Keeps

/-- The storage and the root are in order. -/
structure Sound (E : Env) (t : MPT) : Prop where
  good : Good E t.store
  chain : Chain E t.store.written
  root : ∀ r, t.root = some r → r = emptyHash E ∨ OkRef E t.store.written r

theorem Sound.new (E : Env) (secure : Bool) : Sound E (MPT.new E secure) where
  good := Good.empty E
  chain := Chain.nil E
  root := fun r h => .inl (by simpa [MPT.new, MPT.init] using h.symm)

theorem Sound.exec {E : Env} {t : MPT} (h : Sound E t) (op : Op)
    (hs : Sizes (MPT.exec E op t).2.store.written) : Sound E (MPT.exec E op t).2 := by
  have hroot : t.root.getD [] = emptyHash E ∨ OkRef E t.store.written (t.root.getD []) := by
    cases hr : t.root with
    | none => exact .inr (OkRef.nil E _)
    | some r => exact h.root r hr
  cases op with
  | update k v =>
    have hk := Keeps.updateAux (v := v) (path := ⟨t.keyOf E k, 0⟩) E.limit hroot t.store h.good h.chain
      (List.prefix_refl _)
    simp only [MPT.exec] at hs ⊢
    rw [T.update_eq] at hs ⊢
    revert hk hs
    cases MPT.updateAux E E.limit (t.root.getD []) ⟨t.keyOf E k, 0⟩ v t.store with
    | mk r st =>
      intro hs hk
      cases r with
      | error e =>
        obtain ⟨k1, k2, k3, _⟩ := hk hs
        exact ⟨k1, k2, fun r hr => (h.root r hr).imp id (OkRef.mono · k3)⟩
      | ok r =>
        obtain ⟨k1, k2, k3, k4⟩ := hk hs
        refine ⟨k1, k2, fun r' hr => ?_⟩
        simp only [Option.some.injEq] at hr
        subst hr
        exact .inr (k4 r rfl)
  | delete k =>
    simp only [MPT.exec] at hs ⊢
    rw [T.delete_eq] at hs ⊢
    split
    · exact h
    · rename_i hno
      rw [if_neg hno] at hs
      have hroot : OkRef E t.store.written (t.root.getD []) := by
        rcases hroot with h0 | h0
        · simp only [MPT.noRoot, Bool.or_eq_true, beq_iff_eq, not_or] at hno
          cases hr : t.root with
          | none => exact absurd hr hno.1
          | some r => rw [hr] at h0 hno; simp only [Option.getD_some] at h0; exact absurd (by rw [h0]) hno.2
        · exact h0
      have hk := Keeps.deleteAux (path := ⟨t.keyOf E k, 0⟩) E.limit hroot t.store h.good h.chain
        (List.prefix_refl _)
      revert hk hs
      cases MPT.deleteAux E E.limit (t.root.getD []) ⟨t.keyOf E k, 0⟩ t.store with
      | mk r st =>
        intro hs hk
        cases r with
        | error e =>
          obtain ⟨k1, k2, k3, _⟩ := hk hs
          exact ⟨k1, k2, fun r hr => (h.root r hr).imp id (OkRef.mono · k3)⟩
        | ok a =>
          obtain ⟨k1, k2, k3, k4⟩ := hk hs
          refine ⟨k1, k2, fun r' hr => ?_⟩
          have := k4 a rfl
          cases a with
          | deleted => simp [T.actRoot] at hr
          | updated r =>
            simp only [T.actRoot, Option.some.injEq] at hr
            subst hr; exact .inr this
          | useless _ r =>
            simp only [T.actRoot, Option.some.injEq] at hr
            subst hr; exact .inr this

theorem Sound.run {E : Env} {t : MPT} (h : Sound E t) (ops : List Op)
    (hs : Sizes (MPT.run E ops t).store.written) : Sound E (MPT.run E ops t) := by
  induction ops generalizing t with
  | nil => exact h
  | cons op ops ih =>
    refine ih (h.exec op fun w hw => hs w ?_) hs
    obtain ⟨ws, he⟩ := run_writes E ops (MPT.exec E op t).2
    show w ∈ (MPT.run E ops (MPT.exec E op t).2).store.written
    rw [he, replay_written]
    exact List.mem_append_left _ hw

/-- The storage of a history is the replay of its log. -/
theorem after_replay (E : Env) (secure : Bool) (ops : List Op) :
    (MPT.after E secure ops).store = replay E (MPT.after E secure ops).store.written Store.empty := by
  obtain ⟨ws, he⟩ := run_writes E ops (MPT.new E secure)
  have hw : (MPT.after E secure ops).store.written = ws := by
    show (MPT.run E ops (MPT.new E secure)).store.written = ws
    rw [he, replay_written]; rfl
  rw [hw]
  exact he

/-- What was written stays present. -/
theorem replay_present {E : Env} {ws : List Bytes} {st : Store} {k : Bytes}
    (h : (∃ w ∈ ws, E.keccak w = k) ∨ ∃ v, dget st.kv k = some v) :
    ∃ v, dget (replay E ws st).kv k = some v := by
  induction ws generalizing st with
  | nil => simpa [replay] using h
  | cons w ws ih =>
    refine ih (st := st.set (E.keccak w) w) ?_
    by_cases e : E.keccak w = k
    · exact .inr ⟨w, by simp [Store.set, dget_dset, e]⟩
    · rcases h with ⟨w', hw', he⟩ | ⟨v, hv⟩
      · rcases List.mem_cons.1 hw' with rfl | hw'
        · exact absurd he e
        · exact .inl ⟨w', hw', he⟩
      · exact .inr ⟨v, by simp [Store.set, dget_dset, e, hv]⟩

end Pymt
