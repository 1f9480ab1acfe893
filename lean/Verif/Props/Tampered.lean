import Verif.Props.Partial
import Verif.Props.Proofs
import Verif.Spec.ToyEmpt
import Verif.Lemmas.Build

/-!
# Property C83: changed nodes
-/

namespace Pymt
namespace Props

/-- The claim: when entries of the node storage are changed in any way, `get` of a present key raises or returns the
value of the key. -/
def C83 : Prop := ∀ (E : Env) (secure : Bool) (ops : List Op) (k v w : Bytes) (t' : MPT),
  Valid E secure ops [k] → contents ops k = some v → t'.root = (MPT.after E secure ops).root →
  t'.secure = secure → t'.get E k = .ok w → w = v

/-- The node a trie object starts from: the root itself, or the entry it names
(`/repo/src/pymt/mpt.py:533-562`). -/
def rootNode (t : MPT) : Option Bytes :=
  match t.root with
  | none => none
  | some r => if r.length = 32 then dget t.store.kv r else some r

theorem getNode_forged {kv : Dict Bytes} {r r' n : Bytes} (h : r.length = 32) (hn : dget kv r = some n)
    (hn' : (if r'.length = 32 then dget kv r' else some r') = some n) :
    MPT.getNode kv r = MPT.getNode kv r' := by
  unfold MPT.getNode dgetItem
  rw [if_pos h, hn]
  split at hn'
  · rename_i h'; rw [if_pos h', hn']
  · rename_i h'
    rw [if_neg h']
    simp only [Option.some.injEq] at hn'
    rw [hn']

theorem getAux_forged {kv : Dict Bytes} {r r' : Bytes} (h : MPT.getNode kv r = MPT.getNode kv r') (f : Nat)
    (p : NibblePath) : MPT.getAux kv f r p = MPT.getAux kv f r' p := by
  cases f with
  | zero => rfl
  | succ f => unfold MPT.getAux; rw [h]

theorem containsAux_forged {kv : Dict Bytes} {r r' : Bytes} (h : MPT.getNode kv r = MPT.getNode kv r') (b : Bool)
    (f : Nat) (p : NibblePath) : MPT.containsAux b kv f r p = MPT.containsAux b kv f r' p := by
  cases f with
  | zero => rfl
  | succ f => unfold MPT.containsAux; rw [h]

/-- A storage with more nodes gives the same answers. -/
theorem more_nodes {E : Env} {secure : Bool} {ops : List Op} {k : Bytes} (h : Valid E secure ops [k])
    (hne : ∃ k', contents ops k' ≠ none) {t' : MPT} (hroot : t'.root = (MPT.after E secure ops).root)
    (hsec : t'.secure = secure)
    (hkeep : ∀ k v, dget (MPT.after E secure ops).store.kv k = some v → dget t'.store.kv k = some v) :
    t'.get E k = (MPT.after E secure ops).get E k ∧ t'.contains E k = (MPT.after E secure ops).contains E k := by
  obtain ⟨a, h1, h2, h3, h4⟩ := h.inv
  have hn : a ≠ .empty := (nonempty_iff h h2 h3 h4).1 hne
  have hk := fits_nibs (E := E) (t := MPT.after E secure ops) (h.fit (k := k) (by simp))
  have hal : Alike t' (MPT.after E secure ops) := by
    refine ⟨hroot, by rw [hsec, after_secure], fun k v w hv hw => ?_⟩
    have := hkeep k w hw
    rw [hv] at this
    exact Option.some.inj this
  have hb : ¬ T.Blocked E t'.store.kv a (toNibs ((MPT.after E secure ops).keyOf E k)) := by
    rintro ⟨x, hx, hx'⟩
    apply hx'
    have hs : T.Stored E (MPT.after E secure ops).store.kv x := by
      rw [T.trail, List.mem_append] at hx
      rcases hx with hx | hx
      · exact h1.stored.passed _ x hx
      · rw [List.mem_singleton] at hx
        rw [hx]; exact h1.stored.seek _
    have hxe : x ≠ .empty := T.trail_ne_empty h1.shape hn _ x hx
    rcases hs.here hxe with g | ⟨g1, g2⟩
    · exact .inl g
    · exact .inr (by rw [hkeep _ _ g1]; simp)
  obtain ⟨q1, q2, -⟩ := honest_query h
  refine ⟨?_, ?_⟩
  · rcases hal.get k (E := E) with g | g | g
    · exact absurd ((h1.get_light hn hal hk).1 g) hb
    · exact absurd g (q1 hne)
    · exact g
  · rcases hal.contains k (E := E) with g | g | g
    · exact absurd ((h1.contains_light h.log hn hal hk).1 g) hb
    · exact absurd g q2
    · exact g

/-- C83 fails as badly as possible: replace the entry named by the root of one trie with the root node of another.
The object then has the root of the first trie and, for every key, the answers of the second. -/
theorem C83_forged {E : Env} {secure : Bool} {ops ops' : List Op} {k r n : Bytes} {t' : MPT}
    (h : Valid E secure ops []) (h' : Valid E secure ops' [k])
    (hne : ∃ k', contents ops k' ≠ none) (hne' : ∃ k', contents ops' k' ≠ none)
    (hr : (MPT.after E secure ops).root = some r) (h32 : r.length = 32)
    (hn : rootNode (MPT.after E secure ops') = some n)
    (hroot : t'.root = (MPT.after E secure ops).root) (hsec : t'.secure = secure)
    (hkeep : ∀ k v, dget (MPT.after E secure ops').store.kv k = some v → dget t'.store.kv k = some v)
    (hput : dget t'.store.kv r = some n) :
    t'.get E k = (MPT.after E secure ops').get E k ∧ t'.contains E k = (MPT.after E secure ops').contains E k := by
  obtain ⟨a, h1, h2, h3, h4⟩ := h.inv
  obtain ⟨b, g1, g2, g3, g4⟩ := h'.inv
  have ha : a ≠ .empty := (nonempty_iff h h2 h3 h4).1 hne
  have hb : b ≠ .empty := (nonempty_iff h' g2 g3 g4).1 hne'
  have hno : t'.noRoot E = false := by
    have := h1.noRoot h.log
    rw [T.Holds.isEmpty_false ha] at this
    rw [← this]
    unfold MPT.noRoot
    rw [hroot]
  have hno' : (MPT.after E secure ops').noRoot E = false := by
    rw [g1.noRoot h'.log, T.Holds.isEmpty_false hb]
  have hfal : t'.rootFalsy = false := by
    rw [← h1.rootFalsy ha]; unfold MPT.rootFalsy; rw [hroot]
  have hroot2 : (MPT.after E secure ops').root = some (T.ref E b) := by
    rcases g1.root with ⟨g0, _⟩ | ⟨_, g0⟩
    · exact absurd g0 hb
    · exact g0
  have hnode : MPT.getNode t'.store.kv r = MPT.getNode t'.store.kv (T.ref E b) := by
    refine getNode_forged h32 hput ?_
    unfold rootNode at hn
    rw [hroot2] at hn
    simp only at hn
    split at hn
    · rename_i hl
      rw [if_pos hl, hkeep _ _ hn]
    · rename_i hl
      rw [if_neg hl, hn]
  have hm := more_nodes h' hne' (t' := { t' with root := (MPT.after E secure ops').root }) rfl hsec hkeep
  rw [← hm.1, ← hm.2]
  constructor
  · unfold MPT.get
    rw [hfal, hroot, hr]
    have hfal' : ({ t' with root := (MPT.after E secure ops').root } : MPT).rootFalsy = false := by
      rw [← g1.rootFalsy hb]; rfl
    rw [hfal', hroot2]
    simp only [Option.getD_some, getAux_forged hnode]
    rfl
  · unfold MPT.contains
    rw [hfal, hno, hroot, hr]
    have hfal' : ({ t' with root := (MPT.after E secure ops').root } : MPT).rootFalsy = false := by
      rw [← g1.rootFalsy hb]; rfl
    have hno'' : ({ t' with root := (MPT.after E secure ops').root } : MPT).noRoot E = false := by
      rw [← hno']; rfl
    rw [hfal', hno'', hroot2]
    simp only [Option.getD_some, containsAux_forged hnode]
    rfl

/-- `12 ↦ bigValue 1`, whose only node has been replaced with that of `12 ↦ bigValue 2`. -/
def swapped : MPT :=
  { MPT.after toyEnv false [.update [0x12] (bigValue 1)] with
    store := { kv := [((MPT.after toyEnv false [.update [0x12] (bigValue 1)]).root.getD [],
        (rootNode (MPT.after toyEnv false [.update [0x12] (bigValue 2)])).getD [])]
               written := [] } }

/-- C83 is false: nodes are not checked against the hash by which they are found. -/
theorem C83_false : ¬ C83 := by
  intro h
  have := h toyEnv false [.update [0x12] (bigValue 1)] [0x12] (bigValue 1) (bigValue 2) swapped
    (valid_of (by decide +kernel)) (by decide +kernel) rfl rfl (by decide +kernel)
  revert this
  decide

/-- The storage of the trie of `sampleOps` and of that of `partialOps`, in which the root node of the former has been
replaced with that of the latter. -/
def grafted : MPT :=
  { MPT.after toyEnv false sampleOps with
    store := ((MPT.after toyEnv false (partialOps)).store).set
      ((MPT.after toyEnv false sampleOps).root.getD []) ((rootNode (MPT.after toyEnv false partialOps)).getD []) }

theorem keep_of {kv kv' : Dict Bytes} (h : kv.all (fun e => dget kv e.1 != some e.2 || dget kv' e.1 == some e.2) = true) :
    ∀ k v, dget kv k = some v → dget kv' k = some v := by
  intro k v hk
  have := List.all_eq_true.1 h _ (mem_of_dget hk)
  simpa [hk] using this

example : ∃ r n, Valid toyEnv false sampleOps [] ∧ Valid toyEnv false partialOps [[0x99]] ∧
    (∃ k', contents sampleOps k' ≠ none) ∧ (∃ k', contents partialOps k' ≠ none) ∧
    (MPT.after toyEnv false sampleOps).root = some r ∧ r.length = 32 ∧
    rootNode (MPT.after toyEnv false partialOps) = some n ∧
    grafted.root = (MPT.after toyEnv false sampleOps).root ∧ grafted.secure = false ∧
    (∀ k v, dget (MPT.after toyEnv false partialOps).store.kv k = some v → dget grafted.store.kv k = some v) ∧
    dget grafted.store.kv r = some n ∧
    grafted.get toyEnv [0x99] = .ok (bigValue 3) ∧ contents sampleOps [0x99] ≠ some (bigValue 3) := by
  refine ⟨(MPT.after toyEnv false sampleOps).root.getD [], (rootNode (MPT.after toyEnv false partialOps)).getD [],
    valid_of (by decide +kernel), valid_of (by decide +kernel), ⟨[0x12], by decide +kernel⟩,
    ⟨[0x99], by decide +kernel⟩, by decide +kernel, by decide +kernel, by decide +kernel, by decide +kernel,
    by decide +kernel, keep_of (by decide +kernel), by decide +kernel, by decide +kernel, by decide +kernel⟩

/-! ### What is left -/

/-- An entry of a list of nodes under their hashes. -/
theorem dget_hashed {E : Env} {l : List Bytes} {k v : Bytes}
    (h : dget (l.map fun e => (E.keccak e, e)) k = some v) : v ∈ l ∧ k = E.keccak v := by
  have := mem_of_dget h
  simp only [List.mem_map, Prod.mk.injEq] at this
  obtain ⟨e, he, rfl, rfl⟩ := this
  exact ⟨he, rfl⟩

theorem hashed_dget {E : Env} {l : List Bytes} {e : Bytes} (h : e ∈ l) :
    dget (l.map fun e => (E.keccak e, e)) (E.keccak e) ≠ none := by
  induction l with
  | nil => simp at h
  | cons x l ih =>
    simp only [List.map_cons, dget]
    split
    · simp
    · rename_i hne
      rcases List.mem_cons.1 h with rfl | h
      · exact absurd rfl hne
      · exact ih h

/-- C83 in part: what matters is only the nodes on the way to the key, those listed in its inclusion proof.  If none
of them has been replaced (they may be missing), `get` returns the value or raises KeyError, and `contains` is True
or raises KeyError, whatever became of all other entries.
Missing: replaced nodes on the way (false, `C83_forged`). -/
theorem C83_path_partial {E : Env} {secure : Bool} {ops : List Op} {k v now : Bytes} {p : Proof Bytes} {t' : MPT}
    (h : Valid E secure ops [k]) (hk : contents ops k = some v)
    (hp : (MPT.after E secure ops).getPoi E now k = .ok p)
    (hroot : t'.root = (MPT.after E secure ops).root) (hsec : t'.secure = secure)
    (hpath : ∀ e ∈ p.proof, ∀ w, dget t'.store.kv (E.keccak e) = some w → w = e) :
    (t'.get E k = .error .keyError ∨ t'.get E k = .ok v) ∧
    (t'.contains E k = .error .keyError ∨ t'.contains E k = .ok true) := by
  obtain ⟨a, h1, h2, h3, h4⟩ := h.inv
  have hne : ∃ k', contents ops k' ≠ none := ⟨k, by rw [hk]; simp⟩
  have hn : a ≠ .empty := (nonempty_iff h h2 h3 h4).1 hne
  have hfit := fits_nibs (E := E) (t := MPT.after E secure ops) (h.fit (k := k) (by simp))
  have hpp : p.proof = (T.trail a (toNibs ((MPT.after E secure ops).keyOf E k))).map (T.enc E) := by
    rw [h1.getPoi h.log hn hfit] at hp
    split at hp
    · simp at hp
    · simp only [Except.ok.injEq] at hp
      subst hp; rfl
  have hstored : ∀ e ∈ p.proof, e.length < 32 ∨ dget (MPT.after E secure ops).store.kv (E.keccak e) = some e := by
    intro e he
    rw [hpp, List.mem_map] at he
    obtain ⟨x, hx, rfl⟩ := he
    rcases (T.trail_stored h1.stored _ x hx).here (T.trail_ne_empty h1.shape hn _ x hx) with g | ⟨g, -⟩
    · exact .inl g
    · exact .inr g
  -- the honest trie with the nodes of the proof only
  let l := p.proof.filter fun e => dget (MPT.after E secure ops).store.kv (E.keccak e) == some e
  have hl : ∀ e, e ∈ l ↔ e ∈ p.proof ∧ dget (MPT.after E secure ops).store.kv (E.keccak e) = some e := by
    intro e; simp [l]
  let t₀ : MPT := ⟨⟨l.map fun e => (E.keccak e, e), []⟩, (MPT.after E secure ops).root,
    (MPT.after E secure ops).secure⟩
  have hc : Claims E t₀ (MPT.after E secure ops) := by
    refine ⟨rfl, rfl, fun k v hv => (dget_hashed hv).2, h.log.coll.mono fun x hx => ?_⟩
    rcases List.mem_append.1 hx with hx | hx
    · exact List.mem_cons_of_mem _ hx
    · simp only [t₀, List.map_map, List.mem_map, Function.comp_apply] at hx
      obtain ⟨e, he, rfl⟩ := hx
      exact List.mem_cons_of_mem _ (h1.good _ _ ((hl e).1 he).2).2
  have hal : Alike t' t₀ := by
    refine ⟨hroot, by rw [hsec]; exact (after_secure ..).symm, fun key v w hv hw => ?_⟩
    obtain ⟨g1, rfl⟩ := dget_hashed hw
    exact hpath w ((hl w).1 g1).1 v hv
  obtain ⟨-, q⟩ := C69_poi_partial h hc hp
  obtain ⟨q1, q2, -⟩ := q fun e he => by
    rcases hstored e he with g | g
    · exact .inl g
    · exact .inr (hashed_dget ((hl e).2 ⟨he, g⟩))
  have m1 := C01_contains_partial h (.inr (.inl (by rw [hk]; rfl)))
  have m2 := C02_get h hk
  rw [hk] at m1
  rw [m2] at q2
  rw [m1] at q1
  constructor
  · rcases hal.get k (E := E) with g | g | g
    · exact .inl g
    · rw [q2] at g; simp at g
    · rw [q2] at g; exact .inr g
  · rcases hal.contains k (E := E) with g | g | g
    · exact .inl g
    · rw [q1] at g; simp at g
    · rw [q1] at g; exact .inr g

/-- The trie of `sampleOps` in which the nodes off the way to `12 34` have been replaced with other bytes. -/
def defaced : MPT :=
  { MPT.after toyEnv false sampleOps with
    store := { kv := (MPT.after toyEnv false sampleOps).store.kv.map fun e =>
                 if (((MPT.after toyEnv false sampleOps).getPoi toyEnv [] [0x12, 0x34]).toOption.map
                   (·.proof)).getD [] |>.contains e.2 then e else (e.1, [0xc0])
               written := [] } }

example : ∃ p, Valid toyEnv false sampleOps [[0x12, 0x34]] ∧
    (∃ v, contents sampleOps [0x12, 0x34] = some v) ∧
    (MPT.after toyEnv false sampleOps).getPoi toyEnv [] [0x12, 0x34] = .ok p ∧
    defaced.root = (MPT.after toyEnv false sampleOps).root ∧ defaced.secure = false ∧
    (∀ e ∈ p.proof, dget defaced.store.kv (toyEnv.keccak e) = some e ∨ e.length < 32) ∧
    defaced.store.kv ≠ (MPT.after toyEnv false sampleOps).store.kv := by
  obtain ⟨p, hp, hp'⟩ := ok_of (m := (MPT.after toyEnv false sampleOps).getPoi toyEnv [] [0x12, 0x34])
    (f := fun p => p.proof.all fun e => decide (dget defaced.store.kv (toyEnv.keccak e) = some e ∨ e.length < 32))
    (by decide +kernel)
  exact ⟨p, valid_of (by decide +kernel), ⟨_, rfl⟩, hp, by decide +kernel, by decide +kernel,
    fun e he => of_decide_eq_true (List.all_eq_true.1 hp' e he), by decide +kernel⟩

/-- Checking proofs is not touched by changed nodes: it uses the root alone. -/
theorem C83_verify (E : Env) {t t' : MPT} (p : Proof Bytes) (h : t'.root = t.root) :
    t'.verifyPoi E p = t.verifyPoi E p ∧ t'.verifyPoe E p = t.verifyPoe E p := C24_root_only E t' t p h

example : defaced.root = (MPT.after toyEnv false sampleOps).root ∧ defaced ≠ MPT.after toyEnv false sampleOps :=
  ⟨by decide +kernel, fun h => absurd (congrArg (fun t => t.store.kv) h) (by decide +kernel)⟩

theorem ref_nonempty {E : Env} {ops : List EOp} (h : ∃ k, econtents ops k ≠ none) :
    ∃ k, contents (refOps E ops) k ≠ none := by
  obtain ⟨k, hk⟩ := h
  refine ⟨k, ?_⟩
  rw [contents_refOps]
  cases e : econtents ops k with
  | none => exact absurd e hk
  | some v => simp

/-- In an EMPT whose data storage is intact, changed nodes cannot make `get` return a wrong value, whatever the trie:
`get` returns the entry of the data storage or raises. -/
theorem C83_empt {E : Env} {secure : Bool} {ops : List EOp} {k : Bytes} {v : Value} {s : EMPT}
    (h : EValid E secure ops [k]) (hd : ∀ k, dget s.data k = dget (EMPT.after E secure ops).data k)
    (hg : s.get E k = .ok v) : econtents ops k = some v := by
  unfold EMPT.get at hg
  rw [dgetItem, hd, h.mirror.data k] at hg
  cases hc : econtents ops k with
  | none => rw [hc] at hg; simp at hg
  | some x =>
    rw [hc] at hg
    simp only [Except.bind_ok'] at hg
    cases h1 : s.trie.get E k with
    | error e => rw [h1] at hg; simp at hg
    | ok enc =>
      rw [h1] at hg
      simp only [Except.bind_ok'] at hg
      cases h2 : DataRef.decode E enc with
      | error e => rw [h2] at hg; simp at hg
      | ok ref =>
        rw [h2] at hg
        simp only [Except.bind_ok'] at hg
        cases h3 : DataRef.ofValue k x with
        | error e => rw [h3] at hg; simp at hg
        | ok y =>
          rw [h3] at hg
          simp only [Except.bind_ok'] at hg
          split at hg
          · simp at hg
          · rw [Except.pure_ok'] at hg
            exact congrArg some (Except.ok.inj hg)

/-- But with both storages changed it can: the data storage of another EMPT and nodes that lead from the old root to
its references give its answers. -/
theorem C83_empt_forged {E : Env} {secure : Bool} {ops ops' : List EOp} {k r n : Bytes} {s : EMPT}
    (h : EValid E secure ops []) (h' : EValid E secure ops' [k])
    (hne : ∃ k', econtents ops k' ≠ none) (hne' : ∃ k', econtents ops' k' ≠ none)
    (hr : (EMPT.after E secure ops).trie.root = some r) (h32 : r.length = 32)
    (hn : rootNode (EMPT.after E secure ops').trie = some n)
    (hroot : s.trie.root = (EMPT.after E secure ops).trie.root) (hsec : s.trie.secure = secure)
    (hkeep : ∀ k v, dget (EMPT.after E secure ops').trie.store.kv k = some v → dget s.trie.store.kv k = some v)
    (hput : dget s.trie.store.kv r = some n)
    (hd : ∀ k, dget s.data k = dget (EMPT.after E secure ops').data k) :
    s.get E k = (EMPT.after E secure ops').get E k := by
  have hm := h.mirror
  have hm' := h'.mirror
  rw [hm.trie] at hr hroot
  rw [hm'.trie] at hn hkeep
  have := (C83_forged (h.valid hm) (h'.valid hm') (ref_nonempty hne) (ref_nonempty hne') hr h32 hn hroot hsec hkeep
    hput).1
  unfold EMPT.get
  rw [this, hm'.trie, dgetItem, dgetItem, hd]

/-- Another EMPT. -/
def otherEOps : List EOp := [.update [0x99] (.bytes [5]), .update [0x13] (.bytes [6])]

/-- The nodes of `otherEOps`, of which the first has been put in the place of the root node of `sampleEOps`. -/
def graftedTrie : MPT :=
  { (EMPT.after toyEnv false sampleEOps).trie with
    store := ((EMPT.after toyEnv false otherEOps).trie.store).set
      ((EMPT.after toyEnv false sampleEOps).trie.root.getD [])
      ((rootNode (EMPT.after toyEnv false otherEOps).trie).getD []) }

-- with the old data, `get` raises for a key with another value there
example : EValid toyEnv false sampleEOps [[0x99]] ∧
    (⟨graftedTrie, (EMPT.after toyEnv false sampleEOps).data⟩ : EMPT).get toyEnv [0x99] = .error .invalidReference :=
  ⟨evalid_of (by decide +kernel), by decide +kernel⟩

-- and a case in which `get` succeeds on an object with changed nodes
example : EValid toyEnv false sampleEOps [[0x99]] ∧
    (⟨{ (EMPT.after toyEnv false sampleEOps).trie with
        store := ((EMPT.after toyEnv false sampleEOps).trie.store).set [1] [2] },
      (EMPT.after toyEnv false sampleEOps).data⟩ : EMPT).get toyEnv [0x99] = .ok sampleObj :=
  ⟨evalid_of (by decide +kernel), by decide +kernel⟩

-- with both storages changed, the other value is returned
example : ∃ r n, EValid toyEnv false sampleEOps [] ∧ EValid toyEnv false otherEOps [[0x99]] ∧
    (∃ k', econtents sampleEOps k' ≠ none) ∧ (∃ k', econtents otherEOps k' ≠ none) ∧
    (EMPT.after toyEnv false sampleEOps).trie.root = some r ∧ r.length = 32 ∧
    rootNode (EMPT.after toyEnv false otherEOps).trie = some n ∧
    graftedTrie.root = (EMPT.after toyEnv false sampleEOps).trie.root ∧ graftedTrie.secure = false ∧
    (∀ k v, dget (EMPT.after toyEnv false otherEOps).trie.store.kv k = some v → dget graftedTrie.store.kv k = some v) ∧
    dget graftedTrie.store.kv r = some n ∧
    (⟨graftedTrie, (EMPT.after toyEnv false otherEOps).data⟩ : EMPT).get toyEnv [0x99] = .ok (.bytes [5]) ∧
    econtents sampleEOps [0x99] = some sampleObj := by
  refine ⟨(EMPT.after toyEnv false sampleEOps).trie.root.getD [],
    (rootNode (EMPT.after toyEnv false otherEOps).trie).getD [],
    evalid_of (by decide +kernel), evalid_of (by decide +kernel), ⟨[0x99], by decide +kernel⟩,
    ⟨[0x99], by decide +kernel⟩, by decide +kernel, by decide +kernel, by decide +kernel, by decide +kernel,
    by decide +kernel, keep_of (by decide +kernel), by decide +kernel, by decide +kernel, by decide +kernel⟩

end Props
end Pymt
