import Verif.Lemmas.Blind
import Verif.Lemmas.Closed
import Verif.Lemmas.Dict
import Verif.Spec.Toy

/-!
# Property C15: encode and decode a whole trie
-/

namespace Pymt
namespace Props

/-- The full statement of C15. -/
def C15 : Prop := ∀ (E : Env) (secure : Bool) (ops : List Op), Valid E secure ops [] →
  ∃ b t, (MPT.after E secure ops).encode = .ok b ∧ MPT.decode E b = .ok t ∧
    t.root = (MPT.after E secure ops).root ∧ t.secure = secure ∧
    (∀ k, t.contains E k = (MPT.after E secure ops).contains E k) ∧
    (∀ k, t.get E k = (MPT.after E secure ops).get E k)

/-- C15 is false: a trie whose last key was deleted has `None` as root, which `rlp.encode` rejects. -/
theorem C15_false : ¬ C15 := by
  intro h
  obtain ⟨b, t, hb, _⟩ := h toyEnv false [.update [0x12] [1], .delete [0x12]] (valid_of (by decide +kernel))
  have : (MPT.after toyEnv false [.update [0x12] [1], .delete [0x12]]).encode = .error .typeError := by
    decide +kernel
  rw [this] at hb
  simp at hb

theorem replay_nodup (E : Env) (ws : List Bytes) {st : Store} (h : (st.kv.map (·.1)).Nodup) :
    ((replay E ws st).kv.map (·.1)).Nodup := by
  induction ws generalizing st with
  | nil => exact h
  | cons w ws ih => exact ih (st := st.set (E.keccak w) w) (dset_nodup h)

/-- Rebuilding from the values gives the same entries in the same order. -/
theorem rebuild_kv {E : Env} (l : Dict Bytes) : ∀ (st : Store), ((st.kv ++ l).map (·.1)).Nodup →
    (∀ e ∈ l, e.1 = E.keccak e.2) →
    ((l.map (·.2)).foldl (fun s n => s.set (E.keccak n) n) st).kv = st.kv ++ l := by
  induction l with
  | nil => intro st _ _; simp
  | cons e l ih =>
    intro st hn hk
    obtain ⟨k, v⟩ := e
    have he : k = E.keccak v := hk _ List.mem_cons_self
    have hnew : E.keccak v ∉ st.kv.map (·.1) := by
      rw [List.map_append, List.map_cons, List.nodup_append] at hn
      intro hm
      exact hn.2.2 _ hm _ List.mem_cons_self he.symm
    have hkv : (st.set (E.keccak v) v).kv = st.kv ++ [(k, v)] := by
      simp only [Store.set]; rw [dset_new hnew, he]
    simp only [List.map_cons, List.foldl_cons]
    rw [ih (st.set (E.keccak v) v) (by rw [hkv]; simpa using hn)
      (fun e h => hk e (List.mem_cons_of_mem _ h)), hkv]
    simp

theorem prepareAll_long {l : List Bytes} (h : ∀ w ∈ l, 32 ≤ w.length) :
    prepareAll l = .ok (l.map .str) := by
  induction l with
  | nil => rfl
  | cons w l ih =>
    have hw := h w List.mem_cons_self
    have : ¬ w.length < 32 := by omega
    simp [prepareAll, prepareForEncoding, this, ih fun w hw => h w (List.mem_cons_of_mem _ hw)]

theorem binaries_str (l : List Bytes) : MPT.binaries (l.map .str) = .ok l := by
  induction l with
  | nil => rfl
  | cons w l ih => simp [MPT.binaries, MPT.binary, ih]

/-- C15 in part: for every history (empty values and failing calls included, no assumption on the hash)
that does not end with a deletion of the last key, `encode` succeeds, and if the encoding is shorter
than 2^64 bytes, `decode` gives an object with the same root, secure flag and storage; it gives the same
answers, and every continuation gives the same results, roots and storage entries.
Missing: a trie whose last key was deleted (`C15_false`). -/
theorem C15_codec_partial {E : Env} {secure : Bool} {ops : List Op}
    (hs : ∀ w ∈ (MPT.after E secure ops).store.written, w.length < 2 ^ 64)
    (hr : (MPT.after E secure ops).root ≠ none) :
    ∃ b, (MPT.after E secure ops).encode = .ok b ∧ (b.length < 2 ^ 64 →
      ∃ t, MPT.decode E b = .ok t ∧ t.root = (MPT.after E secure ops).root ∧ t.secure = secure ∧
        t.store.kv = (MPT.after E secure ops).store.kv ∧
        (∀ k, t.contains E k = (MPT.after E secure ops).contains E k ∧
          t.get E k = (MPT.after E secure ops).get E k) ∧
        (∀ now k, t.getPoi E now k = (MPT.after E secure ops).getPoi E now k ∧
          t.getPoe E now k = (MPT.after E secure ops).getPoe E now k) ∧
        ∀ more op, (MPT.exec E op (MPT.run E more t)).1 =
            (MPT.exec E op (MPT.after E secure (ops ++ more))).1 ∧
          (MPT.run E more t).root = (MPT.after E secure (ops ++ more)).root ∧
          (MPT.run E more t).store.kv = (MPT.after E secure (ops ++ more)).store.kv) := by
  have hsound : Sound E (MPT.after E secure ops) := (Sound.new E secure).run ops hs
  have hsec := after_secure E secure ops
  have hnd : ((MPT.after E secure ops).store.kv.map (·.1)).Nodup := by
    rw [after_replay]; exact replay_nodup E _ (by simp [Store.empty])
  simp only [after_append]
  generalize MPT.after E secure ops = t at *
  obtain ⟨st, root, sec⟩ := t
  simp only at hsec hnd hr ⊢
  subst hsec
  cases root with
  | none => exact absurd rfl hr
  | some r =>
    have hlong : ∀ w ∈ st.kv.map (·.2), 32 ≤ w.length := by
      intro w hw
      obtain ⟨⟨k, w'⟩, hm, rfl⟩ := List.mem_map.1 hw
      exact (hsound.chain.mem (hsound.good k w' (dget_mem hnd hm)).2).1
    have henc := prepareAll_long hlong
    refine ⟨_, by simp only [MPT.encode, henc]; rfl, fun hb => ?_⟩
    have hkv : (MPT.rebuild E (st.kv.map (·.2))).kv = st.kv := by
      rw [MPT.rebuild, rebuild_kv _ _ (by simpa [Store.empty] using hnd)]
      · simp [Store.empty]
      · intro e he
        exact (hsound.good e.1 e.2 (dget_mem hnd he)).1
    have hdec : MPT.decode E (Item.encode (.list [.str r, .list ((st.kv.map (·.2)).map .str),
        MPT.boolItem sec])) = .ok (MPT.init E (MPT.rebuild E (st.kv.map (·.2))) (some r) sec) := by
      unfold MPT.decode
      rw [rlpDecode_encode _ hb]
      have := binaries_str (st.kv.map (·.2))
      cases sec <;> simp [MPT.binary, this, MPT.boolItem, MPT.boolean, -List.map_map]
    have hsame : SameButLog (MPT.init E (MPT.rebuild E (st.kv.map (·.2))) (some r) sec) ⟨st, some r, sec⟩ :=
      ⟨hkv, rfl, rfl⟩
    refine ⟨_, hdec, rfl, rfl, hkv, hsame.queries.1, hsame.queries.2.1, fun more op => ?_⟩
    · have h := hsame.run (E := E) more
      exact ⟨(h.exec op).1, h.2.1, h.1⟩

example : (∀ w ∈ (MPT.after toyEnv false sampleOps).store.written, w.length < 2 ^ 64) ∧
    (MPT.after toyEnv false sampleOps).root ≠ none ∧
    ((MPT.after toyEnv false sampleOps).encode.map List.length).toOption.isSome ∧
    (MPT.after toyEnv false sampleOps).store.kv.length > 3 := by decide +kernel

end Props
end Pymt
