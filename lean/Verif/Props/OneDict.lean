import Verif.Lemmas.OneDict
import Verif.Spec.ToyEmpt

/-!
# Property C146: an `EMPT` that is given one dict for both its storages
-/

namespace Pymt.Props

/-- **C146** An `EMPT` may be given the same dict as trie storage and as data storage: its calls have the outcomes they
have with two dicts. -/
def C146 : Prop :=
  ∀ (E : Env) (secure : Bool) (calls : List ECall), (∀ c ∈ calls, Fits E secure c.key) →
    LogOk E (ECall.seqAll E calls (EMPT.new E secure)).2.trie.store.written →
    ((OneEmpt.new E secure).calls E calls).1 = (ECall.seqAll E calls (EMPT.new E secure)).1

/-- Two keys. -/
def pairOfKeys : List ECall := [.update [0x12] (.bytes [1]), .update [0x34] (.bytes [2])]

/-- The hash of the node that has the reference for the key `0x12`. -/
def hashInUse : Bytes :=
  (((ECall.seqAll toyEnv pairOfKeys (EMPT.new toyEnv false)).2.trie.store.kv[2]?).map (·.1)).getD []

/-- Somebody uses that hash as a key, with the encoding of another leaf as value. -/
def intruder : List ECall :=
  pairOfKeys ++ [.contains [0x12], .update hashInUse (.bytes [0xc4, 0x35, 0x82, 0x61, 0x62]), .contains [0x12],
    .get [0x12]]

/-- What happens: the node is overwritten.  The key `0x12` seems to be absent; with two dicts it is present. -/
theorem C146_outcomes :
    ((OneEmpt.new toyEnv false).calls toyEnv intruder).1 =
      [.ok .none, .ok .none, .ok (.bool true), .ok .none, .ok (.bool false), .error .keyNotFound] ∧
    (ECall.seqAll toyEnv intruder (EMPT.new toyEnv false)).1 =
      [.ok .none, .ok .none, .ok (.bool true), .ok .none, .ok (.bool true), .ok (.value (.bytes [1]))] := by
  decide +kernel

/-- The property is false: a key may be the hash of a node. -/
theorem C146_false : ¬ C146 := by
  intro h
  have h1 := h toyEnv false intruder (by unfold Fits; decide +kernel) (logOk_of (by decide +kernel))
  rw [C146_outcomes.1, C146_outcomes.2] at h1
  exact absurd h1 (by decide)

/-- C146 for keys that do not have the length of a hash.  Nothing else is assumed.  The root is the same too, and
iteration yields the keys, but also the hashes of all nodes in the storage. -/
theorem C146_partial {E : Env} {secure : Bool} {calls : List ECall} (hk : ∀ c ∈ calls, c.key.length ≠ 32) :
    let one := (OneEmpt.new E secure).calls E calls
    let two := ECall.seqAll E calls (EMPT.new E secure)
    one.1 = two.1 ∧ one.2.root = two.2.trie.root ∧
      one.2.iter.Perm (two.2.iter ++ two.2.trie.store.kv.map (·.1)) := by
  obtain ⟨h1, h2⟩ := OneEmpt.calls_length (E := E) (D := fun k => k.length ≠ 32) (fun _ h => h) calls hk _ _
    (Joins.new E _ secure)
  exact ⟨h1, h2.root, h2.iter⟩

/-- C146 for keys of any length, as long as no key is the hash of a node or of the empty node.
Hash assumption: no collision among the nodes written. -/
theorem C146_hashes_partial {E : Env} {secure : Bool} {calls : List ECall} (hf : ∀ c ∈ calls, Fits E secure c.key)
    (hl : LogOk E (ECall.seqAll E calls (EMPT.new E secure)).2.trie.store.written)
    (hk : ∀ c ∈ calls, c.key ≠ emptyHash E ∧
      ∀ w ∈ (ECall.seqAll E calls (EMPT.new E secure)).2.trie.store.written, c.key ≠ E.keccak w) :
    let one := (OneEmpt.new E secure).calls E calls
    let two := ECall.seqAll E calls (EMPT.new E secure)
    one.1 = two.1 ∧ one.2.root = two.2.trie.root ∧
      one.2.iter.Perm (two.2.iter ++ two.2.trie.store.kv.map (·.1)) := by
  obtain ⟨h1, h2⟩ := OneEmpt.calls_hashes (E := E) (D := fun k => ∃ c ∈ calls, c.key = k) hl
    (fun w hw ⟨c, hc, e⟩ => (hk c hc).2 w hw e) (fun ⟨c, hc, e⟩ => (hk c hc).1 e) calls
    (fun c hc => ⟨c, hc, rfl⟩) _ _ hf (Joins.new E _ secure) (Bears.new E secure) (GS.empty E _) fun _ h => h
  exact ⟨h1, h2.root, h2.iter⟩

-- Short keys; values are bytes, an object, and a `bytearray` that is refused.
example : let calls : List ECall := pairOfKeys ++ [.update [0x12, 0x56] sampleObj, .update [0x77] (.bytearray [1]),
      .delete [0x34], .get [0x12, 0x56], .get [0x34], .contains [0x12], .delete [0x77], .update [] (.bytes [3])]
    (∀ c ∈ calls, c.key.length ≠ 32) ∧
    ((OneEmpt.new toyEnv false).calls toyEnv calls).1 =
      [.ok .none, .ok .none, .ok .none, .error .typeError, .ok .none, .ok (.value sampleObj), .error .keyError,
       .ok (.bool true), .error .keyNotFound, .ok .none] := by decide +kernel

/-- Keys that are hashes, though not of nodes. -/
def hashKeys : List ECall :=
  [.update (toyHash [1]) (.bytes [1]), .update (toyHash [2]) (.bytes [2]), .get (toyHash [1]), .delete (toyHash [2]),
   .contains (toyHash [2]), .update [0x12] (.bytes (bigValue 3))]

-- They meet the hypotheses of `C146_hashes_partial`.
example : (∀ c ∈ hashKeys, Fits toyEnv false c.key) ∧
    LogOk toyEnv (ECall.seqAll toyEnv hashKeys (EMPT.new toyEnv false)).2.trie.store.written ∧
    (∀ c ∈ hashKeys, c.key ≠ emptyHash toyEnv ∧
      ∀ w ∈ (ECall.seqAll toyEnv hashKeys (EMPT.new toyEnv false)).2.trie.store.written, c.key ≠ toyEnv.keccak w) ∧
    ((OneEmpt.new toyEnv false).calls toyEnv hashKeys).1 =
      [.ok .none, .ok .none, .ok (.value (.bytes [1])), .ok .none, .ok (.bool false), .ok .none] := by
  refine ⟨by unfold Fits; decide +kernel, logOk_of (by decide +kernel), by decide +kernel, by decide +kernel⟩

/-- With two dicts iteration yields the keys; with one dict it does not, even for one short key. -/
theorem C146_iter_false : ¬ ∀ (E : Env) (secure : Bool) (calls : List ECall), (∀ c ∈ calls, c.key.length ≠ 32) →
    ((OneEmpt.new E secure).calls E calls).2.iter = (ECall.seqAll E calls (EMPT.new E secure)).2.iter := by
  intro h
  exact absurd (h toyEnv false [.update [0x12] (.bytes [1])] (by decide)) (by decide +kernel)

/-- `len()` counts the nodes as well. -/
theorem C146_len_partial {E : Env} {secure : Bool} {calls : List ECall} (hk : ∀ c ∈ calls, c.key.length ≠ 32) :
    ((OneEmpt.new E secure).calls E calls).2.len =
      (ECall.seqAll E calls (EMPT.new E secure)).2.len +
      (ECall.seqAll E calls (EMPT.new E secure)).2.trie.store.kv.length := by
  have := (C146_partial (E := E) (secure := secure) hk).2.2.length_eq
  simpa [OneEmpt.iter, EMPT.iter, OneEmpt.len, EMPT.len] using this

-- Two keys, six entries.
example : ((OneEmpt.new toyEnv false).calls toyEnv pairOfKeys).2.len = 6 := by decide +kernel

/-- With two dicts `build_trie()` does not change the data, however it ends; with one dict it removes data: called twice
after one `update`, it leaves nothing. -/
theorem C146_build_false :
    let one := ((OneEmpt.new toyEnv false).calls toyEnv [.update [0x12] (.bytes [1])]).2
    let two := (ECall.seqAll toyEnv [.update [0x12] (.bytes [1])] (EMPT.new toyEnv false)).2
    dget one.dict [0x12] = some (.bytes [1]) ∧ (OneEmpt.buildTrie one).1 = .error .runtime ∧
    (OneEmpt.buildTrie (OneEmpt.buildTrie one).2).2.dict = [] ∧
    (EMPT.buildTrie toyEnv two).1 = .error .runtime ∧
    (EMPT.buildTrie toyEnv (EMPT.buildTrie toyEnv two).2).2.data = [([0x12], .bytes [1])] := by decide +kernel

end Pymt.Props
