# Formal model of pymt in Lean 4: design

The code under study is the Python package in `/repo/src/pymt` (Merkle Patricia trie `MPT`, the
mapping `EMPT` and its sparse/root variants, `MerkleTree`, `Proof`, RSA key pairs, utilities).
The model is in `lean/Verif/`; `lake build` in `lean/` checks everything.

This first part was written before the proofs.  The last part ("Results") is kept up to date.

## 1. How the code is modelled

* **Shallow, function by function.**  Every Python function that matters has a Lean function with
  the same branches in the same order; its doc comment cites file and lines and names every
  simplification.  Python exceptions are values of `Err`; read-only code runs in `Except Err`,
  code that changes state runs in a monad `σ → Except Err α × σ` which *keeps the state when an
  exception is raised* (so "a failed call changes nothing" is a real statement).
* **Bytes** are `List UInt8`.  **dict** is an association list in insertion order.
* **Recursion** of the trie walkers takes a counter that starts at `Env.limit`, the interpreter's
  recursion limit; running out is `RecursionError`.  Theorems ask for a limit larger than the nibble
  length of the keys, no more.  (One unit per walker frame: the constant number of helper frames at
  the bottom of the stack is not counted.)
* **keccak-256 and SHA-256** are *parameters*: any function to byte strings of length 32 (or of the
  digest length).  No global injectivity is assumed (it would be contradictory).  Where a claim needs
  collision resistance, the hypothesis says that no two *different byte strings in an explicit finite
  list* (the strings actually hashed in the histories at hand) have the same digest.  For that the
  storage carries a ghost log of everything ever written to it; no function reads the log.
* **pyrlp** is external; its contract (canonical RLP, strict decoding) is written out as a complete
  executable model (`Rlp.lean`) and the round trip and canonicity are proved.  Strings of 2^64 bytes
  or more are excluded (they cannot exist in CPython, and pyrlp rejects them).
* **RSA, AES-EAX, OAEP, PKCS#1 v1.5, json, utf-8** are parameters with their documented contracts as
  hypotheses (structures whose fields are the contracts).
* Values and keys are `bytes`; dynamic type checks are modelled only where a property is about them
  (EMPT values, values given to `MPT.update`, `RsaEncKeyPair`).

## 2. Specification side

Independent of the model: 

* `specRun : List Op → (Key → Option Value)`: the obvious map semantics of a history.
* the Yellow Paper trie root, defined directly on a list of key/value pairs;
* how an Ethereum light client checks a list of nodes against a root hash (`Spec/Standard.lean`);
* RFC 6962 style Merkle root by recursive halving;
* lists of nibbles with the ordinary prefix/append/drop operations for `NibblePath`.

The proof of the trie properties goes through abstract tries (`T`: empty, leaf, extension, branch)
with a canonical-form predicate; a refinement relation says that a reference denotes an abstract
trie in a storage.  Facts: lookup after insert/delete, canonical form is preserved, canonical tries
with the same contents are equal, references are injective up to collisions.

## 3. Plan per property

| id | what is modelled and how it is proved |
|----|----|
| C01 | history fold over `MPT.update/delete`; refinement invariant, induction over the history |
| C02 | same invariant, `get` on a present key |
| C03 | false as stated: witness trie with keys `12 34`, `13 45`, `get(12)` returns a value. Partial: holds if no stored key properly extends k |
| C04 | monad keeps the state on exceptions; induction on the abstract trie |
| C05 | same refinement, result is `ok` |
| C06 | canonical tries with equal lookup are equal |
| C07 | injectivity of references by induction, with collision-freeness on the two write logs |
| C08 | corollary of C06's method, for any state and key |
| C09 | canonical trie with empty lookup is the empty trie; continuation by C06 |
| C10 | storage only grows; read-back from old root |
| C11 | state = one storage and a list of roots; induction over the interleaving |
| C12 | storage after any prefix of the write log of a call |
| C13 | invariant of `_store_node` |
| C14 | closure invariant on every prefix of the write log |
| C15 | model of `encode`/`decode` over the RLP model |
| C16 | as C01 with hashed keys and collision-freeness on the keys used |
| C17 | Yellow Paper definition on lists of pairs gives a canonical trie; uniqueness |
| C18 | false for roots shorter than 32 bytes (every such trie); partial: roots of 32 bytes |
| C19 | false for prefixes of keys; partial: the target is a prefix of a present key; exact in secure mode |
| C20 | root hash comparison is the first check |
| C21 | false (search ending at an extension); partial: search ends at a leaf or branch, nodes on the path hashed; `C21_exact`: the outcome for every absent key |
| C22 | false; general forging theorem, and exactly for which tries |
| C23 | from C01 |
| C24 | by unfolding: the storage is not read |
| C25 | false: witness; partial: C01 for non-empty values; exactly: a second specification `kept` on lists of pairs, refined by the trie without canonicity |
| C26 | false: raises ValueError unless the digest happens to be ASCII hex; same exception behaviour proved |
| C27 | two-store invariant, induction over histories |
| C28 | reference stored in trie pins the hash of key+data |
| C29 | case analysis with C04 |
| C30 | present keys: full; absent: as C03 |
| C31 | codec over RLP; equality false for shifted splits, true for equal key lengths |
| C32 | simulation between the two models |
| C33 | false: heap model with shared default dicts, witness; |
| C34 | false: every EMPT with a non-empty trie storage gets RuntimeError; empty storage works |
| C35 | models of the `MutableMapping` mixin methods |
| C36 | correspondence of `NibblePath` with nibble lists |
| C37 | RLP round trip and hex-prefix round trip |
| C38 | induction over levels |
| C39 | false for every tree; general theorem with collision-freeness |
| C40 | false (inner nodes count as leaves); partial for tree-node soundness |
| C41 | false after put on a ready tree; partial: right whenever not stale |
| C42 | level construction equals recursive halving |
| C43 | induction on the halving definition |
| C44 | false for the proofs MerkleTree makes; partial for byte-string entries |
| C45 | contract structure for the primitives; hex round trip modelled exactly |
| C46 | false for every input |
| C47 | contract structure |
| C48 | split/join of the blob, contract for AES-EAX |
| C49 | invariant on the root of tries without keys |
| C50 | as C20, for proofs with a node on the path; proofs without one exactly |
| C51 | insertion order of the data dict |
| C52 | codec over RLP |
| C53 | combines C18 with the length of an encoded reference |
| C54 | invariant of `MTree` histories |
| C55 | case analysis over malformed entries |
| C56 | decoder model, all byte strings |
| C57, C59 | contract structure for the primitives |
| C58 | forgery for every library that meets the contract; what the signature does cover, by unfolding |
| C60, C61 | exact model of `repr` of bytes/tuples and of `int(text, 16)` |
| C62, C63 | the point where a key leaves the present ones, defined on contents (`Spec/Stop.lean`), corresponds to where the walk stops |
| C64 | counting writes along the recursion |
| C65 | every write stores what is already there |
| C66 | false (an empty proof raises); exception sets by structural induction, walk of the checker over any storage of well-formed entries |
| C67 | false (entries can be added); exact acceptance criterion from the same walk |
| C68 | two runs on storages that agree are the same until one raises KeyError (`Lemmas/Missing.lean`) |
| C69 | false for exclusion proofs; otherwise a call raises KeyError exactly when a node on the way is missing (`Lemmas/Light.lean`) |
| C70 | false (flag bytes, references); exact sets of accepted and of canonical strings (`Lemmas/Decoding.lean`) |
| C71 | false: no node encoded without data can be decoded; decoding a complete node keeps path and references |
| C72 | exact answer from the abstract trie with the `secure` flag off |
| C73 | false: equals the hash of the concatenation; true for items of equal lengths |
| C74 | false for nested loops; single loops from a loop lemma over the cursor |
| C75 | false: witness; partial: `Keeping` + injectivity of the root as in C07 |
| C76 | more fuel changes nothing but RecursionErrors, by induction on fuel for each walker; histories: drop the calls that raised it |
| C77 | C76 to raise the limit, then totality (C05) and failing deletes (C04) without assumptions on empty values |
| C78 | induction on the length: one level of the loop is one step of the recursive path |
| C79 | the same for a tree whose lowest level was extended |
| C80 | false: witness and a theorem for all trees; partial for byte arguments, from C78 |
| C81 | false: witness; exact answer from C10 for the references and from the mirror invariant for the values |
| C82 | false: witness; the writes of a call in program order, and replays of prefixes of them as in C12 |
| C83 | false: forging theorem and witness; C69 for the trie cut down to the nodes of the proof |
| C84 | false: witness; objects with their present encoding beside the data storage, C30 for the trie |
| C85 | false: witness; `update` with values of all types compared with `update` of the bytes they become; simulation for lists |
| C86 | calls as programs of single accesses (`Model/Threads.lean`), shown to do what the calls do when alone; a program does the same over a larger dict |
| C87 | false: two witnesses; stages of a reading call between the steps of the writer |
| C88 | false: a lost update as witness; stages of a writing call while others write, invariant over all interleavings |
| C89 | the calls that set the root, in that order; while a call runs that has not set it yet nobody else does |
| C90 | the trie on the smaller storage holds the same abstract trie; a call on a smaller storage raises KeyError or does the same and writes no more; a node that can be reached is on the way to some key |
| C91 | every object holds the trie of its calls; removals keep what each of them reaches |
| C92 | the walk finds what it would have found in the state it began in; the root read at the end may be of a later state |
| C93 | the same; `verify_proof_of_exclusion` never looks at `trie_root` |
| C94 | `root_hash` is checked before and after the walk; the walk begins at a root of some moment and follows genuine nodes |
| C95 | the states the object goes through are marked with the number of calls that have changed the trie; the data storage is always that of a moment between calls; the walk finds what it would have found at one moment |
| C96 | a program may put only values it was called with into the data storage, and take only keys it was called with out of it; every interleaving of calls on an EMPT has a shadow, an interleaving of calls on a trie chosen in hindsight, so that C88 speaks about the trie inside |
| C97 | the dict only grows, new entries at the end; so the loop either meets a dict that has grown or copies one and the same list of entries |
| C98 | as C97, then the round trip of C15 for the entries and root that were read |
| C99 | the root of the received object is the hash of the root node or the node itself; both lead to the same first node (`Doubles`), below it the storages agree (`Alike`); failing calls keep the pair (`Twin`) |
| C100 | the walk of the key ends in the node with the value (`T.lookup_seek`); a trie built from listed nodes claims the root (`Claims`), so C68 bounds its answers, and C67 says which nodes an accepted proof must list |
| C101 | combines C21_exact with the lengths of paths; a key beside all present ones leaves them at the start, where they do not part (`Off.start`) |
| C102 | the light client succeeds exactly if the root and all nodes of 32 bytes or more on the way are listed (`Std.verify_holds`); C67_exact asks the library's check for the same nodes |
| C103 | the proof lists `T.shown`; by the point where the key leaves the present ones (`at_stop`) this is the whole way or all but its last node, which no other listed node equals |
| C104 | `updateAux_client`: after `_update` every node on the way of any path was on it before or has been written by this call |
| C105 | `deleteAux_client`: `_delete` reads the nodes on the way and at most one neighbour; `neighbour_near`: it lies on the way of all nearest keys |
| C106 | `EView` as specification, `ESharedOk.views` as refinement by induction over the steps; `EView.own`, `EView.given` on the specification only |
| C107 | `ETidy.tidy`: the trie of the EMPT is one of C90, by induction over calls and removals |
| C108 | `Follows.sparse`: one call, from `Follows.exec` of C105; `keptKeys_refOps` turns keys of the trie into keys of the mapping |
| C109 | `ETurnOk`: what the call under way would do if left alone (`EProg.alone`) is what it does for the single client; `EWorld.Past`: the states so far are the first states of the single client |
| C110 | `Prog.cut`: the first accesses of a program; `Prog.Plain` programs assign the root last, so what is cut off early has only added nodes (`cut_early`), and `Bears` survives that |
| C111 | false: witness; `Tracks`: the calls the trie inside has had, and the keys for which data and trie agree |
| C112 | `Prog.against`: the programs of `Model/Threads.lean` over an abstract storage; faithful storages by bisimulation; loyal ones by `Behind` (the storage has the nodes of the trie, and more) and `fine_call` (a call never asks for a node that is missing) |
| C113 | `EMPT.eqMap`: `dict(self.items()) == dict(other.items())`; equal dicts by counting keys, then C06 and C07 for the root |
| C114 | `EMPT.loop`: the iterator of a dict with its size check; induction over the keys to come |
| C115 | `KeyArg`, `BadPath`: paths whose nibbles cannot be read; walkers that stop at the first nibble; cases on the root node |
| C116 | C88 for the states, C92–C94 for the reader; genuine nodes under one root give the same walk in every state |
| C117 | as C98 over the states of C88 |
| C118 | as C116 and C97 for the trie inside; its states are those of a crowd of threads that write to an `MPT` (C96) |
| C119 | a root with the hash of the root node is that hash or the node (`RootForm`); the walks of the checkers from either are compared node by node, with what a forged entry of the proof can be (`Rep'`) |
| C120 | programs of calls do the same over a larger content-addressed storage (`Prog.mono`), call by call (`Call.seqAll_over`) |
| C121 | C120 for the trie inside; the data storage decides which values pass the check of the reference |
| C122 | a site (EMPT and state of the user's program) is the image of the EMPT of the ordinary calls, step by step |
| C123 | `get` of C122; each inherited method case by case |
| C124 | a program on an incomplete storage ends like on the complete one or at a node that is missing; induction on the number of missing nodes among those read, then on the series; a call that ends with KeyError leaves the root alone, so that it may be left out |
| C125 | induction along the path; for deletions the bound depends on the outcome of the recursive call |
| C126 | lengths of RLP encodings node by node; nodes on the way to a key have suffixes of present keys |
| C127 | a reference is a list with the data in it, a node a list with the reference in it; C126 with references as values; C13 for deletions |
| C128 | each level of nesting costs a byte and references have at most 32; the invariant of C14 |
| C129 | simulation between the world with removals and the world without: the dict with removals is a part of the other that is complete for every trie and for what is left of every call |
| C130 | every entry of the trimmed dict is a distinct part of the abstract trie; a canonical trie with N keys has at most 3N - 2 parts, by induction |
| C131 | C06 gives the same abstract trie; its parts are exactly what can be reached; C13 for what stays |
| C132 | reachable references are parts of the abstract trie (Lemmas/Collect), stored or embedded; C13 for growth; C132_zero by running update |
| C133 | `Tells` on encoded nodes is lookup along embedded nodes (Lemmas/Reveal); places of the nodes of a walk; C100 and own_proof for the proofs made |
| C134 | `Twins`: two objects bearing one abstract trie (Lemmas/Alike); every call's outcome is a function of the trie; induction on the calls |
| C135 | `iter_step`: the keys after one more call; induction on the history with `AddedAt` |
| C136 | `ETwins` over `Twins` (Lemmas/EmptAlike); computations that do the same to both (`Even`), closed under bind |
| C137 | `MProg`: calls as programs with one access to shared state per step; a call run without interruption does what `Model/Merkle.lean` says (`call_goes`); invariants of worlds; interleavings as witnesses |
| C138 | `AddSafe`: what a program does when leaves may be added between any two of its steps, by induction on the number of steps; after the first level is made the leaves no longer matter |
| C139 | each call has one access; the order is that of the accesses |
| C140 | `Decided`/`Undecided`: whatever leaves are added between the steps of a call, there is a step at which its outcome is that of the call made alone; the order is that of these steps |
| C141 | `MTree.shaped`: the object as a function of the values and of how many there were when it was made |
| C142 | `MakeStage`: before, while and after the tree is made; `Akin`: levels of a tree that is not ready do not matter |
| C143 | the three states on the way; `make_tree` replaces the levels before it reads them |
| C144 | `Epochs`: one list of calls for each list that was `self.leaves`; a call belongs to the epoch of the list it got; `Timed` for the real-time order |
| C145 | a schedule in which `self.leaves` is read before the reset and used after it; `hcall_goes`: a call not disturbed does what it does alone |
| C146 | `EProg.joined`: the same programs with all accesses to one dict; `Joins`: the dict is the union of two dicts with disjoint keys |
| C147 | induction on the list; `put_list(tree.leaves)` as a loop over a list that `put` appends to |
| C148 | a model of the regular expression of `strptime` with backtracking (`Model/Timestamps.lean`) |
| C149 | lexicographic order of texts of fixed width |
| C150 | `LProg`: one access to `_data` or `_offset` per step; an invariant of worlds; schedules as witnesses |
| C151 | `ThreadSystem.choosing`: a strategy picks the next call; by induction on the schedule the calls made are the lists |
| C152 | `Script`: a program as a tree of calls; with C151 and C86, by induction on the schedule from its end |
| C153 | `SCall.script`, `ECall.script`: calls as programs over the trie; alone they are the calls of `Model/Empt.lean` |
| C154 | `Machine`, `Shop`: threads with calls that may be ended, for any kind of call; a thread whose call is ended is doubled by one that is never scheduled again (`Course`), so C87 and C96 carry over |
| C155 | `Rounds`: writers take turns but for calls nobody goes on with |
| C156 | `Model/KeyFiles.lean`: nicknames of any type, opening and writing of the file as separate steps; the outcome by cases |
| C157 | the contract of `json` and of the key export; a text with another public key as witness |
| C158 | the texts written out; they are built from class, nickname and public key |
| C159 | `MPT.verifyPoi`, `MPT.verifyPoe` and `MTree.verifyPoi` by cases |
| C160 | `Model/Printing.lean`: the text piece by piece; each piece can be read off the front of the rest (`Delimited`) |
| C161 | the same for lists of lists of byte strings; how a bytearray shows its content is left open |
| C162 | `Model/Printing.lean`: Python's fallback for loops, with `getAny` of C115 |
| C163 | `encrypt` and `decrypt` of `Model/KeyPair.lean`; the attack for every `Crypto` |
| C164 | the same |
| C165 | `Model/PathText.lean`: paths as objects; decimal digits and hex text can be read back |
| C166 | the same; Python's `//`, `%` and negative indices on `Int` |
| C167 | the same, with paths at addresses |
| C168 | `Model/EmptPool.lean`: threads with objects of their own over two shared dicts; each object simulates one that is alone |
| C169 | the same; programs run with arbitrary answers of the data storage |
| C170 | `Model/EmptPoolEnd.lean`, as C169; at every point of a call the trie is as before it or as after it, up to unused nodes |
| C171 | `Model/HashTypes.lean`; the nine names compared with an independent list |
| C172 | `Model/HashTypes.lean`; two trees with hash functions of their own; lengths of roots |
| C173 | `Model/KeyLife.lean`; false because of `generate_keypair`; state after any sequence of actions |

## 4. Trusted base

* The Lean 4.33.0 kernel and the three standard axioms `propext`, `Classical.choice`, `Quot.sound`.
  Every property theorem depends on a subset of these three (checked with `#print axioms`); witnesses are
  evaluated by the kernel (`decide +kernel`), never by compiled code.  Mathlib is not imported.
* The reading of the Python code by which the model was written.  Every definition cites file and lines.
* The contracts of external libraries:
  * **keccak-256**: theorems hold for every function to 32-byte strings, under collision-freeness of the
    listed strings.  Counterexamples with "real" values use `Model/Keccak.lean`, a complete keccak-256.
  * **pyrlp**: the executable model `Model/Rlp.lean` (nothing is assumed, but the model is a reading of pyrlp).
    Sedes errors of decoding are one exception value.
  * **hashlib** digests for Merkle trees: any function with a fixed digest length (`HashFn`); in C171 and C172 nine
    functions with the documented digest lengths (`Hashlib`).
  * **pycryptodome** (`Crypto`): import of exported keys gives the key back, signatures made with a key
    verify with it, OAEP and AES-EAX decrypt what they encrypted.  Nothing is assumed about forging.  The
    structure is shown inhabited.
  * **json** (`JsonDict`, `JsonLib`): `loads(dumps(x)) = x` for dicts of strings.  Shown inhabited.
  * **UTF-8 validity, hex, `bytes.fromhex`, `int(x, 16)`, `repr(bytes)`**: modelled exactly.
* **Threads** (C86–C89, C92–C98, C109, C116–C118, C129, C137–C140, C144, C145, C150–C155): a single read or write of a dict entry or of an attribute is
  atomic, and so is one operation on a list (`len`, indexing, slicing, `index`, `append`), as in CPython; everything else
  may interleave.  An exception from elsewhere (C142, C154, C155) arrives between two accesses, and the method it ends
  does not catch it: `mpt.py` and `empt.py` have no bare `except`.
* Randomness and time are arguments.  File contents are a dict from names to bytes.

Checks of this reading that need no proof (tests, not part of any claim):
`validation/gen_vectors.py` compares the model of keccak, RLP and trie roots with the test vectors in
`/repo/src/pymt/tests`; `validation/gen_builtins.py` compares the models of Python built-ins with the
Python interpreter.  The package itself could not be run here: its dependencies are missing.

### Modelled

`mpt.py`, `utils/nibble_path.py`, `utils/node.py`, `empt.py`, `merkletools.py`, `mt.py`, `proof.py`,
`keypairs.py` completely, with the exceptions below; from `utils/utils.py`: the timestamps, `encrypt`,
`decrypt`, `rsa_key_valid`; `utils/hash.py` completely.

### Not modelled

* Printing of nodes (they have no `__str__`), properties that only return a field.  Messages of exceptions
  print paths (`mpt.py:604-844`); with `bytes` as keys this cannot fail, with `str` it does (C115).
* Type checks on arguments, except where a property is about them (values of EMPT and of `MPT.update`, proof
  types, keys in C115).  Elsewhere keys are byte strings.  In C115 a `bytearray` key is read as the same `bytes` by
  definition; lists and tuples as keys, and `hash_key=False` with a wrong key, are left out.
* Threads, except for `get`, `contains`, `update`, `delete` and the four proof calls of `MPT` and `EMPT`, `encode`
  and `get_sparse_trie`, the calls of `MerkleTree` and loops over a `Proof` (C86–C89, C92–C98, C109, C116–C118, C129, C137–C140, C144, C145, C150–C155, C168–C170; C12, C82, C110, C111, C142, C143, C154, C155 and C170 cover crashes and exceptions at every point between accesses).
* Storages other than dicts, except for `get`, `contains`, `update`, `delete` of `MPT` and `EMPT` and the making of
  proofs by `MPT` (C112).
* `Utils` helpers that only wrap the standard library (uuid, file checks, digests, key generation),
  abstract base classes, key rings (abstract only), examples.
* CPython limits other than recursion: memory, and the constant number of frames below a walker;
  and the recursion of pyrlp on nested lists, except in C128 (own nodes nest at most 33 deep).

## 5. Assumptions of the history theorems

`Valid E secure ops ks` (`Spec/History.lean`) is what theorems about histories ask for:

* no key with an **empty value** is a proper prefix of another present key, at any moment of the history.
  The code cannot represent this (C25).  Histories without empty values and secure tries always meet it.
  C02, C04, C05, C07 (as C75) and C25 also have theorems without this assumption (`Props/Empties.lean`), and so have
  C09–C12, C18–C20, C23, C64, C65 and C68 (`Props/AnyValues.lean`).  The properties of threads (C86–C89, C92–C94,
  C96, C98, C109, C116–C118), of calls that are ended early (C110, C111), of other storages (C112) and of removing
  nodes (C90, C91, C129) do not need it either; where they speak of a value that is stored, they mean
  the second specification `kept` of C25 (`Stored`, `ReadsAs` in `Spec/Threads.lean`);
* keys fit the recursion limit (C76 says what happens to longer keys, and how every theorem carries over);
* no keccak collision among the nodes written in this history, and node sizes below 2^64;
* in secure mode, no collision among the keys used.

Each theorem has an `example` beside it that meets its hypotheses.

## 6. Results

MANIFEST.json lists the theorems per property.  72 properties are proved as stated; 101 are false of the code
or false in part.  For the latter the full statement is a definition `Cxx : Prop`, `Cxx_false : ¬ Cxx` has a
concrete witness, and theorems named `_partial` prove what is left, with the condition as weak as we could
make it.

### Where the code disagrees with its documentation or with what a user expects

Trie (`mpt.py`)

1. `get(k)` of an absent key returns the value of a longer key, or `b""` (C03; exactly when, C62).
2. `get` and `delete` never raise the documented KeyError for an absent key, unless the trie was never
   written to (C62).
3. `contains(k)` is True for some absent keys that extend a present key (C01; exact condition in C01_exact).
4. `root()` of a new trie is the hash of the empty node, of an emptied trie None (C49).
   A new trie raises KeyError on `get`, an emptied one ValueError; encoding an emptied one raises TypeError (C15).
5. Empty values are lost when their key is a prefix of another key, and make the root depend on the history (C25, C75): `update(12, '')`,
   `update(1234, 2)` leaves a branch node with one child, a further `delete(1234)`, `update(1234, 2)` a leaf;
   and `delete(12)` raises after the loss.
6. `hash(t)` and `t == u` apply `int(.., 16)` to raw digest bytes: ValueError almost always, TypeError for
   emptied tries, and different digests may compare equal (C26).
7. `len(t)` counts storage entries, not keys (see C64 for how it grows).

Proofs (`mpt.py`, `proof.py`)

8. Inclusion proofs are rejected by the trie that made them when its root node is shorter than 32 bytes (C18).
9. Inclusion proofs for absent keys are made and accepted when the key is a prefix of a present key (C19, C63).
10. Exclusion proofs omit an extension that leads elsewhere, so that verification fails (C21) and the nodes
    listed are not enough to redo the lookup (C69).  No proof is made at all for an absent key that leaves
    the present ones at a branch with a value, and the proof is rejected when the rest of the only key
    nearby happens to be the whole absent key (C21_exact).
    In a secure EMPT this happens exactly when the hashes of all keys, two or more, begin with nibbles with which that
    of the absent key does not (C101).
    An Ethereum light client that gets the listed nodes and knows the root hash lacks this node too, and is not
    convinced, unless the node is short and part of the one before (C103).
    The nodes of an inclusion proof are enough to update the key, but not to delete it: the node of a neighbour may be
    needed (C104).
    It is enough to have the way of one of the other keys that share most hex digits with it, and without the nodes of
    such a key the delete may fail (C105).
11. Exclusion proofs can be forged for every present key of every trie with two keys or more, and for the only
    key if its value is `null` and its leaf has 32 bytes or more (C22).
12. One-entry exclusion proofs can be accepted by other tries, namely those whose only entry is the key of the
    proof with the value `null` (C50).
13. Proofs of the same fact made at different times are different objects under `==` (C60).
14. JSON and RLP round trips of `Proof` fail for the entries that `MerkleTree` makes (C44).
15. Checking a malformed or mismatched proof raises one of eight exceptions instead of returning False (C66).
16. Accepted inclusion proofs can be altered: entries added, reordered after the first, or replaced by other
    encodings of the same node (C67).
    The last node of an accepted proof need not be that of the key; the value has to be looked up in a trie built
    from the nodes (C100).
17. Looping over a `Proof` inside a loop over the same `Proof` ends the outer loop (C74).

Nodes and hashes (`utils/node.py`, `utils/hash.py`)

18. `Node.decode` ignores two bits of the flag byte and accepts short references which are no nodes, so that
    a node has many encodings (C70).
19. Nodes encoded with `include_data=False` cannot be decoded at all; decoding with `include_data=False` gives
    a value to branches without one (C71).
20. `keccak_hash_list` forgets the boundaries of the items (C73).

`empt.py`

21. Default storages are shared between instances (C33).
22. `build_trie` raises RuntimeError on a non-empty storage after deleting one node (C34).
23. `SparseEMPT.update` raises for every object, `get_root_trie` always raises (C32).
24. `DataReference.__eq__` glues key and data (C31).
25. An absent key can give a reference or a stored value of another key (C28, C30).
26. An old root gives no access to old values: changed keys raise InvalidReferenceError, deleted ones
    KeyError (C81).
    The same happens to an EMPT when another object over the same storages changes or deletes a key, and its iterator lists
    the keys of all objects (C106).  If keys begin with one another, a `delete` that raises can remove the value of
    another object (C106_damage).
27. `EMPT` is not crash safe: opened at the old root after a crash, the key of the interrupted call raises
    InvalidReferenceError (update, after its last write) or KeyError (delete).  An interrupted delete can never
    be repeated: `contains` is True and `delete` raises KeyError.  Writing the key again repairs this (C82).
28. An EMPT keeps objects by reference: once the encoding of an object changes, `get`, `pop`, `setdefault`,
    `popitem` and `clear` raise InvalidReferenceError for its keys until it is stored again (C84).

Storages and encodings of any origin, values of any type

29. Nodes are not checked against the hash they are loaded by: whoever can change one entry of the storage can
    make `get` and `contains` answer as any other trie, under an unchanged root.  `EMPT.get` notices, unless the
    data storage was changed as well (C83).
30. `root_hash()` does not cover the mode: an encoded trie with the last byte changed decodes to an object with the
    same root hash that does not find any key (C99).
31. `MPT.update` checks the type of a value only when it makes a new leaf or a branch.  For a key that is already
    there, integers, bools and texts are stored as byte strings, and a list is accepted and makes the key unreadable
    (C85).

Threads

32. `get` and `contains` read `_root` more than once.  If another thread deletes the last key in between, they raise
    TypeError; if another thread makes the first insertion into a new trie, `contains` raises KeyError (C87).
33. Two threads that call `update` on one object can lose one of the updates, although both calls return normally; but
    no interleaving corrupts the trie or makes an `update` fail (C88), and a lock around `update` and `delete` alone is enough (C89).
34. The proof calls read `_root` up to seven times.  While another thread writes, `get_proof_of_inclusion` can return
    the nodes of one trie with the root of another, which nobody accepts (C92), `root_hash` can return the root node
    itself or the hash of a hash, also inside proofs of exclusion (C93), and `verify_proof_of_inclusion` can say True
    to a proof that the trie accepts at no moment, but only for (beginnings of) keys that were there (C94). With several
    writers the same holds, for `MPT` (C116) and `EMPT` (C118).
35. `EMPT.get` reads the value and then the reference; if another thread updates the key in between, it raises
    InvalidReferenceError (C95).  Two threads that update different keys of one `EMPT` can leave a key that iteration
    lists and `len` counts, but that `get` and `delete` do not find; no interleaving
    corrupts the trie inside, or makes an `update` of a storable value fail (C96).  A lock around `update` and `delete` prevents
    this, but not the InvalidReferenceError of a reader without the lock (C109).
36. `get_sparse_trie` and `encode` raise RuntimeError if another thread adds a node during the loop, and read the root
    after the nodes; a call that ends in between gives a copy that cannot find any key (C97, C98). With several writers the copy may be of a trie
    that a later `update` of another thread discards (C117).  Reading the root
    first would be enough to make every copy whole.

`merkletools.py`, `mt.py`

37. In the default secure mode every proof is rejected by the tree that made it (C39).
38. Leaves and inner nodes are not told apart (C40, C43).
39. Values put after a build are ignored (C41), and spoil the proof of the last of an odd number of earlier
    values (C79); asking an empty tree for its root makes it stuck (C41_stuck).
40. Verification raises on malformed proofs (C55).  Equality forgets leading zeros (C61).
41. `MerkleTools` cannot check its own proofs: given what `get_leaf` and `get_merkle_root` return, it raises
    KeyError or TypeError in every tree of two leaves or more (C80), among them the shipped
    `examples/merkletools_create_and_proof.py`.

`keypairs.py`

42. `RsaEncKeyPair` can neither encrypt nor decrypt (C46).
43. `hash(keypair)` raises TypeError (C57).
44. Messages can be re-keyed: only the ciphertext is signed (C58).

Storages that are not dicts, and exceptions from outside

45. An `EMPT.update` that is ended by an exception (storage full, KeyboardInterrupt) before it has written the data has
    changed the trie already: a new key is there for `contains` but can be neither read nor deleted, a key that was
    there cannot be read.  After an `EMPT.delete` that is ended half way the key can be neither read nor deleted.
    Writing the key again repairs both (C111).  For `MPT` such calls do no harm (C110).
46. "Any data structure that implements `__getitem__` and `__setitem__` should be OK" (`mpt.py:29-32`) is true of updates,
    deletes, reads and proofs (C112), but `len(trie)` needs `keys()` (`mpt.py:86`) and `encode` needs `values()`
    (`mpt.py:495`).
47. `==` of two `EMPT` objects is that of `Mapping`: it reads and checks every value of both objects, takes objects
    with different `secure` flags and different roots as equal, and objects with equal roots as different when they
    keep objects that encode alike (C113).  Deleting from an `EMPT` in a loop over it raises RuntimeError (C114).
48. `MPT` does not check the type of keys.  In plain mode a `str` makes `contains` answer False or raise TypeError and
    `get` raise AttributeError (while making the message of another exception) or TypeError, depending on the root
    node; the empty `str` is written as `b""`; `get_proof_of_inclusion` refuses a `bytearray` that `get` accepts
    (C115).
49. The root hash is not enough to check proofs when the root node is shorter than 32 bytes: an object made with
    `MPT(storage={}, root=trie.root_hash())` accepts no inclusion proof of such a trie, and if its only entry has the value
    `null`, the root node alone is accepted as a proof that the key is absent (C119).  An object with the root node in place
    of its hash (same root hash) raises PoeError for exclusion proofs that the trie accepts.
50. Merging the two storages of an `EMPT` with those of another one (two clients, one database) makes keys unreadable that
    both have with different values: the references in the tries stay apart, but there is one value per key in the data
    storage (C121).  Length and iteration are those of the merged data storage.  Tries (`MPT`) can be merged (C120).
51. When `encode_rlp()` of a stored object raises KeyError, `pop` with a default returns the default and removes nothing,
    `setdefault` replaces the object by the default, and `clear` ends without an exception and leaves everything: the
    methods inherited from `MutableMapping` take the KeyError for a missing key (C123).  Other exceptions are passed on.
52. A `DataReference` is meant to reduce what the trie stores, and a `SparseEMPT` is said not to have the data.  The
    encoded reference contains the key and the whole data: trie storage and proofs grow with the data,
    `SparseEMPT.get_reference(key).data` returns it, and in secure mode the keys, which the trie hashes, are in the
    references in clear.  `EMPT.delete` leaves the data in the trie storage (C127).
53. `rlp.decode` recurses once for each level of nesting.  Own nodes nest at most 33 deep, but an entry of a proof
    from someone else can nest as deep as it has bytes, and `verify_proof_of_inclusion` catches `DecodingError` only:
    such a proof ends with RecursionError (C128).
54. The nodes that `update` and `delete` save are not reachable before the root is set.  A client that removes
    unreachable nodes from the dict in between loses the value although `update` returns, and `get` raises KeyError from
    then on; a reader that has looked at a root that is replaced meanwhile gets KeyError too (C129).
55. The dict is never cleaned: it keeps a node for every value that was ever written, so that writing one key again and
    again needs ever more room.  What a trie with N keys uses is at most 3N - 2 nodes (C130).
56. `encode()` of a trie, and `encode_rlp()` of the sparse copy of an `EMPT`, contain the values of 32 bytes or more that
    were deleted or replaced, since they write out the whole storage (C131).
57. `len(trie)` counts entries of the storage, not nodes of the trie: nodes no longer used count, short ones do not.  A
    trie holding one short pair has `len` 0, so `if trie:` treats it as if nothing were there (C132).
58. Proofs contain values of other keys: those of keys with which the key begins, and short ones of unrelated keys,
    because nodes shorter than 32 bytes are embedded in their parents (C133).
59. A trie that was emptied and a new one, both without keys, can be told apart: `get` raises ValueError on the one and
    KeyError on the other, and `root()` is None or the hash of the empty node; nothing else tells (C134).
60. `popitem()` of an EMPT takes the key that was added first; that of a dict takes the one added last (C135).
61. Two threads that ask a `MerkleTree` for its root before it is made both make it, and one may pair the nodes of a level
    as if they were leaves: afterwards the tree says it is ready and gives the root of some of its leaves to everybody,
    and proofs for the others are not accepted; or one of the threads gets ValueError (C137).
62. A `put` by another thread while the tree is made can make a root that leaves out an earlier leaf (C138).
63. Asking a `MerkleTree` for its root, or whether a proof is right, changes what it answers after later calls of `put`:
    it makes the tree, and values put in afterwards are left out of the root (C141).
64. An exception inside `make_tree` on a made tree leaves the tree without proofs until it is made again (C142); one inside
    `reset_tree` can leave it ready but without levels, so that `get_merkle_root` raises ValueError although there are
    leaves, or with the root of leaves that are gone (C143).
65. `get_merkle_root` (or `make_tree`) in one thread while another calls `reset_tree` and puts in new values can leave the
    tree ready with the levels of the old leaves, so that it gives the old root from then on; `get_merkle_root` can also
    raise TypeError (C145).
66. `EMPT(d, d)` is accepted: iteration then yields hashes of nodes, `build_trie` removes data, and a key that is the hash
    of a node overwrites the node (C146).
67. `put_list` leaves the values before a wrong one in the tree (C147).
68. `from_timstamp_string` raises AttributeError unless Django is installed, and cannot read timestamps made without
    `USE_TZ`: they end with a blank and no offset (C148).
69. Threads that loop over one `Proof` object disturb each other; the loops can even raise IndexError (C150).
70. The setter of `nickname` takes any object.  With one that `json` cannot write (bytes), `to_key_file` empties the file and then
    raises TypeError: the key pair that was in the file is lost (C156).  `to_key_string` would have raised before.
71. In a key file nickname and public key are not protected, and the public key is never compared with the private key (C157).
72. `MerkleTree.verify_proof_of_inclusion` does not look at the type of the proof; it takes an inclusion proof that says `MPT-POE`
    (C159).
73. `for key in trie` raises TypeError for an `MPT` with keys, KeyError for a new one and ValueError for an emptied one: the class
    has `__getitem__` but no `__iter__` (C162).
74. `RsaKeyPair.encrypt` signs the ciphertext and names the sender nowhere: whoever sees a message can replace the signature by
    their own and pass for its author (C163).
75. Nor is the receiver named in what is signed: the receiver can send a message on as if it had been written for somebody else
    (C164).
76. `NibblePath` objects made by `common_prefix` and `combine` cannot be printed: `repr` and `str` raise AttributeError, as their
    data are a list (C165).
77. A negative offset does not skip the last nibbles of a `NibblePath`, as documented, but puts them in front (C166).
78. `NibblePath.consume` is documented to return a new path but changes and returns the old one (C167).
79. `EMPT` objects over the same two dicts disturb each other, also when each belongs to a thread of its own: storing a value under
    the same key makes `get` of the other raise InvalidReferenceError (C168). They cannot do more than that (C169).
80. `MerkleTools` documents `hash_type` as "sha256" or "sha3"; "sha3" raises Exception, the names of the SHA-3 functions are
   "sha3_256" and so on (C171).
81. With `secure=False` the root of a single value is the value, whatever the `hash_type`: trees with different hash functions
   are then equal and accept each other's proofs (C172).
82. `generate_keypair` replaces the keys of an object whose public key "cannot be set": signatures made before are no longer
   valid for it (C173).  (It says that keys have 2048 bits; the default is 4096.)

Seen while reading, without a theorem

* `Utils.from_timstamp_string` calls `datetime.datetime` on the class `datetime`, an AttributeError; the format it
  parses asks for `%z`, which times without a zone do not have.
* `generate_keypair` is documented to make keys of 2048 bits; the default is 4096.  An empty passphrase exports the
  private key without encryption.
* In plain mode lists and tuples of small integers act as keys of an `MPT` like byte strings (for other types of keys
  see C115).
* The examples `empt_proof_of_exclusion.py` and `mt_create_and_proof.py` get False from the verification of their own
  proofs (C39 for the second one); the tries of `empt_create_and_change.py` share their data storage only because the
  defaults of the constructor are mutable.

### What holds without restriction

Map semantics for present keys, totality of update and delete, failed deletes change nothing, history
independence and binding of the root, old roots, shared storages, crashes between writes, append-only
storages without dangling references, agreement with the Yellow Paper definition, codecs of paths and nodes,
mapping methods of EMPT, shape and binding of Merkle roots, encryption round trips, cost bounds.

## 7. Testing the theorems

Wrong programs are made by editing one definition of the model in a copy.  For each, the property theorems
are rebuilt, and `seeded/harness.txt` (a Lean file, kept under another name as it is no module of the
project) is run: it evaluates instances of the property theorems on the wrong model and prints the theorems
that became false, so that failures of a mere lemma are told from failures of a claim.
`seeded/harness_threads.txt` does the same for threads that share a `MerkleTree`, on many interleavings, and
`seeded/harness_made.txt` for trees that are made, calls that end early and what a tree shows of its past;
`seeded/harness_lists.txt` for threads that may reset the tree, `seeded/harness_onedict.txt` for an EMPT with one
dict, `seeded/harness_loops.txt` for loops over a shared proof, `seeded/harness_keyfiles.txt` for key files and the text of
key pairs, `seeded/harness_printing.txt` for printing and loops over an `MPT`,
`seeded/harness_paths.txt` for `NibblePath` objects, `seeded/harness_ended.txt` for calls that are
ended by an exception from elsewhere, `seeded/harness_pool.txt` and `seeded/harness_poolend.txt` for threads with an
EMPT each over the same two dicts, `seeded/harness_hashtypes.txt` for the hash functions of Merkle
trees and `seeded/harness_keylife.txt` for the keys of a key pair object.
`seeded/LOG.jsonl` has one line per wrong program.
