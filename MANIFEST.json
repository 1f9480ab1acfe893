{
 "claims": [
  {
   "property": "C01",
   "status": "partial",
   "theorems": [
    "Pymt.Props.C01_contains_partial",
    "Pymt.Props.C01_exact",
    "Pymt.Props.C01_false"
   ],
   "note": "The code answers True for some absent keys that extend a present key (C01_false); proved for all other keys and for secure mode."
  },
  {
   "property": "C02",
   "status": "proved",
   "theorems": [
    "Pymt.Props.C02_get",
    "Pymt.Props.C02_all"
   ],
   "note": "C02_get assumes that no key with an empty value is a proper prefix of another key (secure tries need no such assumption); C02_all has no such assumption and covers non-empty values.  Lost empty values are C25."
  },
  {
   "property": "C03",
   "status": "partial",
   "theorems": [
    "Pymt.Props.C03_get_absent_partial",
    "Pymt.Props.C03_sound",
    "Pymt.Props.C03_false"
   ],
   "note": "The code returns the value of a longer key for some absent keys (C03_false); proved when no present key properly extends the key, and in secure mode."
  },
  {
   "property": "C04",
   "status": "proved",
   "theorems": [
    "Pymt.Props.C04_delete_absent",
    "Pymt.Props.C04_all"
   ],
   "note": "C04_all covers histories with empty values anywhere."
  },
  {
   "property": "C05",
   "status": "proved",
   "theorems": [
    "Pymt.Props.C05_update_total",
    "Pymt.Props.C05_delete_total",
    "Pymt.Props.C05_all",
    "Pymt.Props.C04_all"
   ],
   "note": "C05_all and C04_all cover histories with empty values anywhere."
  },
  {
   "property": "C06",
   "status": "proved",
   "theorems": [
    "Pymt.Props.C06_root",
    "Pymt.Props.C06_answers"
   ],
   "note": ""
  },
  {
   "property": "C07",
   "status": "proved",
   "theorems": [
    "Pymt.Props.C07_commit"
   ],
   "note": ""
  },
  {
   "property": "C08",
   "status": "proved",
   "theorems": [
    "Pymt.Props.C08_undo"
   ],
   "note": ""
  },
  {
   "property": "C09",
   "status": "proved",
   "theorems": [
    "Pymt.Props.C09_emptied",
    "Pymt.Props.C09_continue",
    "Pymt.Props.C09_all"
   ],
   "note": "C09_all covers histories with empty values anywhere."
  },
  {
   "property": "C10",
   "status": "proved",
   "theorems": [
    "Pymt.Props.C10_old_roots",
    "Pymt.Props.C10_fork",
    "Pymt.Props.C10_all",
    "Pymt.Props.C10_fork_all"
   ],
   "note": "C10_all and C10_fork_all cover histories with empty values anywhere."
  },
  {
   "property": "C100",
   "status": "partial",
   "theorems": [
    "Pymt.Props.C100_made_partial",
    "Pymt.Props.C100_lookup_partial",
    "Pymt.Props.C100_empt_partial",
    "Pymt.Props.C100_client_partial",
    "Pymt.Props.C100_false"
   ],
   "note": "False as stated: a leaf with any value may be added at the end of a proof, which stays accepted. Proved: the last node of a proof as the trie made it has the value (for an EMPT: the reference that decodes to key and value); and a client that builds a trie from the nodes of any proof and the root it knows gets the value or KeyError from get, the value if the proof is accepted and its nodes are encoded as the trie encodes them."
  },
  {
   "property": "C101",
   "status": "partial",
   "theorems": [
    "Pymt.Props.C101_trie_partial",
    "Pymt.Props.C101_empt_partial",
    "Pymt.Props.C101_false"
   ],
   "note": "False as stated: if two or more keys are present and the hashes of all of them begin with some nibbles with which that of the absent key does not begin, the proof is made and rejected. Proved: it is accepted in all other cases and rejected in this one, for keys of one length with values of 30 bytes or more, and for EMPTs in secure mode whose references have hashes of at least 2^176 (all but one in 2^80), with the same verdict from sparse and root copies."
  },
  {
   "property": "C102",
   "status": "proved",
   "theorems": [
    "Pymt.Props.C102_made",
    "Pymt.Props.C102_sound",
    "Pymt.Props.C102_same"
   ],
   "note": "The light client (Spec/Standard.lean) is written after go-ethereum's VerifyProof. Assumes no collisions among the hashed nodes and the nodes of the proof."
  },
  {
   "property": "C103",
   "status": "partial",
   "theorems": [
    "Pymt.Props.C103_exact_partial",
    "Pymt.Props.C103_false"
   ],
   "note": "False as stated: where present keys run together and the absent key leaves them, the node is not in the proof. Proved exactly when the client is convinced, by the place where the absent key leaves the present ones; it is never convinced of something false (C102_sound)."
  },
  {
   "property": "C104",
   "status": "partial",
   "theorems": [
    "Pymt.Props.C104_updates_partial",
    "Pymt.Props.C104_proofs_partial",
    "Pymt.Props.C104_false"
   ],
   "note": "False for deletes: deleting a key may need the node of a neighbour, which the proof does not list (KeyError, C68). Proved for all sequences of updates: all succeed, the root is that of the trie, and contains, get and the proof methods keep giving the answers of the trie for these keys; it is enough that contains does not raise KeyError for these keys at the start."
  },
  {
   "property": "C105",
   "status": "proved",
   "theorems": [
    "Pymt.Props.C105",
    "Pymt.Props.C105_needed"
   ],
   "note": "For histories without colliding stored nodes. Keys kept are those of a present value in the sense of C63: keys with empty values are treated as the code does. Hex digits are those of the hashed key in secure mode."
  },
  {
   "property": "C106",
   "status": "partial",
   "theorems": [
    "Pymt.Props.C106_exact_partial",
    "Pymt.Props.C106_calls_partial",
    "Pymt.Props.C106_own_partial",
    "Pymt.Props.C106_value_partial",
    "Pymt.Props.C106_repair_partial",
    "Pymt.Props.C106_damage",
    "Pymt.Props.C106_false"
   ],
   "note": "False as stated: the data storage has one value per key, so an object raises InvalidReferenceError or KeyError for a key another object has changed or deleted. Proved: the exact answer of every call on every object, from an abstract view of what is in the data storage and in each object; keys named only by the calls that made the object are read as if the storages were its own; a value that is read is always the one last given in these calls, unless hashes collide. Assumes keys that do not begin with one another, or secure mode; without this a failing delete can remove the value of another object (C106_damage)."
  },
  {
   "property": "C107",
   "status": "proved",
   "theorems": [
    "Pymt.Props.C107_history",
    "Pymt.Props.C107_query",
    "Pymt.Props.C107_items",
    "Pymt.Props.C107_needed"
   ],
   "note": "Keys short enough and no hash collisions among the nodes written; in C107_needed the root is not that of a new trie."
  },
  {
   "property": "C108",
   "status": "proved",
   "theorems": [
    "Pymt.Props.C108",
    "Pymt.Props.C108_needed"
   ],
   "note": "Values of the calls are byte strings (SparseEMPT.update raises for objects, C32); no hash collisions among the nodes written and received, and in secure mode among the keys. Which exception a failing delete raises can differ between the two classes."
  },
  {
   "property": "C109",
   "status": "proved",
   "theorems": [
    "Pymt.Props.C109_state",
    "Pymt.Props.C109_outcomes",
    "Pymt.Props.C109_order",
    "Pymt.Props.C109_reads",
    "Pymt.Props.C109_mapping",
    "Pymt.Props.C109_watch",
    "Pymt.Props.C109_value",
    "Pymt.Props.C109_untouched",
    "Pymt.Props.C109_needed"
   ],
   "note": "C109_state, C109_outcomes and C109_reads need no assumption at all about hashes, keys or values; C109_mapping, C109_value and C109_untouched assume no hash collisions and short keys. C109_needed: without taking turns the object can be that of no order of the calls."
  },
  {
   "property": "C11",
   "status": "proved",
   "theorems": [
    "Pymt.Props.C11_shared",
    "Pymt.Props.C11_all"
   ],
   "note": "C11_all covers histories with empty values anywhere."
  },
  {
   "property": "C110",
   "status": "proved",
   "theorems": [
    "Pymt.Props.C110",
    "Pymt.Props.C110_early"
   ],
   "note": "Assumes short keys and no hash collisions among the nodes written. The root is assigned last, so a call that is ended before has only added nodes."
  },
  {
   "property": "C111",
   "status": "partial",
   "theorems": [
    "Pymt.Props.C111_false",
    "Pymt.Props.C111_intact_partial",
    "Pymt.Props.C111_moment",
    "Pymt.Props.C111_update_partial",
    "Pymt.Props.C111_delete_partial",
    "Pymt.Props.C111_repair"
   ],
   "note": "False: EMPT.update assigns the root of the trie before it writes the data, and EMPT.delete removes the data before it changes the trie. True for all keys that no call ended half way names (C111_intact_partial); what is left of the others is stated exactly: contains is True, get raises KeyError or InvalidReferenceError, delete raises KeyError where there is no data; writing the key again repairs it (C111_repair). An update is vulnerable at one moment only (C111_moment)."
  },
  {
   "property": "C112",
   "status": "proved",
   "theorems": [
    "Pymt.Props.C112",
    "Pymt.Props.C112_proofs",
    "Pymt.Props.C112_faithful",
    "Pymt.Props.C112_empt"
   ],
   "note": "C112 and C112_proofs assume short keys and no hash collisions among the nodes written; C112_faithful and C112_empt assume nothing. len(trie) needs keys() as well and encode needs values(), contrary to the docstring; these two are not part of the property."
  },
  {
   "property": "C113",
   "status": "partial",
   "theorems": [
    "Pymt.Props.C113_root_partial",
    "Pymt.Props.C113_contents",
    "Pymt.Props.C113_dict",
    "Pymt.Props.C113_checked",
    "Pymt.Props.C113_objects",
    "Pymt.Props.C113_false"
   ],
   "note": "False as stated: the secure flag counts for the root hash but not for ==, and objects are compared by identity while the root hash depends on their encoding only. Proved: the comparison returns and tells exactly whether the contents are the same; with the same flag and byte strings as values this is the same as equal root hashes (no collisions); no value is compared that get has not checked. Objects are taken to have no __eq__ of their own."
  },
  {
   "property": "C114",
   "status": "proved",
   "theorems": [
    "Pymt.Props.C114_replace",
    "Pymt.Props.C114_items",
    "Pymt.Props.C114_resize",
    "Pymt.Props.C114_delete"
   ],
   "note": "Keys short enough and no hash collisions among the nodes written. A body that removes one key and adds another in the same step is not modelled."
  },
  {
   "property": "C115",
   "status": "partial",
   "theorems": [
    "Pymt.Props.C115_secure_partial",
    "Pymt.Props.C115_refused_partial",
    "Pymt.Props.C115_answers_partial",
    "Pymt.Props.C115_bytearray",
    "Pymt.Props.C115_empt",
    "Pymt.Props.C115_sparse",
    "Pymt.Props.C115_empty",
    "Pymt.Props.C115_false"
   ],
   "note": "False as stated in plain mode: contains may answer False, get may raise AttributeError, delete LeafPathError or ExtensionPathError, and the empty str is written as the key b\"\". Proved: in secure mode the property holds; in plain mode a key that cannot be read is never found and never written, update always raises TypeError, and the other answers are listed. A bytearray key is found but no proof is made for it. EMPT and SparseEMPT refuse all keys that are not bytes in every method that takes a key; that part follows from the check at the head of each method. That keys which are bytearray read as bytes is how the model is defined, not a theorem."
  },
  {
   "property": "C116",
   "status": "partial",
   "theorems": [
    "Pymt.Props.C116_poi_partial",
    "Pymt.Props.C116_harmless_partial",
    "Pymt.Props.C116_poe_partial",
    "Pymt.Props.C116_present_partial",
    "Pymt.Props.C116_undisturbed_partial",
    "Pymt.Props.C116_false"
   ],
   "note": "False as stated: two threads write, the second overwrites the work of the first, and a proof asked for meanwhile has the nodes of one trie and the root of the other. Proved for any number of writers: the three possible outcomes of a proof of inclusion, the outcomes of a proof of exclusion and that every trie gives it the verdict of the proof of the moment, that mixed proofs of inclusion are accepted by no trie (no collision between the nodes of the proof and the nodes written), what the verdict True says, and that nothing goes wrong while the root stays the same."
  },
  {
   "property": "C117",
   "status": "partial",
   "theorems": [
    "Pymt.Props.C117_never_wrong_partial",
    "Pymt.Props.C117_whole_partial",
    "Pymt.Props.C117_torn",
    "Pymt.Props.C117_false"
   ],
   "note": "False as stated: the root may be read after another thread has set it. Proved for any number of writers: RuntimeError, or TypeError when the trie was empty at some moment, or bytes that decode to a trie with the root of some moment, whose answers are those of that moment or KeyError; and if the root is read in time the decoded trie gives all answers of that moment. Encodings of less than 2^64 bytes."
  },
  {
   "property": "C118",
   "status": "partial",
   "theorems": [
    "Pymt.Props.C118_poi_partial",
    "Pymt.Props.C118_harmless_partial",
    "Pymt.Props.C118_poe_partial",
    "Pymt.Props.C118_present_partial",
    "Pymt.Props.C118_undisturbed_partial",
    "Pymt.Props.C118_sparse_partial",
    "Pymt.Props.C118_whole_partial",
    "Pymt.Props.C118_false"
   ],
   "note": "False as stated, like C116 and C97. Proved for any number of threads that write to the EMPT: the possible outcomes of both kinds of proofs, that mixed proofs of inclusion are accepted by no trie (no collision between the nodes of the proof and the nodes written), what the verdict True says, that nothing goes wrong while the root stays the same, that sparse copies never give wrong answers, and when they are whole."
  },
  {
   "property": "C119",
   "status": "partial",
   "theorems": [
    "Pymt.Props.C119_inclusion_partial",
    "Pymt.Props.C119_exclusion_partial",
    "Pymt.Props.C119_made_partial",
    "Pymt.Props.C119_small_partial",
    "Pymt.Props.C119_makes_partial",
    "Pymt.Props.C119_false"
   ],
   "note": "False as stated: an object made of the root hash of a trie with the single entry 12 -> null accepts the root node as a proof that 12 is absent, where the trie raises PoeError; and it accepts no inclusion proof of a trie with a short root node (C119_small_partial). Proved: everything else it accepts, the trie accepts, for every history and proof; inclusion proofs made by the trie get the same verdict if root() has 32 bytes; what proofs a received object makes. No collisions between the nodes written, the two roots and the nodes of the proof."
  },
  {
   "property": "C12",
   "status": "proved",
   "theorems": [
    "Pymt.Props.C12_crash",
    "Pymt.Props.C12_all"
   ],
   "note": "C12_all covers histories with empty values anywhere."
  },
  {
   "property": "C120",
   "status": "proved",
   "theorems": [
    "Pymt.Props.C120",
    "Pymt.Props.C120_two"
   ],
   "note": "For every history, dict of nodes under their hashes (32 bytes or more, as tries write them) and series of calls; C120_two for the dict of a second trie. No collisions among the nodes of both."
  },
  {
   "property": "C121",
   "status": "partial",
   "theorems": [
    "Pymt.Props.C121_exact_partial",
    "Pymt.Props.C121_two_partial",
    "Pymt.Props.C121_false"
   ],
   "note": "False as stated: one value per key in the data storage. Proved: exactly what get returns for every key of the EMPT, for any data storage and any further nodes; both directions for two EMPTs. No collisions among the nodes of both; collisions of references are part of the statement."
  },
  {
   "property": "C122",
   "status": "proved",
   "theorems": [
    "Pymt.Props.C122",
    "Pymt.Props.C122_update",
    "Pymt.Props.C122_get",
    "Pymt.Props.C122_rest"
   ],
   "note": "For every function from object, EMPT and user state to calls, outcome and new user state. Calls of encode_rlp() inside encode_rlp() are listed in the order they take effect."
  },
  {
   "property": "C123",
   "status": "partial",
   "theorems": [
    "Pymt.Props.C123_raises_partial",
    "Pymt.Props.C123_swallowed",
    "Pymt.Props.C123_false"
   ],
   "note": "False as stated: KeyError of encode_rlp() is swallowed by methods inherited from MutableMapping. Proved: exactly what happens for KeyError and for every other exception."
  },
  {
   "property": "C124",
   "status": "proved",
   "theorems": [
    "Pymt.Props.C124",
    "Pymt.Props.C124_anybody",
    "Pymt.Props.C124_made"
   ],
   "note": "Calls as programs that touch the storage one access at a time (Model/Threads). Hash assumption: no collision among the nodes of the trie and of the storage, and no answer that is a second preimage of one of them."
  },
  {
   "property": "C125",
   "status": "proved",
   "theorems": [
    "Pymt.Props.C125",
    "Pymt.Props.C125_proofs",
    "Pymt.Props.C125_secure"
   ],
   "note": "Reads are counted in the programs of Model/Threads and Model/ThreadProofs."
  },
  {
   "property": "C126",
   "status": "proved",
   "theorems": [
    "Pymt.Props.C126",
    "Pymt.Props.C126_all",
    "Pymt.Props.C126_secure"
   ],
   "note": "Bytes of the entries of the proof; the fields of the Proof object around them (type, time stamp, key, root) are not counted."
  },
  {
   "property": "C127",
   "status": "partial",
   "theorems": [
    "Pymt.Props.C127_false",
    "Pymt.Props.C127_shows",
    "Pymt.Props.C127_sizes_partial",
    "Pymt.Props.C127_stays"
   ],
   "note": "False as documented: there is no bound on references independent of the data (C127_false). Instead: the data can be read from a SparseEMPT and is in the last entry of every proof of inclusion (C127_shows), proofs are bounded by the lengths of keys and data (C127_sizes_partial), and data of 32 bytes or more stays in the trie storage for good (C127_stays)."
  },
  {
   "property": "C128",
   "status": "proved",
   "theorems": [
    "Pymt.Props.C128",
    "Pymt.Props.C128_proofs",
    "Pymt.Props.C128_foreign"
   ],
   "note": "The stack that pyrlp needs is put in as a bound on the nesting of what is decoded (Spec/Depth). All other theorems decode without this bound, which for own nodes is no difference (C128, C128_proofs); where they speak of bytes from others (C66, C70), entries nested more deeply than the stack allows end with RecursionError instead."
  },
  {
   "property": "C129",
   "status": "partial",
   "theorems": [
    "Pymt.Props.C129_false",
    "Pymt.Props.C129_write_false",
    "Pymt.Props.C129_read_false",
    "Pymt.Props.C129_calm_partial",
    "Pymt.Props.C129_own_partial"
   ],
   "note": "False as stated (C129_false): removals while update runs lose its value for good (C129_write_false), removals while another thread's trie is read make that read raise KeyError (C129_read_false). C129_calm_partial: with removals only while no update or delete and no read of another thread's trie runs, threads, answers and roots are exactly those without removals; so C86 carries over (C129_own_partial)."
  },
  {
   "property": "C13",
   "status": "proved",
   "theorems": [
    "Pymt.Props.C13_append_only"
   ],
   "note": ""
  },
  {
   "property": "C130",
   "status": "proved",
   "theorems": [
    "Pymt.Props.C130",
    "Pymt.Props.C130_grows",
    "Pymt.Props.C130_empties"
   ],
   "note": "C130 bounds the number of entries, the size of each and their total, for every history that meets the conditions of C01; the bound on the number is reached. C130_grows: without removals one key is enough for any number of entries. C130_empties: the bound does not hold after an empty value was written at a key that is the start of another (C25)."
  },
  {
   "property": "C131",
   "status": "partial",
   "theorems": [
    "Pymt.Props.C131_false",
    "Pymt.Props.C131_shows",
    "Pymt.Props.C131_sparse",
    "Pymt.Props.C131_cleaned_partial"
   ],
   "note": "False as stated (C131_false). C131_shows: values of 32 bytes or more stay in the storage and in encode() for good; C131_sparse: the same, with the keys, for sparse copies of an EMPT. C131_cleaned_partial: after everything unreachable is removed, two histories with the same contents leave the same entries."
  },
  {
   "property": "C132",
   "status": "partial",
   "theorems": [
    "Pymt.Props.C132_false",
    "Pymt.Props.C132_atleast_partial",
    "Pymt.Props.C132_trimmed_partial",
    "Pymt.Props.C132_grows",
    "Pymt.Props.C132_zero"
   ],
   "note": "False as stated (C132_false, and an example for the other direction). C132_atleast_partial: len counts at least the nodes with a hash; C132_trimmed_partial: exactly those once nothing unused is in the storage; C132_grows: len never decreases; C132_zero: tries with one short key and value have len 0."
  },
  {
   "property": "C133",
   "status": "partial",
   "theorems": [
    "Pymt.Props.C133_false",
    "Pymt.Props.C133_long_partial",
    "Pymt.Props.C133_secure_partial",
    "Pymt.Props.C133_empt_partial",
    "Pymt.Props.C133_prefix",
    "Pymt.Props.C133_exact",
    "Pymt.Props.C133_excl",
    "Pymt.Props.C133_single"
   ],
   "note": "False as stated (C133_false, and an example with short values of unrelated keys). C133_exact says exactly which values can be read in a proof of inclusion; C133_long_partial, C133_secure_partial and C133_empt_partial: when nothing else can be read; C133_prefix: values of keys with which the key begins always can; C133_excl and C133_single: proofs of exclusion. Reading means decoding entries and the nodes embedded in them; guessing values from hashes is not modelled."
  },
  {
   "property": "C134",
   "status": "partial",
   "theorems": [
    "Pymt.Props.C134_false",
    "Pymt.Props.C134_partial",
    "Pymt.Props.C134_near_partial"
   ],
   "note": "False as stated (C134_false: get raises ValueError on an emptied trie and KeyError on a new one). C134_partial: all outcomes are the same if the tries have a key or the same root(). C134_near_partial: for all tries with the same contents the only differences are root() and the exception of get while empty. len, encode and the storage do show the past (C131, C132)."
  },
  {
   "property": "C135",
   "status": "proved",
   "theorems": [
    "Pymt.Props.C135_order",
    "Pymt.Props.C135_items",
    "Pymt.Props.C135_popitem"
   ],
   "note": "AddedAt says when a key was added, in terms of the contents after every call only. For dicts as storages."
  },
  {
   "property": "C136",
   "status": "partial",
   "theorems": [
    "Pymt.Props.C136_false",
    "Pymt.Props.C136_ordered_partial",
    "Pymt.Props.C136_unordered_partial"
   ],
   "note": "False as stated (C136_false: iteration shows the order in which keys were added). C136_ordered_partial: with the same order of keys all outcomes are the same. C136_unordered_partial: with any order, those of calls that do not go through the keys. Both for EMPTs with a key or with the same root(). get_sparse_trie and build_trie work on the stored nodes and show the past (C131); left out."
  },
  {
   "property": "C137",
   "status": "partial",
   "theorems": [
    "Pymt.Props.C137_false",
    "Pymt.Props.C137_stays",
    "Pymt.Props.C137_raises",
    "Pymt.Props.C137_ready_partial",
    "Pymt.Props.C137_made_partial",
    "Pymt.Props.C137_lock_partial"
   ],
   "note": "False as stated (C137_false; C137_stays: the wrong root stays after all calls have ended; C137_raises: ValueError). C137_ready_partial, C137_made_partial: a tree that is made, and threads that only ask. C137_lock_partial: calls under one lock. reset_tree is left out."
  },
  {
   "property": "C138",
   "status": "partial",
   "theorems": [
    "Pymt.Props.C138_false",
    "Pymt.Props.C138_builder_partial",
    "Pymt.Props.C138_quiet_partial"
   ],
   "note": "False as stated (C138_false). C138_builder_partial: the root is that of the leaves of a moment, or of these with a later leaf in the place of the last one, if their number is odd. One thread asks for the root, once; the others call put, get and get_count."
  },
  {
   "property": "C139",
   "status": "proved",
   "theorems": [
    "Pymt.Props.C139",
    "Pymt.Props.C139_leaves"
   ],
   "note": "The model has one access to the list per call; atomicity of list.append is assumed (CPython)."
  },
  {
   "property": "C14",
   "status": "proved",
   "theorems": [
    "Pymt.Props.C14_no_dangling"
   ],
   "note": ""
  },
  {
   "property": "C140",
   "status": "proved",
   "theorems": [
    "Pymt.Props.C140",
    "Pymt.Props.C140_root"
   ],
   "note": "C140_root: the root does not change while others put values in. The order respects real time (InTime). C137 and C138 say what happens when the tree is not made."
  },
  {
   "property": "C141",
   "status": "partial",
   "theorems": [
    "Pymt.Props.C141_false",
    "Pymt.Props.C141_verify",
    "Pymt.Props.C141_partial",
    "Pymt.Props.C141_reset",
    "Pymt.Props.C141_asks_partial",
    "Pymt.Props.C141_fresh_partial"
   ],
   "note": "False as stated (C141_false: get_merkle_root; C141_verify: verify_proof_of_inclusion). C141_partial: the values, and how many there were when the tree was last made, determine all answers. C141_reset, C141_asks_partial, C141_fresh_partial: consequences."
  },
  {
   "property": "C142",
   "status": "partial",
   "theorems": [
    "Pymt.Props.C142_false",
    "Pymt.Props.C142_partial",
    "Pymt.Props.C142_unmade_partial",
    "Pymt.Props.C142_many"
   ],
   "note": "False as stated (C142_false). C142_partial: a third case, a tree that has to be made again. C142_unmade_partial: C142 for trees not made. C142_many: any number of calls ended early. Exceptions come between accesses to the object; one that the bare except in verify_proof_of_inclusion of MerkleTools catches is left out."
  },
  {
   "property": "C143",
   "status": "partial",
   "theorems": [
    "Pymt.Props.C143_false",
    "Pymt.Props.C143_ghost",
    "Pymt.Props.C143_unmade_partial",
    "Pymt.Props.C143_again_partial",
    "Pymt.Props.C143_make_partial"
   ],
   "note": "False as stated (C143_false; C143_ghost: the root of leaves that are gone). C143_unmade_partial: trees that were not made. C143_again_partial, C143_make_partial: how such a tree is repaired."
  },
  {
   "property": "C144",
   "status": "proved",
   "theorems": [
    "Pymt.Props.C144",
    "Pymt.Props.C144_unreset",
    "Pymt.Props.C144_made"
   ],
   "note": "In a model with the lists as objects, in which reading self.leaves and using the list are two accesses. C144_unreset: without reset_tree, this model gives nothing that the one of C137 to C140 does not; C144_made: so C140 holds in it."
  },
  {
   "property": "C145",
   "status": "partial",
   "theorems": [
    "Pymt.Props.C145_false",
    "Pymt.Props.C145_stays",
    "Pymt.Props.C145_raises",
    "Pymt.Props.C145_lock_partial",
    "Pymt.Props.C145_reset_partial",
    "Pymt.Props.C145_make_partial"
   ],
   "note": "False as stated (C145_false; C145_stays: the state it is left in, and proofs; C145_raises: TypeError). C145_lock_partial: all calls, reset_tree included, under one lock. C145_reset_partial, C145_make_partial: a tree in which threads have made any calls is repaired by reset_tree, or by make_tree when it has leaves."
  },
  {
   "property": "C146",
   "status": "partial",
   "theorems": [
    "Pymt.Props.C146_false",
    "Pymt.Props.C146_outcomes",
    "Pymt.Props.C146_partial",
    "Pymt.Props.C146_hashes_partial",
    "Pymt.Props.C146_len_partial",
    "Pymt.Props.C146_iter_false",
    "Pymt.Props.C146_build_false"
   ],
   "note": "False as stated (C146_false; C146_outcomes: a key that is present seems to be absent). C146_partial: keys that do not have 32 bytes, nothing else assumed; C146_hashes_partial: keys that are not hashes of nodes, for keys that fit the mode and hashes without collision. C146_len_partial: len counts the nodes too; C146_iter_false, C146_build_false: iteration and build_trie differ."
  },
  {
   "property": "C147",
   "status": "partial",
   "theorems": [
    "Pymt.Props.C147_false",
    "Pymt.Props.C147_partial",
    "Pymt.Props.C147_cases",
    "Pymt.Props.C147_unchanged_partial",
    "Pymt.Props.C147_again"
   ],
   "note": "False as stated (C147_false). C147_partial and C147_cases: what put_list does with every list; C147_unchanged_partial: when nothing changes; C147_again: a second call with the corrected list, and the root it leads to."
  },
  {
   "property": "C148",
   "status": "partial",
   "theorems": [
    "Pymt.Props.C148_false",
    "Pymt.Props.C148_plain",
    "Pymt.Props.C148_stamp",
    "Pymt.Props.C148_naive",
    "Pymt.Props.C148_partial"
   ],
   "note": "False as stated (C148_false). C148_plain: without Django, for every text; C148_naive: Django without USE_TZ, at every moment; C148_partial: with USE_TZ it holds at every moment. strftime and strptime are modelled for this format (offsets: only UTC)."
  },
  {
   "property": "C149",
   "status": "proved",
   "theorems": [
    "Pymt.Props.C149"
   ],
   "note": "In every setup. The clock itself may go back; without USE_TZ it shows local time."
  },
  {
   "property": "C15",
   "status": "partial",
   "theorems": [
    "Pymt.Props.C15_codec_partial",
    "Pymt.Props.C15_false"
   ],
   "note": "encode of a trie whose last key was deleted raises TypeError (C15_false); proved for every other trie."
  },
  {
   "property": "C150",
   "status": "partial",
   "theorems": [
    "Pymt.Props.C150_false",
    "Pymt.Props.C150_misses",
    "Pymt.Props.C150_raises",
    "Pymt.Props.C150_order",
    "Pymt.Props.C150_partial",
    "Pymt.Props.C150_lock_partial"
   ],
   "note": "False as stated (C150_false; C150_misses, C150_raises, C150_order: what can happen). C150_partial: in any interleaving a loop gets only items of the proof, and IndexError is the only exception. C150_lock_partial: loops under one lock, also after loops that were left unfinished."
  },
  {
   "property": "C151",
   "status": "proved",
   "theorems": [
    "Pymt.Props.C151_mpt",
    "Pymt.Props.C151_empt",
    "Pymt.Props.C151_merkle",
    "Pymt.Props.C151_own",
    "Pymt.Props.C151_value",
    "Pymt.Props.C151_order"
   ],
   "note": "C151_mpt, C151_empt, C151_merkle: same storage, outcomes and calls in progress as with lists of calls. C151_own, C151_value, C151_order: C86, C96 and C144 for such threads."
  },
  {
   "property": "C152",
   "status": "proved",
   "theorems": [
    "Pymt.Props.C152"
   ],
   "note": "Outcomes noted so far are a prefix of those of the program alone, and all of them with the same root when it has ended. Hypotheses only about what the programs would do alone (Private)."
  },
  {
   "property": "C153",
   "status": "proved",
   "theorems": [
    "Pymt.Props.C153_sparse",
    "Pymt.Props.C153_empt"
   ],
   "note": "C153_sparse: SparseEMPT objects. C153_empt: EMPT objects with a data storage each; all made before the first call (C33)."
  },
  {
   "property": "C154",
   "status": "proved",
   "theorems": [
    "Pymt.Props.C154_state",
    "Pymt.Props.C154_update",
    "Pymt.Props.C154_outcome",
    "Pymt.Props.C154_value",
    "Pymt.Props.C154_listed"
   ],
   "note": "C154_state, C154_update, C154_outcome: MPT, short keys, no collision among the nodes that may be written. C154_value, C154_listed: EMPT, no hypotheses. Exceptions arrive between accesses."
  },
  {
   "property": "C155",
   "status": "proved",
   "theorems": [
    "Pymt.Props.C155_order",
    "Pymt.Props.C155_kept"
   ],
   "note": "C155_order: the trie reads as after an order of calls with all that returned. C155_kept: a value stored under a key no other call changes is there."
  },
  {
   "property": "C156",
   "status": "partial",
   "theorems": [
    "Pymt.Props.C156_false",
    "Pymt.Props.C156_lost",
    "Pymt.Props.C156_partial",
    "Pymt.Props.C156_whole_partial",
    "Pymt.Props.C156_string_partial",
    "Pymt.Props.C156_readable_partial",
    "Pymt.Props.C156_made_partial"
   ],
   "note": "False: the nickname setter takes any object; json.dump raises TypeError after the file was emptied (C156_lost). C156_partial: other files are as before, the file holds a beginning of the new text. C156_whole_partial: with a string as nickname and nothing from outside the file is written whole and read back."
  },
  {
   "property": "C157",
   "status": "partial",
   "theorems": [
    "Pymt.Props.C157_false",
    "Pymt.Props.C157_partial",
    "Pymt.Props.C157_changed"
   ],
   "note": "False: nickname and public_key are not protected, and public_key is never looked at (C157_changed). C157_partial: the key is the one in private_key, opened with the passphrase."
  },
  {
   "property": "C158",
   "status": "proved",
   "theorems": [
    "Pymt.Props.C158_secret",
    "Pymt.Props.C158_str",
    "Pymt.Props.C158_repr"
   ],
   "note": "Nicknames are strings."
  },
  {
   "property": "C159",
   "status": "partial",
   "theorems": [
    "Pymt.Props.C159_false",
    "Pymt.Props.C159_trie_partial",
    "Pymt.Props.C159_apart_partial",
    "Pymt.Props.C159_merkle_partial"
   ],
   "note": "False for MerkleTree, which never looks at the type (C159_merkle_partial). Tries raise TypeError for another type."
  },
  {
   "property": "C16",
   "status": "proved",
   "theorems": [
    "Pymt.Props.C16_secure",
    "Pymt.Props.C16_secure_total"
   ],
   "note": ""
  },
  {
   "property": "C160",
   "status": "proved",
   "theorems": [
    "Pymt.Props.C160_repr",
    "Pymt.Props.C160_eq",
    "Pymt.Props.C160_printable"
   ],
   "note": "C160_eq unless keccak-256 collides on the two texts that == hashes."
  },
  {
   "property": "C161",
   "status": "partial",
   "theorems": [
    "Pymt.Props.C161_false",
    "Pymt.Props.C161_partial",
    "Pymt.Props.C161_cases_partial"
   ],
   "note": "False: every tree that was not made prints 'Tree not ready'. C161_partial: a tree that was made and has leaves is told from all others by its text."
  },
  {
   "property": "C162",
   "status": "partial",
   "theorems": [
    "Pymt.Props.C162_false",
    "Pymt.Props.C162_raises_partial",
    "Pymt.Props.C162_empty_partial"
   ],
   "note": "False: MPT has no __iter__, so Python asks for trie[0]; that raises TypeError (KeyError for a new trie, ValueError for an emptied one)."
  },
  {
   "property": "C163",
   "status": "partial",
   "theorems": [
    "Pymt.Props.C163_false",
    "Pymt.Props.C163_steal",
    "Pymt.Props.C163_partial"
   ],
   "note": "False for every library: the ciphertext is signed, the sender is not in the plaintext. Anyone can replace the signature by their own without knowing the message (C163_steal). C163_partial: with the signature left in place the sender is a, if it is valid with no other key."
  },
  {
   "property": "C164",
   "status": "partial",
   "theorems": [
    "Pymt.Props.C164_false",
    "Pymt.Props.C164_forward",
    "Pymt.Props.C164_partial"
   ],
   "note": "False for every library: b can encrypt the session key for c and leave the rest as it is; c takes it for a message of a to c (C164_forward). C164_partial: the text as a has made it is read only with a key that opens the session key."
  },
  {
   "property": "C165",
   "status": "partial",
   "theorems": [
    "Pymt.Props.C165_false",
    "Pymt.Props.C165_raises_partial",
    "Pymt.Props.C165_repr_partial",
    "Pymt.Props.C165_str_partial"
   ],
   "note": "False: str leaves out the offset (C165_false), and paths made by common_prefix and combine raise AttributeError (C165_raises_partial). repr tells data and offset of every path that can be printed (C165_repr_partial)."
  },
  {
   "property": "C166",
   "status": "partial",
   "theorems": [
    "Pymt.Props.C166_false",
    "Pymt.Props.C166_partial",
    "Pymt.Props.C166_negative_partial",
    "Pymt.Props.C166_same_partial"
   ],
   "note": "False for negative offsets: the path gets longer, the last nibbles come first (C166_negative_partial). Proved for the others (C166_partial); those are the paths of the model of the tries (C166_same_partial)."
  },
  {
   "property": "C167",
   "status": "partial",
   "theorems": [
    "Pymt.Props.C167_false",
    "Pymt.Props.C167_partial",
    "Pymt.Props.C167_back_partial"
   ],
   "note": "False: consume changes the path and returns it. C167_partial says what the path is afterwards, and that no other path changes."
  },
  {
   "property": "C168",
   "status": "partial",
   "theorems": [
    "Pymt.Props.C168_false",
    "Pymt.Props.C168_lost",
    "Pymt.Props.C168_partial"
   ],
   "note": "False: a value that another thread stores under the same key in its own object makes get raise InvalidReferenceError (C168_lost). Proved when no key is used by two threads, apart from contains (C168_partial)."
  },
  {
   "property": "C169",
   "status": "proved",
   "theorems": [
    "Pymt.Props.C169"
   ],
   "note": "Assumes that keys are short enough and, in one thread, none begins with another one unless hashed, that values are shorter than 2^60, and that no two nodes collide (PoolPeace)."
  },
  {
   "property": "C17",
   "status": "proved",
   "theorems": [
    "Pymt.Props.C17_yellow_paper",
    "Pymt.Props.C17_pairs"
   ],
   "note": ""
  },
  {
   "property": "C170",
   "status": "proved",
   "theorems": [
    "Pymt.Props.C170"
   ],
   "note": "Same assumptions as C169. The data storage is not claimed to be in step with the trie after an ended call: get and delete may raise KeyError, get InvalidReferenceError, as in C169."
  },
  {
   "property": "C171",
   "status": "partial",
   "theorems": [
    "Pymt.Props.C171_false",
    "Pymt.Props.C171_sha3",
    "Pymt.Props.C171_partial"
   ],
   "note": "False: \"sha3\" raises. Proved: exactly nine names are accepted, up to the case of letters, and what the new object is then."
  },
  {
   "property": "C172",
   "status": "partial",
   "theorems": [
    "Pymt.Props.C172_false",
    "Pymt.Props.C172_single",
    "Pymt.Props.C172_roots",
    "Pymt.Props.C172_partial",
    "Pymt.Props.C172_apart_partial"
   ],
   "note": "False for a single value with secure=False, whose root is the value itself. Proved for digests of different lengths when each tree has two values or hashes them (then == can be True only if the longer root begins with that many zero bytes); and for any two functions of which no digest of a string hashed for the one tree is the digest of a string hashed for the other. In general, acceptance implies equal roots."
  },
  {
   "property": "C173",
   "status": "partial",
   "theorems": [
    "Pymt.Props.C173_false",
    "Pymt.Props.C173_replaced",
    "Pymt.Props.C173_refused",
    "Pymt.Props.C173_state",
    "Pymt.Props.C173_partial",
    "Pymt.Props.C173_messages"
   ],
   "note": "False: generate_keypair replaces the keys of the object. Proved: everything else leaves the public key, signing, checking, encrypting and decrypting as they were, what is refused raises ValueError and changes nothing, and what the object is after any sequence. Nicknames are strings."
  },
  {
   "property": "C18",
   "status": "partial",
   "theorems": [
    "Pymt.Props.C18_exact",
    "Pymt.Props.C18_poi_partial",
    "Pymt.Props.C18_false",
    "Pymt.Props.C18_all"
   ],
   "note": "C18_all is C18_exact for histories with empty values anywhere.  False for tries whose root node is shorter than 32 bytes (C18_false); C18_exact says precisely when the proof is accepted; proved for secure tries and whenever some key and its value have 30 bytes or more."
  },
  {
   "property": "C19",
   "status": "partial",
   "theorems": [
    "Pymt.Props.C19_prefix_partial",
    "Pymt.Props.C19_sound_partial",
    "Pymt.Props.C19_false",
    "Pymt.Props.C19_all_partial"
   ],
   "note": "C19_all_partial is C19_prefix_partial for histories with empty values anywhere.  A proof for a proper prefix of a present key is accepted (C19_false); proved that nothing else false is accepted, so 32-byte targets are safe in secure mode."
  },
  {
   "property": "C20",
   "status": "proved",
   "theorems": [
    "Pymt.Props.C20_stale",
    "Pymt.Props.C20_all"
   ],
   "note": "C20_all covers histories with empty values anywhere."
  },
  {
   "property": "C21",
   "status": "partial",
   "theorems": [
    "Pymt.Props.C21_poe_partial",
    "Pymt.Props.C21_false",
    "Pymt.Props.C21_exact"
   ],
   "note": "False when the search ends at an extension that is the root or short, and in two more cases (C21_false); proved for the four other ways in which a key can be absent. C21_exact says for every absent key what becomes of its proof (not made, accepted, rejected, exception)."
  },
  {
   "property": "C22",
   "status": "partial",
   "theorems": [
    "Pymt.Props.C22_forgery",
    "Pymt.Props.C22_null",
    "Pymt.Props.C22_single_partial",
    "Pymt.Props.C22_exact",
    "Pymt.Props.C22_false"
   ],
   "note": "False for every present key of every trie with two keys or more (C22_forgery) and for a single entry whose value is null and whose leaf has 32 bytes or more (C22_null); proved for all other tries (C22_exact says exactly when some proof is accepted)."
  },
  {
   "property": "C23",
   "status": "proved",
   "theorems": [
    "Pymt.Props.C23_present",
    "Pymt.Props.C23_all"
   ],
   "note": "C23_all covers histories with empty values anywhere."
  },
  {
   "property": "C24",
   "status": "proved",
   "theorems": [
    "Pymt.Props.C24_root_only",
    "Pymt.Props.C24_conversions"
   ],
   "note": ""
  },
  {
   "property": "C25",
   "status": "partial",
   "theorems": [
    "Pymt.Props.C25_empty_partial",
    "Pymt.Props.C25_exact",
    "Pymt.Props.C25_lost",
    "Pymt.Props.C25_false"
   ],
   "note": "An empty value is lost when its key is a proper prefix of another key (C25_false); proved for all other histories and for secure mode.  C25_exact and C25_lost say for every history which pairs survive and what the calls then answer."
  },
  {
   "property": "C26",
   "status": "partial",
   "theorems": [
    "Pymt.Props.C26_same_partial",
    "Pymt.Props.C26_false",
    "Pymt.Props.C26_fresh",
    "Pymt.Props.C26_raises",
    "Pymt.Props.C26_emptied",
    "Pymt.Props.C26_conflate"
   ],
   "note": "False: int() is applied to the raw digest as text. hash(MPT()) and MPT() == t raise ValueError with real keccak-256 (C26_fresh); any digest with a byte outside 33 characters raises (C26_raises); an emptied trie raises TypeError (C26_emptied); and even when nothing raises, different digests can read as the same number (C26_conflate). Kept: when neither hash raises, equal roots compare equal."
  },
  {
   "property": "C27",
   "status": "partial",
   "theorems": [
    "Pymt.Props.C27_mapping_partial",
    "Pymt.Props.C27_update_total",
    "Pymt.Props.C27_false",
    "Pymt.Props.C27_refused"
   ],
   "note": "contains is True for some absent keys (C27_false); everything else holds for all histories, contains for all keys of which no present key is a proper prefix and in secure mode."
  },
  {
   "property": "C28",
   "status": "partial",
   "theorems": [
    "Pymt.Props.C28_tamper_partial",
    "Pymt.Props.C28_glued",
    "Pymt.Props.C28_false"
   ],
   "note": "False for an absent key that is a proper prefix of a present key (C28_false); proved for present keys, for secure mode, and for other absent keys; C28_glued bounds what can go wrong."
  },
  {
   "property": "C29",
   "status": "proved",
   "theorems": [
    "Pymt.Props.C29_delete",
    "Pymt.Props.C29_exception"
   ],
   "note": ""
  },
  {
   "property": "C30",
   "status": "partial",
   "theorems": [
    "Pymt.Props.C30_reference_partial",
    "Pymt.Props.C30_false",
    "Pymt.Props.C30_exact"
   ],
   "note": "An absent key can give the reference of a longer key (C30_false); proved for present keys, and for absent ones in secure mode or without longer keys."
  },
  {
   "property": "C31",
   "status": "partial",
   "theorems": [
    "Pymt.Props.C31_codec",
    "Pymt.Props.C31_checked",
    "Pymt.Props.C31_reject",
    "Pymt.Props.C31_eq_partial",
    "Pymt.Props.C31_false"
   ],
   "note": "Codec proved; == compares key and data glued together, so that different splits are equal (C31_false)."
  },
  {
   "property": "C32",
   "status": "partial",
   "theorems": [
    "Pymt.Props.C32_mirror_partial",
    "Pymt.Props.C32_copy",
    "Pymt.Props.C32_proofs",
    "Pymt.Props.C32_objects",
    "Pymt.Props.C32_false"
   ],
   "note": "SparseEMPT.update raises for every object (C32_false); proved for byte strings; independence of the copy proved; the copy makes the same proofs."
  },
  {
   "property": "C33",
   "status": "partial",
   "theorems": [
    "Pymt.Props.C33_independent_partial",
    "Pymt.Props.C33_second_raises",
    "Pymt.Props.C33_leak",
    "Pymt.Props.C33_false"
   ],
   "note": "Default storages are shared: a second EMPT() raises, or sees the keys of the first; proved for storages of their own."
  },
  {
   "property": "C34",
   "status": "partial",
   "theorems": [
    "Pymt.Props.C34_rebuild_partial",
    "Pymt.Props.C34_raises",
    "Pymt.Props.C34_damage",
    "Pymt.Props.C34_false"
   ],
   "note": "Raises RuntimeError whenever the trie storage has an entry, having deleted one node (C34_raises); proved for an empty trie storage over existing byte-string data."
  },
  {
   "property": "C35",
   "status": "proved",
   "theorems": [
    "Pymt.Props.C35_pop",
    "Pymt.Props.C35_popitem",
    "Pymt.Props.C35_popitem_empty",
    "Pymt.Props.C35_setdefault",
    "Pymt.Props.C35_clear",
    "Pymt.Props.C35_refused",
    "Pymt.Props.C35_cleared"
   ],
   "note": ""
  },
  {
   "property": "C36",
   "status": "proved",
   "theorems": [
    "Pymt.Props.C36_at",
    "Pymt.Props.C36_codec",
    "Pymt.Props.C36_injective",
    "Pymt.Props.C36_operations"
   ],
   "note": ""
  },
  {
   "property": "C37",
   "status": "proved",
   "theorems": [
    "Pymt.Props.C37_codec",
    "Pymt.Props.C37_injective"
   ],
   "note": ""
  },
  {
   "property": "C38",
   "status": "proved",
   "theorems": [
    "Pymt.Props.C38_verifies"
   ],
   "note": ""
  },
  {
   "property": "C39",
   "status": "partial",
   "theorems": [
    "Pymt.Props.C39_hashed_target_partial",
    "Pymt.Props.C39_rejected",
    "Pymt.Props.C39_false"
   ],
   "note": "False in the default mode: every proof is rejected unless the hash collides (C39_rejected). Proved for the proof with target_key replaced by the hash of the value."
  },
  {
   "property": "C40",
   "status": "partial",
   "theorems": [
    "Pymt.Props.C40_root",
    "Pymt.Props.C40_node_partial",
    "Pymt.Props.C40_full_partial",
    "Pymt.Props.C40_forgery",
    "Pymt.Props.C40_split",
    "Pymt.Props.C40_false"
   ],
   "note": "False: the root itself and shifted boundaries are accepted (C40_forgery, C40_split). Proved: accepted proofs name the root of the tree; digest-long keys are nodes at the depth of the proof, leaves in full trees."
  },
  {
   "property": "C41",
   "status": "partial",
   "theorems": [
    "Pymt.Props.C41_made_partial",
    "Pymt.Props.C41_first_partial",
    "Pymt.Props.C41_stale",
    "Pymt.Props.C41_stuck",
    "Pymt.Props.C41_false"
   ],
   "note": "False: values put after a build are ignored (C41_stale). Proved right after make_tree and for trees not yet built."
  },
  {
   "property": "C42",
   "status": "proved",
   "theorems": [
    "Pymt.Props.C42_shape",
    "Pymt.Props.C42_split",
    "Pymt.Props.C42_recursive"
   ],
   "note": ""
  },
  {
   "property": "C43",
   "status": "proved",
   "theorems": [
    "Pymt.Props.C43_binding",
    "Pymt.Props.C43_values",
    "Pymt.Props.C43_confusion"
   ],
   "note": "C43_values also binds the number of leaves when no value is as long as two digests; C43_confusion shows the condition is needed."
  },
  {
   "property": "C44",
   "status": "partial",
   "theorems": [
    "Pymt.Props.C44_rlp_partial",
    "Pymt.Props.C44_json_partial",
    "Pymt.Props.C44_rlp_tuple",
    "Pymt.Props.C44_json_tuple",
    "Pymt.Props.C44_json_key",
    "Pymt.Props.C44_own_proofs",
    "Pymt.Props.C44_mpt",
    "Pymt.Props.C44_false",
    "Pymt.Props.C44_json_false"
   ],
   "note": "False for proofs of MerkleTree, whose entries are tuples (C44_own_proofs). Proved for byte-string entries; JSON library by contract."
  },
  {
   "property": "C45",
   "status": "proved",
   "theorems": [
    "Pymt.Props.C45_round_trip",
    "Pymt.Props.C45_signed",
    "Pymt.Props.C45_wrong_signature"
   ],
   "note": "pycryptodome and json enter by contract (structures Crypto and JsonDict, shown inhabited); randomness is an argument."
  },
  {
   "property": "C46",
   "status": "partial",
   "theorems": [
    "Pymt.Props.C46_sign_partial",
    "Pymt.Props.C46_false",
    "Pymt.Props.C46_never"
   ],
   "note": "False: encrypt calls self.sign and decrypt self.signature_valid, which RsaEncKeyPair overrides to raise NotImplementedError, so neither ever returns (C46_never). Kept: signing and checking work for the other two classes."
  },
  {
   "property": "C47",
   "status": "proved",
   "theorems": [
    "Pymt.Props.C47_string",
    "Pymt.Props.C47_file",
    "Pymt.Props.C47_missing"
   ],
   "note": "The loaded object has the same class, nickname and key; other files are untouched; a missing file raises FileNotFoundError. Nicknames are valid UTF-8 (no surrogates)."
  },
  {
   "property": "C48",
   "status": "proved",
   "theorems": [
    "Pymt.Props.C48_round_trip",
    "Pymt.Props.C48_empty"
   ],
   "note": "For 16-byte nonces, which is what AES.new draws."
  },
  {
   "property": "C49",
   "status": "partial",
   "theorems": [
    "Pymt.Props.C49_root_partial",
    "Pymt.Props.C49_exact",
    "Pymt.Props.C49_false"
   ],
   "note": "C49_exact says which of the two is returned, for every history. root() of a new trie is the hash of the empty node, of an emptied trie None (C49_false)."
  },
  {
   "property": "C50",
   "status": "partial",
   "theorems": [
    "Pymt.Props.C50_stale_partial",
    "Pymt.Props.C50_one_partial",
    "Pymt.Props.C50_false"
   ],
   "note": "A one-entry exclusion proof can be accepted by another trie (C50_false); proved for proofs with at least two entries, and for one-entry proofs it is proved exactly which tries accept them."
  },
  {
   "property": "C51",
   "status": "proved",
   "theorems": [
    "Pymt.Props.C51_items"
   ],
   "note": ""
  },
  {
   "property": "C52",
   "status": "partial",
   "theorems": [
    "Pymt.Props.C52_sparse_partial",
    "Pymt.Props.C52_root",
    "Pymt.Props.C52_false"
   ],
   "note": "A SparseEMPT emptied by deletions cannot be encoded (C52_false); proved otherwise."
  },
  {
   "property": "C53",
   "status": "partial",
   "theorems": [
    "Pymt.Props.C53_poi_partial",
    "Pymt.Props.C53_false"
   ],
   "note": "Proved unless the hashes of all present references are below 2^176; for hash functions in general the condition is needed (C53_false)."
  },
  {
   "property": "C54",
   "status": "proved",
   "theorems": [
    "Pymt.Props.C54_get"
   ],
   "note": ""
  },
  {
   "property": "C55",
   "status": "partial",
   "theorems": [
    "Pymt.Props.C55_total_partial",
    "Pymt.Props.C55_root",
    "Pymt.Props.C55_false"
   ],
   "note": "KeyError for an unknown side, ValueError for a root that is not hexadecimal; proved for well-formed proofs."
  },
  {
   "property": "C56",
   "status": "proved",
   "theorems": [
    "Pymt.Props.C56_decode"
   ],
   "note": ""
  },
  {
   "property": "C57",
   "status": "partial",
   "theorems": [
    "Pymt.Props.C57_eq",
    "Pymt.Props.C57_unhashable",
    "Pymt.Props.C57_hash_false"
   ],
   "note": "The part on == is proved. The part on hash is false: __hash__ returns bytes, so hash(k) raises TypeError for every key pair."
  },
  {
   "property": "C58",
   "status": "partial",
   "theorems": [
    "Pymt.Props.C58_ciphertext_partial",
    "Pymt.Props.C58_false",
    "Pymt.Props.C58_rewrap"
   ],
   "note": "False: only the ciphertext is signed, so anyone who saw one message of a sender can re-key its ciphertext into another accepted message with another plaintext (C58_rewrap, for every library meeting the contract). Kept: what is accepted carries a signature of its ciphertext, valid under the key of the sender, and the plaintext comes from that ciphertext (C58_ciphertext_partial)."
  },
  {
   "property": "C59",
   "status": "proved",
   "theorems": [
    "Pymt.Props.C59_valid",
    "Pymt.Props.C59_public"
   ],
   "note": ""
  },
  {
   "property": "C60",
   "status": "proved",
   "theorems": [
    "Pymt.Props.C60_eq",
    "Pymt.Props.C60_time"
   ],
   "note": "Includes that repr of the dict is injective. C60_time: proofs of the same fact made at different times are different."
  },
  {
   "property": "C61",
   "status": "partial",
   "theorems": [
    "Pymt.Props.C61_length_partial",
    "Pymt.Props.C61_secure_partial",
    "Pymt.Props.C61_false",
    "Pymt.Props.C61_zeros",
    "Pymt.Props.C61_raises"
   ],
   "note": "False without hashing of values: a single value is its own root and leading zeros are lost (C61_zeros); an empty value or no value raises ValueError (C61_raises). Kept: true whenever the roots have equal length and are not empty, in particular always in the default (secure) mode."
  },
  {
   "property": "C62",
   "status": "partial",
   "theorems": [
    "Pymt.Props.C62_get_partial",
    "Pymt.Props.C62_delete_partial",
    "Pymt.Props.C62_stop",
    "Pymt.Props.C62_never",
    "Pymt.Props.C62_empty",
    "Pymt.Props.C62_false"
   ],
   "note": "False: the exceptions raised are not KeyErrors. Instead the exact outcome is proved for every history and every absent key, by where the key leaves the present ones; KeyError is raised only by get on a trie never written to."
  },
  {
   "property": "C63",
   "status": "partial",
   "theorems": [
    "Pymt.Props.C63_poi_partial",
    "Pymt.Props.C63_secure",
    "Pymt.Props.C63_false"
   ],
   "note": "False for keys that end where the present ones part or where a single one goes on. Kept: exactly which absent keys get a proof; none in secure mode."
  },
  {
   "property": "C64",
   "status": "proved",
   "theorems": [
    "Pymt.Props.C64_call",
    "Pymt.Props.C64_secure",
    "Pymt.Props.C64_history",
    "Pymt.Props.C64_proofs",
    "Pymt.Props.C64_all"
   ],
   "note": "C64_all covers histories with empty values anywhere.  The bound on updates is attained (example beside the theorem)."
  },
  {
   "property": "C65",
   "status": "proved",
   "theorems": [
    "Pymt.Props.C65_same",
    "Pymt.Props.C65_all"
   ],
   "note": "C65_all covers histories with empty values anywhere."
  },
  {
   "property": "C66",
   "status": "partial",
   "theorems": [
    "Pymt.Props.C66_errors_partial",
    "Pymt.Props.C66_root_partial",
    "Pymt.Props.C66_poi_partial",
    "Pymt.Props.C66_present_partial",
    "Pymt.Props.C66_poe_partial",
    "Pymt.Props.C66_false"
   ],
   "note": "False: malformed or mismatched proofs raise IndexError, TypeError, AssertionError, ExtensionPathError, BranchPathError, PoeError. Kept: the list of possible exceptions for any trie and any proof object; a wrong first entry gives False; well-formed entries for a present path always give a bool."
  },
  {
   "property": "C67",
   "status": "partial",
   "theorems": [
    "Pymt.Props.C67_exact",
    "Pymt.Props.C67_needed_partial",
    "Pymt.Props.C67_minimal_partial",
    "Pymt.Props.C67_false"
   ],
   "note": "False: entries may be added and reordered after the first. Kept: exactly which proofs of a present key are accepted; every hashed node of the own proof is needed."
  },
  {
   "property": "C68",
   "status": "proved",
   "theorems": [
    "Pymt.Props.C68_query",
    "Pymt.Props.C68_value",
    "Pymt.Props.C68_history",
    "Pymt.Props.C68_keep",
    "Pymt.Props.C68_decode",
    "Pymt.Props.C68_query_all",
    "Pymt.Props.C68_history_all"
   ],
   "note": "C68_query_all and C68_history_all cover histories with empty values anywhere."
  },
  {
   "property": "C69",
   "status": "partial",
   "theorems": [
    "Pymt.Props.C69_same",
    "Pymt.Props.C69_poi_partial",
    "Pymt.Props.C69_update_partial",
    "Pymt.Props.C69_poe_partial",
    "Pymt.Props.C69_false"
   ],
   "note": "False for exclusion proofs, which omit an extension that leads elsewhere. Kept: inclusion proofs exactly, updates from a proof, exclusion proofs in all other cases; all five calls need the same nodes."
  },
  {
   "property": "C70",
   "status": "partial",
   "theorems": [
    "Pymt.Props.C70_exact_partial",
    "Pymt.Props.C70_accepts",
    "Pymt.Props.C70_raises",
    "Pymt.Props.C70_false"
   ],
   "note": "decode reads the flag byte 0xe0 as 0x20 and accepts references which encode writes differently; exact characterisations of the accepted strings and of the strings encode gives back, for strings shorter than 2^64 bytes"
  },
  {
   "property": "C71",
   "status": "partial",
   "theorems": [
    "Pymt.Props.C71_decode_partial",
    "Pymt.Props.C71_encode_false",
    "Pymt.Props.C71_value_false",
    "Pymt.Props.C71_false",
    "Pymt.Props.C71_more"
   ],
   "note": "no node encoded without data can ever be decoded (AssertionError for all nodes); a branch without value gets the marker"
  },
  {
   "property": "C72",
   "status": "proved",
   "theorems": [
    "Pymt.Props.C72_hashed",
    "Pymt.Props.C72_flag",
    "Pymt.Props.C72_same"
   ],
   "note": "for histories under Valid and strings within the recursion limit"
  },
  {
   "property": "C73",
   "status": "partial",
   "theorems": [
    "Pymt.Props.C73_lengths_partial",
    "Pymt.Props.C73_concat",
    "Pymt.Props.C73_false"
   ],
   "note": "the boundaries of the items are not part of the hash"
  },
  {
   "property": "C74",
   "status": "partial",
   "theorems": [
    "Pymt.Props.C74_loop_partial",
    "Pymt.Props.C74_list_partial",
    "Pymt.Props.C74_nested",
    "Pymt.Props.C74_false"
   ],
   "note": "nested loops over one proof interfere, exactly described for all proofs"
  },
  {
   "property": "C75",
   "status": "partial",
   "theorems": [
    "Pymt.Props.C75_commit_partial",
    "Pymt.Props.C75_false"
   ],
   "note": "The root depends on how an empty value was lost (C75_false); equal roots still mean the same surviving pairs, for every history."
  },
  {
   "property": "C76",
   "status": "proved",
   "theorems": [
    "Pymt.Props.C76_calls",
    "Pymt.Props.C76_history",
    "Pymt.Props.C76_get"
   ],
   "note": "The model counts the frames of the recursive walkers only, not the constant number of frames of the helpers below them."
  },
  {
   "property": "C77",
   "status": "proved",
   "theorems": [
    "Pymt.Props.C77_unchanged"
   ],
   "note": "under absence of hash collisions among the nodes written and, in secure mode, the keys used"
  },
  {
   "property": "C78",
   "status": "proved",
   "theorems": [
    "Pymt.Props.C78_recursive",
    "Pymt.Props.C78_path",
    "Pymt.Props.C78_length",
    "Pymt.Props.C78_reached"
   ],
   "note": ""
  },
  {
   "property": "C79",
   "status": "partial",
   "theorems": [
    "Pymt.Props.C79_old_partial",
    "Pymt.Props.C79_last",
    "Pymt.Props.C79_next",
    "Pymt.Props.C79_later",
    "Pymt.Props.C79_small",
    "Pymt.Props.C79_new",
    "Pymt.Props.C79_rejected",
    "Pymt.Props.C79_early",
    "Pymt.Props.C79_false"
   ],
   "note": "Proved: for every value, earlier or later, the exact proof or exception; which earlier values keep an accepted proof; that the others and all later ones are rejected (barring collisions)."
  },
  {
   "property": "C80",
   "status": "partial",
   "theorems": [
    "Pymt.Props.C80_bytes_partial",
    "Pymt.Props.C80_single",
    "Pymt.Props.C80_raises",
    "Pymt.Props.C80_root",
    "Pymt.Props.C80_unready",
    "Pymt.Props.C80_false"
   ],
   "note": "Proved: the check raises in every tree of two leaves or more and which exception; it succeeds with leaf and root as bytes, in both modes, and with text in a tree of one leaf."
  },
  {
   "property": "C81",
   "status": "partial",
   "theorems": [
    "Pymt.Props.C81_exact_partial",
    "Pymt.Props.C81_same_partial",
    "Pymt.Props.C81_reference",
    "Pymt.Props.C81_current",
    "Pymt.Props.C81_never_wrong",
    "Pymt.Props.C81_opens",
    "Pymt.Props.C81_false"
   ],
   "note": "Proved: the exact answer for every key of that moment (value, KeyError or InvalidReferenceError); unchanged keys are read; no value that differs from the one of then is returned unless hashes collide. Same assumptions as C28."
  },
  {
   "property": "C82",
   "status": "partial",
   "theorems": [
    "Pymt.Props.C82_others_partial",
    "Pymt.Props.C82_update_partial",
    "Pymt.Props.C82_delete_partial",
    "Pymt.Props.C82_stuck",
    "Pymt.Props.C82_repair",
    "Pymt.Props.C82_writes",
    "Pymt.Props.C82_false"
   ],
   "note": "Proved: keys other than that of the call are read; the exact answer for the key of the call before and after each write; an interrupted delete cannot be repeated; writing the key again repairs. Storages are assumed to perform single writes atomically and in program order."
  },
  {
   "property": "C83",
   "status": "partial",
   "theorems": [
    "Pymt.Props.C83_path_partial",
    "Pymt.Props.C83_forged",
    "Pymt.Props.C83_verify",
    "Pymt.Props.C83_empt",
    "Pymt.Props.C83_empt_forged",
    "Pymt.Props.C83_false"
   ],
   "note": "False: replacing the entry named by the root with the root node of another trie gives that trie's answers (C83_forged; for an EMPT with both storages changed, C83_empt_forged). Proved: replaced nodes off the way to the key do not matter, an EMPT with intact data never returns a wrong value, proof checking is not affected."
  },
  {
   "property": "C84",
   "status": "partial",
   "theorems": [
    "Pymt.Props.C84_get_partial",
    "Pymt.Props.C84_trie",
    "Pymt.Props.C84_repair",
    "Pymt.Props.C84_stuck",
    "Pymt.Props.C84_false"
   ],
   "note": "False for objects whose encoding changed since they were stored. C84_get_partial says exactly when get returns the object and that it raises InvalidReferenceError otherwise; the trie is not affected. Changes to a bytearray in place are not modelled."
  },
  {
   "property": "C85",
   "status": "partial",
   "theorems": [
    "Pymt.Props.C85_absent_partial",
    "Pymt.Props.C85_above",
    "Pymt.Props.C85_present",
    "Pymt.Props.C85_list",
    "Pymt.Props.C85_bytes",
    "Pymt.Props.C85_false"
   ],
   "note": "False for keys in the trie. The theorems together say for every value type and every position of the key what happens: refused with TypeError, stored as which byte string, or (lists) accepted and unreadable."
  },
  {
   "property": "C86",
   "status": "proved",
   "theorems": [
    "Pymt.Props.C86"
   ],
   "note": "Every call is a program of single reads and writes of the dict and of _root; steps of threads interleave arbitrarily. Assumed: one read or write of a dict entry or attribute is atomic. The threads may also read tries of others."
  },
  {
   "property": "C87",
   "status": "partial",
   "theorems": [
    "Pymt.Props.C87_moment_partial",
    "Pymt.Props.C87_undisturbed_partial",
    "Pymt.Props.C87_get_typeError",
    "Pymt.Props.C87_contains_keyError",
    "Pymt.Props.C87_false"
   ],
   "note": "False because _root is read more than once. C87_moment_partial: apart from TypeError when the last key was deleted during the call and KeyError of contains when the first key was inserted during the call, the answer is that of some moment of the call."
  },
  {
   "property": "C88",
   "status": "partial",
   "theorems": [
    "Pymt.Props.C88_state_partial",
    "Pymt.Props.C88_outcome_partial",
    "Pymt.Props.C88_root_partial",
    "Pymt.Props.C88_update_partial",
    "Pymt.Props.C88_lost",
    "Pymt.Props.C88_false"
   ],
   "note": "False: updates get lost. Proved for all interleavings: the trie is never corrupted and has the contents of some sequence of the calls; every call has the outcome of some moment while it ran (except TypeError and KeyError as in C87); the root changes only when a call publishes the trie it computed from the root it had read; no update fails."
  },
  {
   "property": "C89",
   "status": "proved",
   "theorems": [
    "Pymt.Props.C89_order",
    "Pymt.Props.C89_outcome",
    "Pymt.Props.C89_done"
   ],
   "note": "Taking turns means that no two update or delete calls of different threads on the trie overlap. Assumed as in C88: keys short enough, and no hash collisions among the nodes some interleaving of these calls writes."
  },
  {
   "property": "C90",
   "status": "proved",
   "theorems": [
    "Pymt.Props.C90_history",
    "Pymt.Props.C90_query",
    "Pymt.Props.C90_needed"
   ],
   "note": "Keys short enough and no hash collisions; any values, also empty ones that get lost (C25). In C90_needed the root is not that of a new trie."
  },
  {
   "property": "C91",
   "status": "proved",
   "theorems": [
    "Pymt.Props.C91_objects",
    "Pymt.Props.C91_value"
   ],
   "note": "C91_objects holds for any values; C91_value for histories as in C01. get is compared up to the exception raised when the trie of the object is empty. No hash collisions among the nodes written to the shared dict."
  },
  {
   "property": "C92",
   "status": "partial",
   "theorems": [
    "Pymt.Props.C92_moment_partial",
    "Pymt.Props.C92_undisturbed_partial",
    "Pymt.Props.C92_harmless_partial",
    "Pymt.Props.C92_false"
   ],
   "note": "False as stated: the root is read again after the nodes were collected, so that the proof can have the nodes of one moment and the root of a later one, and the call can raise TypeError if the last key is deleted meanwhile. Proved: these are the only exceptions, and no trie at all accepts such a mixed proof. No hash collisions among the nodes written."
  },
  {
   "property": "C93",
   "status": "partial",
   "theorems": [
    "Pymt.Props.C93_moment_partial",
    "Pymt.Props.C93_undisturbed_partial",
    "Pymt.Props.C93_false"
   ],
   "note": "False as stated, for the same reasons. Proved: apart from the TypeError only the root in the proof can be wrong, and every trie gives the proof the same verdict as the proof of the moment, because verification ignores that root."
  },
  {
   "property": "C94",
   "status": "partial",
   "theorems": [
    "Pymt.Props.C94_present_partial",
    "Pymt.Props.C94_undisturbed_partial",
    "Pymt.Props.C94_false"
   ],
   "note": "False as stated: the mixed proof of C92, which no trie accepts, is accepted if the same change happens during the check. Proved: True means that at some moment of the call a stored key began with the target key; and the verdict is the usual one if nothing changes meanwhile."
  },
  {
   "property": "C95",
   "status": "partial",
   "theorems": [
    "Pymt.Props.C95_untouched_partial",
    "Pymt.Props.C95_value_partial",
    "Pymt.Props.C95_false"
   ],
   "note": "False as stated: get reads the data storage first and the trie second, so that a call naming the key in between makes it raise InvalidReferenceError (or KeyNotFoundError) although the key was there all the time. Proved: keys the other thread does not name are read as if it were not there, and a value that is returned is one the key had at a moment between calls. No hash collisions among the nodes written."
  },
  {
   "property": "C96",
   "status": "partial",
   "theorems": [
    "Pymt.Props.C96_value_partial",
    "Pymt.Props.C96_listed_partial",
    "Pymt.Props.C96_state_partial",
    "Pymt.Props.C96_outcome_partial",
    "Pymt.Props.C96_readable_partial",
    "Pymt.Props.C96_lost",
    "Pymt.Props.C96_false"
   ],
   "note": "False as stated: the trie of references loses one of two simultaneous updates, while the data storage keeps both; the lost key is then listed by the iterator but can be neither read nor deleted. Proved, for every interleaving and without assumptions: returned values were stored under the key by some thread, and a key whose update has returned and that nobody deletes stays listed. Proved for every interleaving, when keys are short enough and no nodes collide: the trie inside is never corrupted and has the contents of some sequence of the threads' calls; no update of a storable value fails; once all threads are done, a key that was only updated with one value has that value if contains reports it."
  },
  {
   "property": "C97",
   "status": "partial",
   "theorems": [
    "Pymt.Props.C97_never_wrong_partial",
    "Pymt.Props.C97_whole_partial",
    "Pymt.Props.C97_runtime",
    "Pymt.Props.C97_torn",
    "Pymt.Props.C97_grown",
    "Pymt.Props.C97_torn_false",
    "Pymt.Props.C97_false"
   ],
   "note": "False as stated: RuntimeError if the dict grows during the loop (C97_runtime says exactly when), and the root is read after the loop, so that the copy may lack the nodes of its root and raise KeyError for keys that were there all the time (C97_torn_false). Proved: a copy never gives a wrong answer or a wrong verdict on a proof, and it is whole if the root does not change between the last two accesses. No hash collisions among the nodes written."
  },
  {
   "property": "C98",
   "status": "partial",
   "theorems": [
    "Pymt.Props.C98_never_wrong_partial",
    "Pymt.Props.C98_whole_partial",
    "Pymt.Props.C98_torn",
    "Pymt.Props.C98_grown",
    "Pymt.Props.C98_false"
   ],
   "note": "False as stated, for the same two reasons. Proved: what is decoded never gives a wrong answer, and it is whole if the root does not change between the last two accesses. Encodings shorter than 2^64 bytes; no hash collisions among the nodes written."
  },
  {
   "property": "C99",
   "status": "partial",
   "theorems": [
    "Pymt.Props.C99_query_partial",
    "Pymt.Props.C99_true_partial",
    "Pymt.Props.C99_history_partial",
    "Pymt.Props.C99_value_partial",
    "Pymt.Props.C99_false"
   ],
   "note": "False as stated: the mode (secure) is part of the encoding but not of the root hash, so whoever sends the bytes can turn every present key into an absent one. Proved: with the right mode all answers are true or KeyError, for all calls and whole histories, also for bytes that give the root node in place of its hash; and in any mode a non-empty value returned by get is one of the trie, stored under a path that begins with the one looked up. No hash collisions between the nodes written, the nodes received and the two roots. Proofs are covered by C119."
  }
 ]
}
