{"id": "C01", "title": "Membership follows the history", "statement": "After any sequence of update and delete calls on a new MPT, contains(k) returns True exactly when the last successful call naming k was an update, and False otherwise; contains never raises.", "quantifier": "for every finite history of update/delete calls (any keys, any non-empty values, failing deletes included), every queried key, secure or not", "why_tests_cant": "The set of histories is infinite and every insertion order splits and merges nodes differently; tests visit a few shapes.", "anchors": ["src/pymt/mpt.py:MPT.update", "src/pymt/mpt.py:MPT.delete", "src/pymt/mpt.py:MPT.contains", "src/pymt/mpt.py:MPT._update", "src/pymt/mpt.py:MPT._delete", "src/pymt/mpt.py:MPT._contains"]}
{"id": "C02", "title": "get returns the value last written", "statement": "After any history on a new MPT, for every key present, get(k) returns the value of the most recent update of k.", "quantifier": "for every finite history and every key present after it", "why_tests_cant": "Depends on every way in which later inserts/deletes of other keys restructure the path of k.", "anchors": ["src/pymt/mpt.py:MPT.get", "src/pymt/mpt.py:MPT._get", "src/pymt/mpt.py:MPT.update", "src/pymt/mpt.py:MPT._update", "src/pymt/mpt.py:MPT.delete"]}
{"id": "C03", "title": "get of an absent key raises", "statement": "get(k) raises an exception whenever k is not present; it never returns a value that was not stored under k.", "quantifier": "for every history and every key that is absent after it", "why_tests_cant": "The failure needs a key which ends inside the trie (a proper prefix of a stored key); random or fixed-length test keys never hit it.", "anchors": ["src/pymt/mpt.py:MPT.get", "src/pymt/mpt.py:MPT._get"]}
{"id": "C04", "title": "A failing delete changes nothing", "statement": "delete(k) of an absent key raises, and afterwards root(), every storage entry and the result of every query are what they were before.", "quantifier": "for every history, every absent key", "why_tests_cant": "Atomicity under failure must hold from every reachable state; a test checks one.", "anchors": ["src/pymt/mpt.py:MPT.delete", "src/pymt/mpt.py:MPT._delete"]}
{"id": "C05", "title": "update and delete are total on valid input", "statement": "update(k,v) never raises, and delete(k) of a present key never raises, as long as the interpreter's recursion limit exceeds the nibble length of the key.", "quantifier": "for every reachable state, every key whose nibble length is below the recursion limit, every non-empty value", "why_tests_cant": "Absence of exceptions (missing nodes, assertions, index errors) over all tries is not observable by sampling.", "anchors": ["src/pymt/mpt.py:MPT.update", "src/pymt/mpt.py:MPT.delete", "src/pymt/mpt.py:MPT._update", "src/pymt/mpt.py:MPT._delete", "src/pymt/mpt.py:MPT._create_branch_node", "src/pymt/mpt.py:MPT._create_branch_extension"]}
{"id": "C06", "title": "The root depends only on the contents", "statement": "Two tries whose histories leave the same key/value pairs have the same root_hash(), the same root() if there is at least one pair, and give the same answers to contains and get, whatever the order of calls, overwrites, deletions and failed calls.", "quantifier": "for every pair of histories with equal final contents", "why_tests_cant": "Needs all permutations and all detours of all histories.", "anchors": ["src/pymt/mpt.py:MPT.root", "src/pymt/mpt.py:MPT.root_hash", "src/pymt/mpt.py:MPT._update", "src/pymt/mpt.py:MPT._delete", "src/pymt/mpt.py:MPT._build_new_node_from_last_branch"]}
{"id": "C07", "title": "The root commits to the contents", "statement": "If two tries have the same root_hash() then they hold the same key/value pairs, unless two different byte strings hashed in these histories collide under keccak-256.", "quantifier": "for every pair of histories", "why_tests_cant": "Injectivity of a commitment over all pairs of histories cannot be sampled.", "anchors": ["src/pymt/mpt.py:MPT.root_hash", "src/pymt/mpt.py:MPT._store_node", "src/pymt/utils/node.py:Node.into_reference", "src/pymt/utils/node.py:Leaf.encode", "src/pymt/utils/node.py:Extension.encode", "src/pymt/utils/node.py:Branch.encode"]}
{"id": "C08", "title": "delete undoes update", "statement": "If k is absent, update(k,v) followed by delete(k) brings root_hash() back to its earlier value.", "quantifier": "for every reachable state, every absent key, every non-empty value", "why_tests_cant": "All ways of splitting and re-merging nodes must cancel.", "anchors": ["src/pymt/mpt.py:MPT.update", "src/pymt/mpt.py:MPT.delete", "src/pymt/mpt.py:MPT._delete", "src/pymt/mpt.py:MPT._build_new_node_from_last_branch"]}
{"id": "C09", "title": "An emptied trie is a new trie", "statement": "When every key has been deleted, root_hash() equals the root_hash() of a new trie, contains is False for every key, and any continuation behaves as from a new trie.", "quantifier": "for every history whose final contents are empty, every continuation", "why_tests_cant": "Residues after the last delete only show up in some orders of deletion.", "anchors": ["src/pymt/mpt.py:MPT.delete", "src/pymt/mpt.py:MPT.root_hash", "src/pymt/mpt.py:MPT.contains", "src/pymt/mpt.py:MPT.__init__"]}
{"id": "C10", "title": "Old roots stay readable", "statement": "For a root r returned by root() at some time, MPT(storage, r) at any later time still answers contains/get exactly as the trie did at that time.", "quantifier": "for every history, every point in it, every continuation, every key", "why_tests_cant": "Quantifies over all continuations; a single overwritten or dropped storage entry would break it.", "anchors": ["src/pymt/mpt.py:MPT.__init__", "src/pymt/mpt.py:MPT.root", "src/pymt/mpt.py:MPT._store_node", "src/pymt/mpt.py:MPT.get", "src/pymt/mpt.py:MPT.contains"]}
{"id": "C11", "title": "Tries sharing a storage do not interfere", "statement": "Any number of MPT objects over one storage dict, used in any interleaving, each behave as if they had a storage of their own.", "quantifier": "for every number of tries, every interleaving of their histories", "why_tests_cant": "All interleavings.", "anchors": ["src/pymt/mpt.py:MPT.__init__", "src/pymt/mpt.py:MPT._store_node", "src/pymt/mpt.py:MPT._get_node"]}
{"id": "C12", "title": "Crash safety of the storage", "statement": "If the process stops at any point inside an update or delete (after any number of the storage writes of the call), the previous root is still fully readable from the storage and yields the previous contents.", "quantifier": "for every reachable state, every call, every prefix of its storage writes", "why_tests_cant": "Every crash point of every call.", "anchors": ["src/pymt/mpt.py:MPT._store_node", "src/pymt/mpt.py:MPT.update", "src/pymt/mpt.py:MPT.delete"]}
{"id": "C13", "title": "The storage is content addressed and append only", "statement": "Every storage entry ever made is keyed by the keccak-256 of its value; entries are never removed and never change value.", "quantifier": "for every history, every storage entry, every later time", "why_tests_cant": "A global invariant over all histories.", "anchors": ["src/pymt/mpt.py:MPT._store_node", "src/pymt/utils/node.py:Node.into_reference"]}
{"id": "C14", "title": "No dangling references", "statement": "At every moment (also in the middle of a call), every 32-byte reference inside a stored node, and the root itself, leads to a node in the storage.", "quantifier": "for every history, every crash point, every stored node", "why_tests_cant": "Write order matters at every intermediate point, which tests never observe.", "anchors": ["src/pymt/mpt.py:MPT._store_node", "src/pymt/mpt.py:MPT._update", "src/pymt/mpt.py:MPT._delete", "src/pymt/mpt.py:MPT._create_branch_node", "src/pymt/mpt.py:MPT._create_branch_extension"]}
{"id": "C15", "title": "encode/decode of a whole trie", "statement": "MPT.decode(t.encode()) succeeds and gives a trie with the same root(), the same secure flag and the same answers to every query.", "quantifier": "for every reachable trie t and every key", "why_tests_cant": "Must hold for every reachable storage content.", "anchors": ["src/pymt/mpt.py:MPT.encode", "src/pymt/mpt.py:MPT.decode"]}
{"id": "C16", "title": "Secure mode is transparent", "statement": "A trie created with secure=True behaves as a map on the original keys exactly as in C01-C05, unless two of the keys used collide under keccak-256, and in addition get of every absent key raises (C03 without exception).", "quantifier": "for every history and key in secure mode", "why_tests_cant": "As C01, plus the hashing of keys on every code path.", "anchors": ["src/pymt/mpt.py:MPT.__init__", "src/pymt/mpt.py:MPT.get", "src/pymt/mpt.py:MPT.update", "src/pymt/mpt.py:MPT.contains", "src/pymt/mpt.py:MPT.delete"]}
{"id": "C17", "title": "root_hash is the Ethereum trie root", "statement": "root_hash() equals the root of the Modified Merkle-Patricia trie as the Ethereum Yellow Paper (appendix D) defines it for the set of key/value pairs.", "quantifier": "for every history with non-empty values", "why_tests_cant": "Test vectors fix a handful of contents.", "anchors": ["src/pymt/mpt.py:MPT.root_hash", "src/pymt/mpt.py:MPT._update", "src/pymt/mpt.py:MPT._delete", "src/pymt/utils/nibble_path.py:NibblePath.encode", "src/pymt/utils/node.py:Node.into_reference"]}
{"id": "C18", "title": "Inclusion proofs verify", "statement": "For every key present, get_proof_of_inclusion(k) returns a proof and verify_proof_of_inclusion of the same trie accepts it.", "quantifier": "for every reachable trie and every key present", "why_tests_cant": "Small tries (root node below 32 bytes) behave differently; all shapes are needed.", "anchors": ["src/pymt/mpt.py:MPT.get_proof_of_inclusion", "src/pymt/mpt.py:MPT.verify_proof_of_inclusion", "src/pymt/mpt.py:MPT._get_proof_of_inclusion", "src/pymt/mpt.py:MPT._verify_proof_of_inclusion"]}
{"id": "C19", "title": "Accepted inclusion proofs are true", "statement": "If verify_proof_of_inclusion(p) returns True then p.target_key is present in the trie, whoever made p, unless keccak-256 collides on the node encodings involved.", "quantifier": "for every reachable trie and every proof object, honest or forged", "why_tests_cant": "Soundness against every forged proof.", "anchors": ["src/pymt/mpt.py:MPT.verify_proof_of_inclusion", "src/pymt/mpt.py:MPT._verify_proof_of_inclusion"]}
{"id": "C20", "title": "Stale inclusion proofs are rejected", "statement": "An inclusion proof made before the contents changed is rejected afterwards, for as long as the contents differ: verify_proof_of_inclusion returns False, or raises ValueError when the trie has become empty.", "quantifier": "for every pair of reachable tries with different contents, every proof made in the first", "why_tests_cant": "All pairs of states.", "anchors": ["src/pymt/mpt.py:MPT.get_proof_of_inclusion", "src/pymt/mpt.py:MPT.verify_proof_of_inclusion", "src/pymt/mpt.py:MPT.root_hash"]}
{"id": "C21", "title": "Exclusion proofs verify", "statement": "For every absent key of a non-empty trie, get_proof_of_exclusion(k) returns a proof and verify_proof_of_exclusion of the same trie accepts it.", "quantifier": "for every reachable non-empty trie, every absent key", "why_tests_cant": "Depends on the kind and size of the node at which the search ends.", "anchors": ["src/pymt/mpt.py:MPT.get_proof_of_exclusion", "src/pymt/mpt.py:MPT.verify_proof_of_exclusion", "src/pymt/mpt.py:MPT._get_proof_of_exclusion", "src/pymt/mpt.py:MPT._verify_proof_of_exclusion"]}
{"id": "C22", "title": "Accepted exclusion proofs are true", "statement": "If verify_proof_of_exclusion(p) returns True then p.target_key is absent from the trie, whoever made p.", "quantifier": "for every reachable trie and every proof object, honest or forged", "why_tests_cant": "Soundness against every forged proof.", "anchors": ["src/pymt/mpt.py:MPT.verify_proof_of_exclusion", "src/pymt/mpt.py:MPT._verify_proof_of_exclusion"]}
{"id": "C23", "title": "No exclusion proof for a present key", "statement": "get_proof_of_exclusion(k) raises PoeError whenever k is present.", "quantifier": "for every reachable trie and every present key", "why_tests_cant": "All tries and keys.", "anchors": ["src/pymt/mpt.py:MPT.get_proof_of_exclusion", "src/pymt/mpt.py:MPT.contains"]}
{"id": "C24", "title": "Proof checking needs the root only", "statement": "verify_proof_of_inclusion and verify_proof_of_exclusion give the same result (value or exception) on any two tries with the same root(), whatever their storages; in particular on the RootEMPT and the sparse trie made from an EMPT.", "quantifier": "for every root, every two storages, every proof object", "why_tests_cant": "Independence from the storage for all storages and proofs.", "anchors": ["src/pymt/mpt.py:MPT.verify_proof_of_inclusion", "src/pymt/mpt.py:MPT.verify_proof_of_exclusion", "src/pymt/empt.py:RootEMPT", "src/pymt/empt.py:EMPT.get_root_trie", "src/pymt/empt.py:EMPT.get_sparse_trie"]}
{"id": "C25", "title": "Empty values are values", "statement": "update(k, b'') makes k present: contains(k) is True and stays True until k is deleted, however other keys change.", "quantifier": "for every history including empty values", "why_tests_cant": "Whether an empty value survives depends on the position of the key in the trie and on later calls for other keys.", "anchors": ["src/pymt/mpt.py:MPT.update", "src/pymt/mpt.py:MPT.contains", "src/pymt/mpt.py:MPT._create_branch_node", "src/pymt/utils/node.py:Branch"]}
{"id": "C26", "title": "Equality and hash of tries", "statement": "t1 == t2 is True exactly when root() agrees, and hash(t) returns an int.", "quantifier": "for every pair of tries", "why_tests_cant": "int(digest, 16) is applied to the raw digest, and whether it raises depends on the digest bytes.", "anchors": ["src/pymt/mpt.py:MPT.__hash__", "src/pymt/mpt.py:MPT.__eq__"]}
{"id": "C27", "title": "EMPT is a mapping", "statement": "After any history of update/delete on an EMPT with fresh storages: get(k) returns the last value put under k or raises if absent, contains(k) agrees, iter yields each present key once, len is the number of present keys.", "quantifier": "for every history of byte-string values (empty values included), every key", "why_tests_cant": "Two stores (trie and data) must stay in step over all histories.", "anchors": ["src/pymt/empt.py:EMPT.update", "src/pymt/empt.py:EMPT.get", "src/pymt/empt.py:EMPT.delete", "src/pymt/empt.py:EMPT.contains", "src/pymt/empt.py:EMPT.__len__", "src/pymt/empt.py:EMPT.__iter__"]}
{"id": "C28", "title": "EMPT detects tampered data", "statement": "If the data storage is changed behind the back of the EMPT in any way, get(k) either raises or returns exactly the bytes last put under k, unless keccak-256 collides.", "quantifier": "for every history, every content of the data storage, every key", "why_tests_cant": "All tamperings.", "anchors": ["src/pymt/empt.py:EMPT.get", "src/pymt/empt.py:DataReference.decode", "src/pymt/empt.py:DataReference.__eq__"]}
{"id": "C29", "title": "EMPT delete is all or nothing", "statement": "EMPT.delete(k) either removes k from both stores, or raises and leaves both stores as they were.", "quantifier": "for every reachable EMPT and key", "why_tests_cant": "All reachable states.", "anchors": ["src/pymt/empt.py:EMPT.delete"]}
{"id": "C30", "title": "get_reference matches the stored value", "statement": "For every present key get_reference(k) (EMPT and SparseEMPT) returns the reference made from k and its current value; for an absent key it raises.", "quantifier": "for every history and key", "why_tests_cant": "Inherits the prefix problem of C03.", "anchors": ["src/pymt/empt.py:EMPT.get_reference", "src/pymt/empt.py:SparseEMPT.get_reference"]}
{"id": "C31", "title": "DataReference codec and equality", "statement": "decode(encode(r)) gives back the key and data of r; decode rejects every encoding whose hash does not match its key and data; two references are equal exactly when key and data are equal.", "quantifier": "for every key and data", "why_tests_cant": "Equality compares the hash of key+data, so it is a property of all splits of all strings.", "anchors": ["src/pymt/empt.py:DataReference.encode", "src/pymt/empt.py:DataReference.decode", "src/pymt/empt.py:DataReference.__eq__", "src/pymt/empt.py:DataReference.__hash__"]}
{"id": "C32", "title": "The sparse trie mirrors the full trie", "statement": "A SparseEMPT and an EMPT given the same calls have the same root(); get_sparse_trie() returns a copy that later changes to the EMPT do not affect, and vice versa; the copy makes the same proofs.", "quantifier": "for every history, every continuation on either side", "why_tests_cant": "All histories and continuations.", "anchors": ["src/pymt/empt.py:SparseEMPT.update", "src/pymt/empt.py:SparseEMPT.delete", "src/pymt/empt.py:EMPT.get_sparse_trie"]}
{"id": "C33", "title": "Default-constructed EMPTs are independent", "statement": "Two EMPT objects made with EMPT() do not influence each other.", "quantifier": "for every history of two instances", "why_tests_cant": "Default argument dicts are shared by all instances; visible only across instances.", "anchors": ["src/pymt/empt.py:EMPT.__init__", "src/pymt/empt.py:SparseEMPT.__init__"]}
{"id": "C34", "title": "build_trie rebuilds the trie", "statement": "build_trie() on an EMPT leaves a trie equal to one built from the data storage, and returns normally.", "quantifier": "for every reachable EMPT", "why_tests_cant": "Fails while iterating; must be checked for every storage size.", "anchors": ["src/pymt/empt.py:EMPT.build_trie"]}
{"id": "C35", "title": "Mapping mixins of EMPT", "statement": "pop(k) returns the value and removes k; clear() empties the EMPT and gives the root_hash() of a new trie; setdefault keeps present values; popitem removes the first key.", "quantifier": "for every reachable EMPT", "why_tests_cant": "Composite operations over all states.", "anchors": ["src/pymt/empt.py:EMPT.delete", "src/pymt/empt.py:EMPT.get", "src/pymt/empt.py:EMPT.__iter__", "src/pymt/empt.py:EMPT.__delitem__", "src/pymt/empt.py:EMPT.__getitem__"]}
{"id": "C36", "title": "NibblePath laws", "statement": "Hex-prefix encoding then decoding a path gives the same nibbles and leaf flag; encode is injective; starts_with, ==, common_prefix, combine and consume agree with prefix, equality, longest common prefix, concatenation and drop on the nibble sequence.", "quantifier": "for every path (all data, all valid offsets, odd and even)", "why_tests_cant": "All lengths, parities and offsets.", "anchors": ["src/pymt/utils/nibble_path.py:NibblePath.encode", "src/pymt/utils/nibble_path.py:NibblePath.decode_with_type", "src/pymt/utils/nibble_path.py:NibblePath.starts_with", "src/pymt/utils/nibble_path.py:NibblePath.__eq__", "src/pymt/utils/nibble_path.py:NibblePath.common_prefix", "src/pymt/utils/nibble_path.py:NibblePath.combine", "src/pymt/utils/nibble_path.py:NibblePath.consume", "src/pymt/utils/nibble_path.py:NibblePath.at"]}
{"id": "C37", "title": "Node codec", "statement": "Node.decode(n.encode()) is a node of the same kind with the same nibbles, value and references, for every node whose references are empty, 32 bytes, or encodings of nodes shorter than 32 bytes; different nodes have different encodings.", "quantifier": "for every node", "why_tests_cant": "All node contents, in particular nested in-place children.", "anchors": ["src/pymt/utils/node.py:Node.decode", "src/pymt/utils/node.py:Leaf.encode", "src/pymt/utils/node.py:Extension.encode", "src/pymt/utils/node.py:Branch.encode", "src/pymt/utils/node.py:_prepare_reference_for_usage", "src/pymt/utils/node.py:_prepare_reference_for_encoding"]}
{"id": "C38", "title": "Merkle tree proofs verify", "statement": "In a MerkleTree with secure=False, for every value put in, get_proof_of_inclusion(value) after building the tree verifies on the same tree.", "quantifier": "for every non-empty list of values (duplicates allowed) and every value in it", "why_tests_cant": "Every number of leaves gives a different shape.", "anchors": ["src/pymt/mt.py:MerkleTree.get_proof_of_inclusion", "src/pymt/mt.py:MerkleTree.verify_proof_of_inclusion", "src/pymt/merkletools.py:MerkleTools.get_proof_of_inclusion", "src/pymt/merkletools.py:MerkleTools.verify_proof_of_inclusion", "src/pymt/merkletools.py:MerkleTools._calculate_next_level"]}
{"id": "C39", "title": "Merkle tree proofs verify in the default mode", "statement": "In a MerkleTree() with the default secure=True, for every value put in, get_proof_of_inclusion(value) verifies on the same tree.", "quantifier": "for every non-empty list of values", "why_tests_cant": "The verifier starts from the raw key instead of the hashed leaf; tests only use secure=False.", "anchors": ["src/pymt/mt.py:MerkleTree.__init__", "src/pymt/mt.py:MerkleTree.get_proof_of_inclusion", "src/pymt/mt.py:MerkleTree.verify_proof_of_inclusion"]}
{"id": "C40", "title": "Accepted Merkle proofs are true", "statement": "If verify_proof_of_inclusion(p) returns True then p.target_key was put into the tree, unless the hash collides.", "quantifier": "for every list of values, every proof object", "why_tests_cant": "Soundness against every forged proof; there is no separation of leaves and inner nodes.", "anchors": ["src/pymt/mt.py:MerkleTree.verify_proof_of_inclusion", "src/pymt/merkletools.py:MerkleTools.verify_proof_of_inclusion"]}
{"id": "C41", "title": "The Merkle root reflects all leaves", "statement": "get_merkle_root() always is the root of the leaves put so far.", "quantifier": "for every interleaving of put, make_tree, reset_tree, get_merkle_root", "why_tests_cant": "Staleness depends on the order of calls.", "anchors": ["src/pymt/mt.py:MerkleTree.put", "src/pymt/mt.py:MerkleTree.get_merkle_root", "src/pymt/merkletools.py:MerkleTools.make_tree", "src/pymt/merkletools.py:MerkleTools.add_leaf"]}
{"id": "C42", "title": "The Merkle root has the RFC 6962 shape", "statement": "The root equals the recursive definition that splits the n leaves at the largest power of two below n and hashes left||right.", "quantifier": "for every non-empty list of leaves", "why_tests_cant": "Every number of leaves.", "anchors": ["src/pymt/merkletools.py:MerkleTools.make_tree", "src/pymt/merkletools.py:MerkleTools._calculate_next_level"]}
{"id": "C43", "title": "The Merkle root binds the leaves", "statement": "Two trees with the same number of leaves, all of digest length (secure=True), and the same root have the same leaves in the same order, unless the hash collides.", "quantifier": "for every pair of leaf lists of equal length", "why_tests_cant": "All pairs.", "anchors": ["src/pymt/merkletools.py:MerkleTools.make_tree", "src/pymt/merkletools.py:MerkleTools.add_leaf"]}
{"id": "C44", "title": "Proof codec", "statement": "decode_rlp(encode_rlp(p)) and decode_json(encode_json(p)) give back a proof with the same type, timestamp, key, root and proof entries, for every Merkle tree proof.", "quantifier": "for every proof object of type MT-POI", "why_tests_cant": "The entry type decides whether it works; all proofs needed.", "anchors": ["src/pymt/proof.py:Proof.encode_rlp", "src/pymt/proof.py:Proof.decode_rlp", "src/pymt/proof.py:Proof.encode_json", "src/pymt/proof.py:Proof.decode_json"]}
{"id": "C45", "title": "Encryption round trip of key pairs", "statement": "For key pairs a and b: b.decrypt(a.encrypt(m, b.public_key), a.public_key) == m; decrypt raises when the signature does not fit the sender key.", "quantifier": "for every message, every pair of key pairs", "why_tests_cant": "All messages; and rejection of every ill-signed message.", "anchors": ["src/pymt/keypairs.py:RsaKeyPair.encrypt", "src/pymt/keypairs.py:RsaKeyPair.decrypt", "src/pymt/keypairs.py:RsaKeyPair.sign", "src/pymt/keypairs.py:RsaKeyPair.signature_valid"]}
{"id": "C46", "title": "RsaEncKeyPair can encrypt and decrypt", "statement": "encrypt and decrypt of an RsaEncKeyPair work as in C45.", "quantifier": "for every message and key", "why_tests_cant": "The overriding methods break the inherited ones for every input.", "anchors": ["src/pymt/keypairs.py:RsaEncKeyPair.sign", "src/pymt/keypairs.py:RsaEncKeyPair.signature_valid", "src/pymt/keypairs.py:RsaKeyPair.encrypt", "src/pymt/keypairs.py:RsaKeyPair.decrypt"]}
{"id": "C47", "title": "Key export round trip", "statement": "from_key_string(k.to_key_string(p), p) and from_key_file after to_key_file give a key pair equal to k.", "quantifier": "for every key pair and passphrase", "why_tests_cant": "All keys and passphrases.", "anchors": ["src/pymt/keypairs.py:RsaKeyPair.to_key_string", "src/pymt/keypairs.py:RsaKeyPair.from_key_string", "src/pymt/keypairs.py:RsaKeyPair.to_key_file", "src/pymt/keypairs.py:RsaKeyPair.from_key_file"]}
{"id": "C48", "title": "Password encryption round trip", "statement": "Utils.decrypt(Utils.encrypt(d, p), p) == d.", "quantifier": "for every data and password", "why_tests_cant": "All data.", "anchors": ["src/pymt/utils/utils.py:Utils.encrypt", "src/pymt/utils/utils.py:Utils.decrypt"]}
{"id": "C49", "title": "root() of an empty trie is None", "statement": "root() returns None exactly when the trie holds no key, as its documentation says.", "quantifier": "for every history", "why_tests_cant": "The two ways of being empty (never filled, emptied by deletes) have to be compared over all histories that end with empty contents.", "anchors": ["src/pymt/mpt.py:MPT.root", "src/pymt/mpt.py:MPT.__init__", "src/pymt/mpt.py:MPT.delete"]}
{"id": "C50", "title": "Stale exclusion proofs are rejected", "statement": "An exclusion proof made before the contents changed is not accepted afterwards, for as long as the contents differ.", "quantifier": "for every pair of reachable tries with different contents, every exclusion proof made by the first", "why_tests_cant": "All pairs of states; the failing pair needs an extension as root of one trie and a special value in the other.", "anchors": ["src/pymt/mpt.py:MPT.get_proof_of_exclusion", "src/pymt/mpt.py:MPT.verify_proof_of_exclusion", "src/pymt/mpt.py:MPT.root_hash"]}
{"id": "C51", "title": "items() of an EMPT", "statement": "items() (and values()) of an EMPT succeeds and yields every present key exactly once, with the value last put under it.", "quantifier": "for every history", "why_tests_cant": "Every key is read through the trie while iterating over the data storage; both must agree in all reachable states.", "anchors": ["src/pymt/empt.py:EMPT.__iter__", "src/pymt/empt.py:EMPT.__getitem__", "src/pymt/empt.py:EMPT.get"]}
{"id": "C52", "title": "encode_rlp/decode_rlp of SparseEMPT and RootEMPT", "statement": "decode_rlp(encode_rlp()) of a SparseEMPT gives an object with the same root(), secure flag and answers; of a RootEMPT one with the same root and secure flag that checks every proof alike.", "quantifier": "for every history, every proof", "why_tests_cant": "All reachable storages, all proofs.", "anchors": ["src/pymt/empt.py:SparseEMPT.encode_rlp", "src/pymt/empt.py:SparseEMPT.decode_rlp", "src/pymt/empt.py:RootEMPT.encode_rlp", "src/pymt/empt.py:RootEMPT.decode_rlp", "src/pymt/mpt.py:MPT.encode", "src/pymt/mpt.py:MPT.decode"]}
{"id": "C53", "title": "Inclusion proofs of an EMPT are accepted", "statement": "For every present key of an EMPT, get_proof_of_inclusion succeeds and verify_proof_of_inclusion accepts the proof.", "quantifier": "for every history and present key", "why_tests_cant": "Depends on the encoded size of the root node, which depends on the leading zeros of hashes.", "anchors": ["src/pymt/empt.py:EMPT.get_proof_of_inclusion", "src/pymt/empt.py:EMPT.verify_proof_of_inclusion", "src/pymt/mpt.py:MPT.get_proof_of_inclusion", "src/pymt/mpt.py:MPT.verify_proof_of_inclusion"]}
{"id": "C54", "title": "Reading leaves of a Merkle tree", "statement": "get_count() is the number of values put since the last reset; get(i) is the hexadecimal form of the i-th value (of its hash with secure=True), from the end for negative i; other indices raise IndexError.", "quantifier": "for every history of put, make_tree, reset_tree, get_merkle_root and every index", "why_tests_cant": "All histories and indices.", "anchors": ["src/pymt/mt.py:MerkleTree.get", "src/pymt/mt.py:MerkleTree.get_count", "src/pymt/merkletools.py:MerkleTools.get_leaf", "src/pymt/merkletools.py:MerkleTools.add_leaf"]}
{"id": "C55", "title": "Checking a Merkle proof gives an answer", "statement": "MerkleTree.verify_proof_of_inclusion(p) returns True or False and does not raise or change the tree.", "quantifier": "for every proof object and every built tree", "why_tests_cant": "All proof objects, including malformed ones.", "anchors": ["src/pymt/mt.py:MerkleTree.verify_proof_of_inclusion", "src/pymt/merkletools.py:MerkleTools.verify_proof_of_inclusion"]}
{"id": "C56", "title": "Proof.decode_rlp accepts canonical encodings of valid proofs only", "statement": "If Proof.decode_rlp(b) returns p then p has an accepted type and byte-string entries, and for a Merkle proof p.encode_rlp() == b.", "quantifier": "for every byte string", "why_tests_cant": "All byte strings.", "anchors": ["src/pymt/proof.py:Proof.decode_rlp", "src/pymt/proof.py:Proof.encode_rlp", "src/pymt/proof.py:Proof.__init__"]}
{"id": "C57", "title": "Key pairs as values", "statement": "k1 == k2 is True exactly when class, nickname and public key agree, and hash(k) returns an int, so key pairs can be put in sets.", "quantifier": "for all pairs of key pairs", "why_tests_cant": "All classes and keys; that hash raises for every key is a fact about all of them.", "anchors": ["src/pymt/keypairs.py:RsaKeyPair.__eq__", "src/pymt/keypairs.py:RsaKeyPair.__hash__"]}
{"id": "C58", "title": "The signature covers the message", "statement": "Two messages that carry the same signature and are accepted by b.decrypt from the same sender decrypt to the same plaintext.", "quantifier": "for all messages, senders and receivers, including messages made by an attacker", "why_tests_cant": "Tests only decrypt what encrypt made; the attacker chooses session key, nonce and tag freely.", "anchors": ["src/pymt/keypairs.py:RsaKeyPair.encrypt", "src/pymt/keypairs.py:RsaKeyPair.decrypt", "src/pymt/keypairs.py:RsaKeyPair.signature_valid"]}
{"id": "C59", "title": "Key validation", "statement": "rsa_key_valid(key, 'public') is True exactly when key loads and has no private part, rsa_key_valid(key, 'private') exactly when it loads and has one; unloadable keys give False, or KeyError with raise_exeptions.", "quantifier": "for all byte strings", "why_tests_cant": "All byte strings.", "anchors": ["src/pymt/utils/utils.py:Utils.rsa_key_valid"]}
{"id": "C60", "title": "Equality and hash of proofs", "statement": "Two Proof objects compare equal exactly when type, timestamp, target key, root and entries all agree (unless keccak-256 collides on their descriptions); == and hash never raise.", "quantifier": "for all pairs of proofs", "why_tests_cant": "Equality goes through the repr of a dict; that no two different proofs have the same repr is a statement about all byte strings.", "anchors": ["src/pymt/proof.py:Proof.__eq__", "src/pymt/proof.py:Proof.__hash__"]}
{"id": "C61", "title": "Equality of Merkle trees", "statement": "Two made trees that hold values compare equal exactly when their roots agree.", "quantifier": "for all histories of two trees and all hash functions", "why_tests_cant": "int(root, 16) forgets leading zeros and fails on an empty root; only some leaves show it.", "anchors": ["src/pymt/merkletools.py:MerkleTools.__eq__", "src/pymt/merkletools.py:MerkleTools.__hash__"]}
{"id": "C62", "title": "Documented exception for absent keys", "statement": "get(key) and delete(key) raise KeyError when the key is not present, as their documentation says.", "quantifier": "for every history and every key", "why_tests_cant": "Which exception is raised depends on how the key relates to all the others (where its path leaves theirs); there is no end of such situations.", "anchors": ["src/pymt/mpt.py:MPT.get", "src/pymt/mpt.py:MPT.delete", "src/pymt/mpt.py:MPT._get", "src/pymt/mpt.py:MPT._delete"]}
{"id": "C63", "title": "No inclusion proof is made for an absent key", "statement": "get_proof_of_inclusion(key) raises when the key is not present.", "quantifier": "for every history and every absent key", "why_tests_cant": "The failing keys are those that end exactly where the present ones part or where a single one continues; a test has to hit one.", "anchors": ["src/pymt/mpt.py:MPT.get_proof_of_inclusion", "src/pymt/mpt.py:MPT._get_proof_of_inclusion"]}
{"id": "C64", "title": "Cost of calls does not depend on the size of the trie", "statement": "An update makes at most 2*len(path)+2 writes to the storage and a delete at most 2*len(path)+1, where path is the key or its hash in secure mode, so len(t) grows by at most that (66 in secure mode); an inclusion proof has at most 2*len(path)+1 entries and an exclusion proof at most 2*len(path)+2.", "quantifier": "for every history, call and key", "why_tests_cant": "A bound on all tries of all sizes; a test measures one trie.", "anchors": ["src/pymt/mpt.py:MPT._update", "src/pymt/mpt.py:MPT._delete", "src/pymt/mpt.py:MPT.__len__", "src/pymt/mpt.py:MPT.get_proof_of_inclusion", "src/pymt/mpt.py:MPT.get_proof_of_exclusion"]}
{"id": "C65", "title": "Updating a key with the value it has changes nothing", "statement": "update(key, value) when the key already has that value succeeds and leaves the root and every entry of the storage as they were.", "quantifier": "for every history, key and value", "why_tests_cant": "All histories and positions of the key in the trie; nodes on the path are rebuilt and stored again, and the new ones have to be the old ones.", "anchors": ["src/pymt/mpt.py:MPT.update", "src/pymt/mpt.py:MPT._update", "src/pymt/mpt.py:MPT._store_node"]}
{"id": "C66", "title": "Checking a proof gives an answer", "statement": "For a non-empty trie and a proof object of the right type, verify_proof_of_inclusion and verify_proof_of_exclusion return True or False; they raise nothing but the documented ValueError (empty trie) and TypeError (other proof type), whatever the proof contains.", "quantifier": "for all tries reached by any history, all proof objects of the right type, whoever made them", "why_tests_cant": "The input is an arbitrary list of byte strings made by an adversary and an arbitrary target key; a test can only try some malformed lists.", "anchors": ["src/pymt/mpt.py:MPT.verify_proof_of_inclusion", "src/pymt/mpt.py:MPT._verify_proof_of_inclusion", "src/pymt/mpt.py:MPT.verify_proof_of_exclusion", "src/pymt/mpt.py:MPT._verify_proof_of_exclusion", "src/pymt/utils/node.py:Node.decode"]}
{"id": "C67", "title": "Inclusion proofs cannot be altered", "statement": "A proof of inclusion of a present key which verify_proof_of_inclusion accepts has exactly the entries of the proof the trie itself makes, unless keccak-256 collides on the byte strings involved.", "quantifier": "for all histories, all present keys, all proof objects whoever made them", "why_tests_cant": "It excludes every other accepted list of entries, an infinite set; tests can only try particular alterations.", "anchors": ["src/pymt/mpt.py:MPT.verify_proof_of_inclusion", "src/pymt/mpt.py:MPT._verify_proof_of_inclusion", "src/pymt/mpt.py:MPT.get_proof_of_inclusion"]}
{"id": "C68", "title": "An incomplete or foreign storage never gives a wrong answer", "statement": "Take a trie object with the root and mode of a known trie over any storage in which entries sit under their own hashes: one that lost nodes, has foreign entries, or was read by MPT.decode from bytes of any origin. Every get, contains and proof request gives the answer of the complete trie or raises KeyError, checking proofs does not depend on the storage at all, and a history of updates and deletes either raises KeyError somewhere or ends every call as on the complete trie, with the same root.", "quantifier": "for all histories, all keys, all storages and all encoded tries of any origin, all further histories", "why_tests_cant": "It covers every possible set of lost nodes and every hostile storage; tests can only remove or forge a few.", "anchors": ["src/pymt/mpt.py:MPT._get_node", "src/pymt/mpt.py:MPT.decode", "src/pymt/mpt.py:MPT.get", "src/pymt/mpt.py:MPT.contains", "src/pymt/mpt.py:MPT.update", "src/pymt/mpt.py:MPT.delete", "src/pymt/mpt.py:MPT.get_proof_of_inclusion", "src/pymt/mpt.py:MPT.get_proof_of_exclusion"]}
{"id": "C69", "title": "The nodes of a proof are enough", "statement": "A storage that has the nodes listed in the proof of a key (inclusion or exclusion) is enough to look the key up, and with those of an inclusion proof the key can be updated with the right new root.", "quantifier": "for all histories, all keys, all storages that have these nodes", "why_tests_cant": "It ranges over all tries and all subsets of their nodes.", "anchors": ["src/pymt/mpt.py:MPT.get_proof_of_inclusion", "src/pymt/mpt.py:MPT.get_proof_of_exclusion", "src/pymt/mpt.py:MPT._get_proof_of_exclusion", "src/pymt/mpt.py:MPT.contains", "src/pymt/mpt.py:MPT.update"]}
{"id": "C70", "title": "Decoding nodes is strict", "statement": "A byte string which Node.decode accepts is the encoding of the node it returns, so a node has one encoding. (False; the exact set of accepted strings and the exact set of strings which encode() gives back are proved.)", "quantifier": "for all byte strings", "why_tests_cant": "The accepted strings are an infinite set; tests only try encodings which the library made itself, all of which are canonical", "anchors": ["src/pymt/utils/node.py:Node.decode", "src/pymt/utils/node.py:_prepare_reference_for_usage", "src/pymt/utils/node.py:_prepare_reference_for_encoding", "src/pymt/utils/nibble_path.py:NibblePath.decode_with_type"]}
{"id": "C71", "title": "Nodes without their data", "statement": "A node encoded with include_data=False can be decoded with include_data=False, and decoding a node without data keeps its path, its references and whether it has a value. (False in both halves; decoding a complete node keeps path and references.)", "quantifier": "for all nodes and all byte strings", "why_tests_cant": "The marker in place of the value and the number of items interact with every node shape; tests show single nodes only", "anchors": ["src/pymt/utils/node.py:Leaf.encode", "src/pymt/utils/node.py:Extension.encode", "src/pymt/utils/node.py:Branch.encode", "src/pymt/utils/node.py:Node.decode"]}
{"id": "C72", "title": "contains with hash_key=False", "statement": "On a secure trie contains(x, hash_key=False) answers True exactly when x is the hash of a present key, and never raises, for byte strings of any length; on other tries the flag has no effect, and hash_key=True is the default behaviour.", "quantifier": "for all histories, all byte strings x", "why_tests_cant": "Depends on the whole history and on strings of every length, which walk into nodes where no key ends", "anchors": ["src/pymt/mpt.py:MPT.contains", "src/pymt/mpt.py:MPT._contains"]}
{"id": "C73", "title": "Hashing a list", "statement": "keccak_hash_list gives different hashes for different lists of byte strings, unless the hash function itself collides on the strings involved. (False: only the concatenation counts; true for lists with items of the same lengths.)", "quantifier": "for all hash functions with 32-byte digests, all pairs of lists", "why_tests_cant": "Quantifies over all pairs of lists; a test compares the few lists it has", "anchors": ["src/pymt/utils/hash.py:keccak_hash_list", "src/pymt/utils/hash.py:keccak_hash"]}
{"id": "C74", "title": "Iterating over a proof", "statement": "A loop over a Proof gives its five fields in order whatever was done with the object before, and loops over the same Proof do not disturb each other. (The second half is false: an inner loop ends the outer one after its first round.)", "quantifier": "for all proofs, all states of the object, all loop bodies", "why_tests_cant": "The iterator is the object itself, so the result depends on all earlier and concurrent iterations", "anchors": ["src/pymt/proof.py:Proof.__iter__", "src/pymt/proof.py:Proof.__next__", "src/pymt/proof.py:Proof.items"]}
{"id": "C75", "title": "Empty values and the root", "statement": "Two tries whose histories leave the same key/value pairs, empty values included, have the same root_hash(), and tries with the same root_hash() keep the same pairs. (The first half is false: an empty value that was lost leaves a branch node with a single child behind, which a later delete and update removes again.)", "quantifier": "for every pair of histories, with empty values at any keys", "why_tests_cant": "Depends on where an empty value sat relative to the keys written after it, in two whole histories", "anchors": ["src/pymt/mpt.py:MPT.update", "src/pymt/mpt.py:MPT.delete", "src/pymt/mpt.py:MPT.root_hash", "src/pymt/mpt.py:MPT._create_branch_node", "src/pymt/mpt.py:MPT._delete"]}
{"id": "C76", "title": "Keys of any length", "statement": "On any trie object a call with a key (or proof) of any size either raises RecursionError and changes nothing, or gives the result and effect it would have under any higher recursion limit; so after any history get(k) returns the value of the last update of k that did not raise, or raises RecursionError.", "quantifier": "for every trie object over any storage, all keys and proofs of any length, all recursion limits", "why_tests_cant": "The walkers are recursive, and which calls fail depends on the depth of the trie at that moment, not on the key alone", "anchors": ["src/pymt/mpt.py:MPT.update", "src/pymt/mpt.py:MPT.delete", "src/pymt/mpt.py:MPT._update", "src/pymt/mpt.py:MPT._delete", "src/pymt/mpt.py:MPT._get", "src/pymt/mpt.py:MPT._contains", "src/pymt/mpt.py:MPT._get_proof_of_inclusion", "src/pymt/mpt.py:MPT._verify_proof_of_inclusion", "src/pymt/mpt.py:MPT._get_proof_of_exclusion", "src/pymt/mpt.py:MPT._verify_proof_of_exclusion"]}
{"id": "C77", "title": "A call that raises changes nothing", "statement": "After any history of update and delete calls, a further update or delete that raises, whatever the exception, leaves the object and every entry of its storage exactly as they were.", "quantifier": "for every history with keys of any length and empty values anywhere, every further call, secure or not", "why_tests_cant": "The calls write nodes on their way back up; that none is written before the exception must hold for every state and every point of failure", "anchors": ["src/pymt/mpt.py:MPT.update", "src/pymt/mpt.py:MPT.delete", "src/pymt/mpt.py:MPT._update", "src/pymt/mpt.py:MPT._delete"]}
{"id": "C78", "title": "Merkle proofs are audit paths of logarithmic length", "statement": "After make_tree, get_proof_of_inclusion(v) gives exactly the audit path of RFC 6962 (section 2.1.1) for the first occurrence of v, so a proof from a tree of at most 2^k values has at most k entries, and some proofs reach that length.", "quantifier": "for all hash functions, all histories, all values, secure or not", "why_tests_cant": "Trees of all sizes have different shapes; the loop over levels and the recursive definition must agree on every one", "anchors": ["src/pymt/mt.py:MerkleTree.get_proof_of_inclusion", "src/pymt/merkletools.py:MerkleTools.get_proof_of_inclusion", "src/pymt/merkletools.py:MerkleTools._calculate_next_level"]}
{"id": "C79", "title": "Proofs from a Merkle tree extended after make_tree", "statement": "Whenever a MerkleTree (secure=False) gives a proof for one of its values, it accepts that proof, also when values were put after make_tree. (False: put leaves the tree marked as ready, so the proof of the last of an odd number of values gets a wrong entry, and later values get IndexError or proofs of nothing.)", "quantifier": "for all histories and all values", "why_tests_cant": "Depends on the number of values before and after make_tree and on the position of the value", "anchors": ["src/pymt/mt.py:MerkleTree.put", "src/pymt/mt.py:MerkleTree.get_proof_of_inclusion", "src/pymt/merkletools.py:MerkleTools.get_proof_of_inclusion", "src/pymt/merkletools.py:MerkleTools.add_leaf"]}
{"id": "C80", "title": "MerkleTools proofs with its own leaves and roots", "statement": "MerkleTools.verify_proof_of_inclusion accepts the proof of a leaf together with the leaf returned by get_leaf and the root returned by get_merkle_root, after make_tree. (False: the getters return hexadecimal text, and with it the check raises KeyError or TypeError in every tree of two leaves or more; it works after bytes.fromhex.)", "quantifier": "for all hash functions, both modes, all histories ending in make_tree, all leaves", "why_tests_cant": "Must hold for every number of leaves and every position; the shipped example has one tree and one leaf", "anchors": ["src/pymt/merkletools.py:MerkleTools.verify_proof_of_inclusion", "src/pymt/merkletools.py:MerkleTools.get_leaf", "src/pymt/merkletools.py:MerkleTools.get_merkle_root", "src/pymt/examples/merkletools_create_and_proof.py"]}
{"id": "C81", "title": "EMPT opened at an old root", "statement": "An EMPT opened at the root of an earlier moment over the same two storages reads the values of that moment. (False: the data storage keeps one value per key, so keys deleted since raise KeyError and changed ones InvalidReferenceError; unchanged ones are read, the references of that moment always, and no other value is ever returned for them.)", "quantifier": "for all histories, all moments in them, all keys present then", "why_tests_cant": "Depends on what every later call did to the key", "anchors": ["src/pymt/empt.py:EMPT.__init__", "src/pymt/empt.py:EMPT.get", "src/pymt/empt.py:EMPT.get_reference"]}
{"id": "C82", "title": "Crashes inside calls on an EMPT", "statement": "When the process stops at any moment inside update or delete, an EMPT opened at the root from before the call, over what the two storages then hold, reads every value from before the call. (False for the key of the call: after the last write of an update its get raises InvalidReferenceError, after the first write of a delete KeyError, and such a delete can never be repeated; all other keys are read, and writing the key again repairs the object.)", "quantifier": "for all histories, all calls, all moments between two writes of the call, all keys", "why_tests_cant": "The process has to be stopped between any two writes of any call", "anchors": ["src/pymt/empt.py:EMPT.update", "src/pymt/empt.py:EMPT.delete", "src/pymt/empt.py:EMPT.get"]}
{"id": "C83", "title": "Changed nodes", "statement": "When entries of the node storage are changed in any way, get of a present key raises or returns the value of the key. (False: nodes are not checked against the hash they are stored under, so one replaced entry gives the object the answers of another trie under the old root. True if no node listed in the inclusion proof of the key was replaced, for proof checking, and for an EMPT whose data storage is intact.)", "quantifier": "for all histories, all changes to the storage, all keys", "why_tests_cant": "All ways to change a storage have to be considered", "anchors": ["src/pymt/mpt.py:MPT._get_node", "src/pymt/mpt.py:MPT.get", "src/pymt/mpt.py:MPT.contains", "src/pymt/empt.py:EMPT.get"]}
{"id": "C84", "title": "Objects that change after they were stored", "statement": "get of an EMPT returns the object last stored under the key, whatever happened to the object since. (False: the object is kept by reference and its reference is computed again, so get, pop, setdefault, popitem and clear raise InvalidReferenceError as long as the encoding of the object differs from the one it had when stored; root and proofs are not affected, storing it again repairs the key.)", "quantifier": "for all histories of calls and of changes to the objects, all keys", "why_tests_cant": "Changes can happen at any point of any history, and one object can be stored under many keys", "anchors": ["src/pymt/empt.py:EMPT.update", "src/pymt/empt.py:EMPT.get", "src/pymt/empt.py:EMPT.pop"]}
{"id": "C85", "title": "Values that are not bytes", "statement": "MPT.update with a value that is neither bytes nor bytearray raises TypeError and no lookup notices the call. (False: for a key that is in the trie, integers, bools and texts are stored as byte strings, and lists are accepted and make every later lookup of the key raise TypeError; for a key with which other keys start, None acts as b\"\". True for keys that are not in the trie and for values without RLP encoding.)", "quantifier": "for all histories, keys and values of all types", "why_tests_cant": "The outcome depends on the shape of the trie around the key", "anchors": ["src/pymt/mpt.py:MPT.update", "src/pymt/mpt.py:MPT._update", "src/pymt/utils/node.py:Leaf.__init__", "src/pymt/utils/node.py:Branch.__init__"]}
{"id": "C86", "title": "Threads with a trie each over one dict", "statement": "Several threads, each writing to its own MPT object, all objects made with the same dict: whatever way their steps interleave, every call a thread makes on its own trie has the outcome it would have had if the thread had been alone, and between calls the trie has the same root and answers every lookup the same way.", "quantifier": "for all numbers of threads, lists of calls, modes, and all interleavings of the single reads and writes of the dict and of _root", "why_tests_cant": "The number of interleavings is exponential, and which of them happen depends on the interpreter", "anchors": ["src/pymt/mpt.py:MPT.update", "src/pymt/mpt.py:MPT.delete", "src/pymt/mpt.py:MPT.get", "src/pymt/mpt.py:MPT.contains", "src/pymt/mpt.py:MPT._store_node"]}
{"id": "C87", "title": "Reading a trie another thread writes to", "statement": "get and contains on a trie that one other thread writes to return what they would have returned on the trie as it was at some moment while the call ran. (False: _root is read more than once, so deleting the last key meanwhile makes get and contains raise TypeError, and the first insertion into a new trie makes contains raise KeyError. These are the only exceptions.)", "quantifier": "for all lists of calls and all interleavings", "why_tests_cant": "Needs a thread switch between two particular lines", "anchors": ["src/pymt/mpt.py:MPT.get", "src/pymt/mpt.py:MPT.contains", "src/pymt/mpt.py:MPT._contains", "src/pymt/mpt.py:MPT._get_node"]}
{"id": "C88", "title": "Several threads that write to one MPT object", "statement": "If several threads call update and delete on one MPT object, the trie stays a proper trie at every moment, and no successful update is lost: when all threads are done, a key that was only ever updated, always to the same value, has that value. (False: both threads can read _root before either sets it, and then the change of one of them is gone although both calls returned normally. What remains true: no interleaving corrupts the trie; its contents are always those after some sequence of the calls made; every call acts on the trie as it was at some moment while it ran.)", "quantifier": "for all numbers of threads, lists of calls, modes, and all interleavings", "why_tests_cant": "Needs thread switches at particular places; that the trie is never corrupted is a statement about all interleavings", "anchors": ["src/pymt/mpt.py:MPT.update", "src/pymt/mpt.py:MPT.delete", "src/pymt/mpt.py:MPT.get", "src/pymt/mpt.py:MPT.contains", "src/pymt/mpt.py:MPT._store_node"]}
{"id": "C89", "title": "A lock around update and delete is enough", "statement": "If the threads that call update and delete on an MPT object take turns (one such call runs at a time, while get and contains of any thread may run any time), nothing is lost: there is an order of the successful calls, keeping each thread's own order, such that at every moment the trie reads as after the calls made so far in that order, and every update and delete returns or raises what it would on the trie of some moment while it ran.", "quantifier": "for all numbers of threads, lists of calls, modes, and all interleavings in which writers take turns", "why_tests_cant": "All interleavings of readers with writers, of any length", "anchors": ["src/pymt/mpt.py:MPT.update", "src/pymt/mpt.py:MPT.delete", "src/pymt/mpt.py:MPT.get", "src/pymt/mpt.py:MPT.contains"]}
{"id": "C90", "title": "Nodes that are no longer in use can be removed", "statement": "The package never removes a node from its storage. A client may: if entries of the dict that cannot be reached from the current root (by following references, embedded nodes included) are removed, at any times between calls, then every call of update and delete ends as it would have without the removals, the root is the same, and get, contains, the proof methods and verification give the same results. Nothing more can be removed: every entry that can be reached is there, and without any one of them get raises KeyError for some key that is present.", "quantifier": "for all histories, with removals of any unreachable entries after any of the calls, plain and secure", "why_tests_cant": "All histories and all choices of removals; the collection changes what later writes find in the storage", "anchors": ["src/pymt/mpt.py:MPT.update", "src/pymt/mpt.py:MPT.delete", "src/pymt/mpt.py:MPT.get", "src/pymt/mpt.py:MPT._store_node", "src/pymt/mpt.py:MPT._get_node"]}
{"id": "C91", "title": "Snapshots and shared dicts survive the removal of unused nodes", "statement": "Let any number of MPT objects share a dict, where objects may also be made at the root of other objects (snapshots). If entries that cannot be reached from the root of any of the objects are removed, at any times, every object still has the root hash, the answers of get and contains, the proofs and the outcomes of calls that an object with a storage of its own and no removals would have after the same calls.", "quantifier": "for all numbers of objects, all interleavings of calls, snapshots and removals, plain and secure", "why_tests_cant": "Interleavings of calls, snapshots and removals of any length", "anchors": ["src/pymt/mpt.py:MPT.__init__", "src/pymt/mpt.py:MPT.update", "src/pymt/mpt.py:MPT.delete", "src/pymt/mpt.py:MPT.root"]}
{"id": "C92", "title": "Proofs of inclusion made while another thread writes", "statement": "A proof of inclusion asked for while another thread calls update and delete on the same trie is the proof (or the exception) that the trie would have given at some moment while the call ran. In particular no proof comes out that was never valid.", "quantifier": "for all histories of the writing thread, all interleavings, all keys, plain and secure", "why_tests_cant": "The number of interleavings is unbounded and schedulers rarely produce the bad ones", "anchors": ["src/pymt/mpt.py:MPT.get_proof_of_inclusion"]}
{"id": "C93", "title": "Proofs of exclusion made while another thread writes", "statement": "A proof of exclusion asked for while another thread calls update and delete on the same trie is the proof (or the exception) that the trie would have given at some moment while the call ran.", "quantifier": "for all histories of the writing thread, all interleavings, all keys, plain and secure", "why_tests_cant": "The number of interleavings is unbounded and schedulers rarely produce the bad ones", "anchors": ["src/pymt/mpt.py:MPT.get_proof_of_exclusion", "src/pymt/mpt.py:MPT.root_hash"]}
{"id": "C94", "title": "Proofs checked while another thread writes", "statement": "If verify_proof_of_inclusion returns True while another thread calls update and delete on the same trie, the trie would have accepted the proof at some moment while the call ran; and if no call of the writer has its effect meanwhile, verify_proof_of_inclusion and verify_proof_of_exclusion return what they would return without the other thread.", "quantifier": "for all histories of the writing thread, all interleavings, all keys, plain and secure, all proofs, also forged ones", "why_tests_cant": "The number of interleavings and of proofs is unbounded", "anchors": ["src/pymt/mpt.py:MPT.verify_proof_of_inclusion", "src/pymt/mpt.py:MPT.verify_proof_of_exclusion", "src/pymt/mpt.py:MPT.root_hash"]}
{"id": "C95", "title": "Reading an EMPT while another thread writes to it", "statement": "get on an EMPT, called while another thread calls update and delete on the same object, returns what the mapping answered before or after one of the calls made meanwhile. In particular a key that the other thread does not touch can always be read.", "quantifier": "for all histories before and during the call, all interleavings, all keys and values, plain and secure", "why_tests_cant": "The number of interleavings is unbounded and schedulers rarely produce the bad ones", "anchors": ["src/pymt/empt.py:EMPT.get", "src/pymt/empt.py:EMPT.update", "src/pymt/empt.py:EMPT.delete"]}
{"id": "C96", "title": "Several threads that write to one EMPT", "statement": "When several threads call update, delete and get on one EMPT, a key that was only ever updated, always with the same value, has that value once all threads are done; and get never returns a value that nobody stored under the key.", "quantifier": "for all numbers of threads, all lists of calls, all interleavings, plain and secure", "why_tests_cant": "The number of interleavings is unbounded and schedulers rarely produce the bad ones", "anchors": ["src/pymt/empt.py:EMPT.get", "src/pymt/empt.py:EMPT.update", "src/pymt/empt.py:EMPT.delete", "src/pymt/empt.py:EMPT.contains", "src/pymt/empt.py:EMPT.__iter__"]}
{"id": "C97", "title": "Taking a sparse copy while another thread writes", "statement": "EMPT.get_sparse_trie, called while another thread calls update and delete on the same object, returns a SparseEMPT that answers like the EMPT did before or after one of the calls made meanwhile.", "quantifier": "for all histories before and during the call, all interleavings, all keys, plain and secure", "why_tests_cant": "The number of interleavings is unbounded; the bad ones need a switch of threads at one point of the call", "anchors": ["src/pymt/empt.py:EMPT.get_sparse_trie", "src/pymt/empt.py:EMPT.update", "src/pymt/empt.py:EMPT.delete"]}
{"id": "C98", "title": "Encoding a trie while another thread writes", "statement": "MPT.encode, called while other threads update and delete in tries over the same dict (one writer for each trie), gives bytes that decode to the trie as it was before or after one of the calls made meanwhile.", "quantifier": "for all numbers of threads, all lists of calls, all interleavings, plain and secure", "why_tests_cant": "The number of interleavings is unbounded; the bad ones need a switch of threads at one point of the call", "anchors": ["src/pymt/mpt.py:MPT.encode", "src/pymt/mpt.py:MPT.decode", "src/pymt/mpt.py:MPT.update", "src/pymt/mpt.py:MPT.delete"]}
{"id": "C99", "title": "The root hash authenticates a received trie", "statement": "A client that knows root_hash() of a trie decodes bytes it got from somebody else with MPT.decode and finds that root_hash() of the result is the one it knows. Then what contains and get return is what they return on the trie with that root hash, and updates and deletes that succeed give the root hash they give on that trie.", "quantifier": "for all byte strings, all histories of the true trie, all keys, all later calls, plain and secure", "why_tests_cant": "The bytes are chosen by an adversary, with nodes left out, added, or the root given in another form", "anchors": ["src/pymt/mpt.py:MPT.decode", "src/pymt/mpt.py:MPT.root_hash", "src/pymt/mpt.py:MPT.get", "src/pymt/mpt.py:MPT.contains", "src/pymt/mpt.py:MPT.update", "src/pymt/mpt.py:MPT.delete"]}
{"id": "C100", "title": "The value a proof of inclusion shows", "statement": "A proof object has no field for the value. The last node of a proof of inclusion that verify_proof_of_inclusion accepts for a present key has the value of that key, so whoever checks the proof learns the value from it.", "quantifier": "for all histories, present keys and proof objects, plain and secure, MPT and EMPT", "why_tests_cant": "Proofs come from an adversary; tests show proofs the library made", "anchors": ["src/pymt/mpt.py:MPT.get_proof_of_inclusion", "src/pymt/mpt.py:MPT.verify_proof_of_inclusion", "src/pymt/mpt.py:MPT.get", "src/pymt/empt.py:EMPT.get_proof_of_inclusion"]}
{"id": "C101", "title": "Proofs of exclusion of a secure EMPT", "statement": "For every absent key of a non-empty EMPT in secure mode, get_proof_of_exclusion makes a proof, and verify_proof_of_exclusion of the EMPT, of its sparse copy and of its root copy accepts it.", "quantifier": "for all histories of a secure EMPT, all absent keys, all value types", "why_tests_cant": "The outcome depends on how the hashes of all present keys begin", "anchors": ["src/pymt/empt.py:EMPT.get_proof_of_exclusion", "src/pymt/empt.py:EMPT.verify_proof_of_exclusion", "src/pymt/empt.py:RootEMPT.verify_proof_of_exclusion", "src/pymt/empt.py:SparseEMPT.verify_proof_of_exclusion", "src/pymt/mpt.py:MPT.get_proof_of_exclusion", "src/pymt/mpt.py:MPT.verify_proof_of_exclusion"]}
{"id": "C102", "title": "Proofs of inclusion and Ethereum light clients", "statement": "The nodes of a proof of inclusion that get_proof_of_inclusion makes convince an Ethereum light client that knows root_hash() of the value of the key. A list of nodes that convinces such a client of anything convinces it of the truth. For a present key and a list of properly encoded nodes with the root first, verify_proof_of_inclusion returns True exactly if the proof names root_hash() and its nodes convince such a client.", "quantifier": "for all histories, keys, lists of nodes, plain and secure", "why_tests_cant": "Two checkers have to agree on every list of nodes, made by the library or by an adversary", "anchors": ["src/pymt/mpt.py:MPT.get_proof_of_inclusion", "src/pymt/mpt.py:MPT.verify_proof_of_inclusion", "src/pymt/mpt.py:MPT.root_hash"]}
{"id": "C103", "title": "Proofs of exclusion and Ethereum light clients", "statement": "The nodes of a proof of exclusion that get_proof_of_exclusion makes for an absent key of a trie with keys convince an Ethereum light client that knows root_hash() that the key is absent.", "quantifier": "for all histories, absent keys, plain and secure", "why_tests_cant": "Whether the nodes suffice depends on where the absent key leaves all present ones", "anchors": ["src/pymt/mpt.py:MPT.get_proof_of_exclusion", "src/pymt/mpt.py:MPT._get_proof_of_exclusion", "src/pymt/mpt.py:MPT.root_hash"]}
{"id": "C104", "title": "Proofs are enough to follow changes", "statement": "A client object has the root of a trie and, instead of its storage, only the nodes of the proofs of inclusion of some keys. Every sequence of updates and deletes of these keys ends on it as on the trie, with the same root.", "quantifier": "for all histories, all sets of keys, all later sequences of changes of these keys, all values, plain and secure", "why_tests_cant": "Every later change uses nodes written by earlier ones; whether a node is missing shows only for some tries and sequences", "anchors": ["src/pymt/mpt.py:MPT.get_proof_of_inclusion", "src/pymt/mpt.py:MPT.update", "src/pymt/mpt.py:MPT.delete", "src/pymt/mpt.py:MPT._update", "src/pymt/mpt.py:MPT._delete"]}
{"id": "C105", "title": "A client that deletes keys needs their nearest neighbours, and nothing else", "statement": "A client object has the root of a trie and some of its nodes, enough to look up a set of keys. It makes any sequence of updates and deletes of these keys. If, at each delete of a key that is there, no other key is left or one of the other keys that share most hex digits with it is in the set, then every call ends as on the trie, the root stays that of the trie, and the client keeps giving the answers and proofs of the trie for the keys of the set. Otherwise a call may differ, and the first that does is such a delete: it raises KeyError, and the client can look up none of the nearest keys.", "quantifier": "for all histories, all sets of keys, all storages of the client, all later sequences of updates and deletes of these keys, plain and secure", "why_tests_cant": "Which nodes a delete reads depends on the shape the whole history gave the trie, and on nodes written by the earlier calls of the client", "anchors": ["src/pymt/mpt.py:MPT.update", "src/pymt/mpt.py:MPT.delete", "src/pymt/mpt.py:MPT._update", "src/pymt/mpt.py:MPT._delete", "src/pymt/mpt.py:MPT._build_new_node_from_last_branch"]}
{"id": "C106", "title": "EMPT objects over the same storages", "statement": "Several EMPT objects use the same trie storage and the same data storage, some of them opened at the root of another one, as several processes do with one database. Each object reads what it would read if the storages were its own.", "quantifier": "for all numbers of objects, all sequences of calls on them in any order, objects opened from one another at any time, all keys and values, plain and secure", "why_tests_cant": "What an object reads depends on the order of calls on other objects and on which object was opened from which", "anchors": ["src/pymt/empt.py:EMPT.__init__", "src/pymt/empt.py:EMPT.get", "src/pymt/empt.py:EMPT.update", "src/pymt/empt.py:EMPT.delete", "src/pymt/empt.py:EMPT.__iter__"]}
{"id": "C107", "title": "Unused nodes can be removed from the trie storage of an EMPT", "statement": "Entries of the trie storage that cannot be reached from the current root may be removed at any time between calls on an EMPT. All later calls end as without removals; lookups, references, proofs, verdicts, iteration, items() and length are the same. Every reachable entry is needed: without it some present key raises KeyError.", "quantifier": "for all histories of update and delete, all moments and amounts of removal, all keys and values, plain and secure", "why_tests_cant": "Whether an entry is still used depends on the whole history; a single reachable entry missed shows only for some keys, perhaps much later", "anchors": ["src/pymt/empt.py:EMPT.update", "src/pymt/empt.py:EMPT.delete", "src/pymt/empt.py:EMPT.get", "src/pymt/empt.py:EMPT.get_proof_of_inclusion"]}
{"id": "C108", "title": "A SparseEMPT over a few nodes follows an EMPT", "statement": "A client makes a SparseEMPT with the root of an EMPT and a storage that has some nodes only (from proofs, say). It is given the calls the EMPT is given, on keys it can look up, with byte strings as values. If for every present key that is deleted a nearest other key is among them, each call succeeds or raises on both alike, the roots stay equal, and for these keys it gives the answers, references and proofs of the EMPT, and for all proofs its verdict. Otherwise, if a delete goes wrong it raises KeyError, and then no nearest key can be looked up.", "quantifier": "for all histories before and after, all storages whose entries sit under their hashes, all sets of keys, plain and secure", "why_tests_cant": "All storages and all sequences of calls; a missing node shows only when a call happens to need it", "anchors": ["src/pymt/empt.py:SparseEMPT.update", "src/pymt/empt.py:SparseEMPT.delete", "src/pymt/empt.py:SparseEMPT.get_reference", "src/pymt/empt.py:SparseEMPT.get_proof_of_inclusion", "src/pymt/empt.py:EMPT.update"]}
{"id": "C109", "title": "Threads that take turns to write to one EMPT behave as one client", "statement": "If no two threads are inside EMPT.update or EMPT.delete at the same time (a lock around these calls), then whenever none is under way the EMPT object equals that of one client who makes the same calls in the order in which they began, and every finished update and delete ended as it does for that client. A get or contains during which nobody writes answers as for that client. A get that overlaps with writes only returns values the key had after some of the calls around it; if no overlapping write names its key it answers as for the client.", "quantifier": "for all numbers of threads, all calls with all keys and values, all interleavings of single accesses in which writers take turns, plain and secure", "why_tests_cant": "All interleavings; a lost change needs a particular one", "anchors": ["src/pymt/empt.py:EMPT.update", "src/pymt/empt.py:EMPT.delete", "src/pymt/empt.py:EMPT.get", "src/pymt/empt.py:EMPT.contains"]}
{"id": "C110", "title": "A call that an exception ends early is as good as not made", "statement": "The storage of an MPT may be any dict-like object, so an access of it may raise (disk full, connection lost), and KeyboardInterrupt may come at any moment. If calls of update, delete, get and contains are ended in this way after any number of their accesses of storage and root, any number of times, and the object is used on, then root hash, contains, get and the outcomes of later calls are those of a trie on which only the calls that made all of their accesses were made.", "quantifier": "for all histories of calls, all keys and values, all choices of calls that are ended and of the access at which they are ended, plain and secure", "why_tests_cant": "Every point of every call can be the one where the exception comes", "anchors": ["src/pymt/mpt.py:MPT.update", "src/pymt/mpt.py:MPT.delete", "src/pymt/mpt.py:MPT.get", "src/pymt/mpt.py:MPT.contains"]}
{"id": "C111", "title": "A call on an EMPT that an exception ends early is as good as not made", "statement": "The same for an EMPT object, whose data storage and trie storage may both raise: after a call of update or delete that was ended early, every key reads as if the call had not been made, and the call can be made again.", "quantifier": "for all histories of calls, all keys and values, all choices of calls that are ended and of the access at which they are ended, plain and secure", "why_tests_cant": "Every point of every call can be the one where the exception comes", "anchors": ["src/pymt/empt.py:EMPT.update", "src/pymt/empt.py:EMPT.delete", "src/pymt/empt.py:EMPT.get", "src/pymt/empt.py:EMPT.contains"]}
{"id": "C112", "title": "Any storage that implements __getitem__ and __setitem__ will do", "statement": "The storage of an MPT need not be a dict (docstring of MPT). It may be any object with __getitem__ and __setitem__ that returns what was stored; it may raise exceptions of its own at any access, change its state while it is read, and leave an entry as it is when its key is written again. Calls of update, delete, get and contains that the storage does not end have the outcomes they have on a trie over a dict on which only these calls are made, with the same root; calls that the storage ends have no effect; proofs are the same too. Over storages that do what dicts do, MPT and EMPT do what they do over dicts, without any assumption about hashes.", "quantifier": "for all storage classes that keep the contract, all histories of calls, all keys and values, plain and secure", "why_tests_cant": "Storages are written by users; tests use dicts, and a storage may fail at any access", "anchors": ["src/pymt/mpt.py:MPT.__init__", "src/pymt/mpt.py:MPT.update", "src/pymt/mpt.py:MPT.delete", "src/pymt/mpt.py:MPT.get", "src/pymt/mpt.py:MPT.contains", "src/pymt/empt.py:EMPT.__init__"]}
{"id": "C113", "title": "Two EMPTs are equal exactly when their root hashes are", "statement": "empt == other compares two EMPT objects: it returns, it is True exactly when both have the same keys with equal values, whatever the order of the calls that made them, and so exactly when root_hash() of both is the same. Comparison with a dict means the same. A value that does not fit the trie makes the comparison raise.", "quantifier": "for all pairs of histories of calls, all keys and values, plain and secure, all dicts compared with", "why_tests_cant": "Equality must agree with root hashes for all pairs of histories; tests compare single objects", "anchors": ["src/pymt/empt.py:EMPT", "src/pymt/empt.py:EMPT.__iter__", "src/pymt/empt.py:EMPT.__getitem__", "src/pymt/empt.py:EMPT.root_hash"]}
{"id": "C114", "title": "Loops over an EMPT that change it", "statement": "A loop over an EMPT (for key in empt, or over items()) whose body gives present keys other values visits every key once, in order, and ends normally with all values replaced. If the body removes or adds a key, the loop raises RuntimeError at the next step, also after the last key; exactly the calls made up to then have taken effect and the object is otherwise sound.", "quantifier": "for all histories of calls before the loop, all bodies that make one call per key, all keys and values, plain and secure", "why_tests_cant": "The outcome depends on the moment of the loop at which a call is made; tests do not change the object they loop over", "anchors": ["src/pymt/empt.py:EMPT.__iter__", "src/pymt/empt.py:EMPT.__setitem__", "src/pymt/empt.py:EMPT.__delitem__", "src/pymt/empt.py:EMPT.__getitem__"]}
{"id": "C115", "title": "Keys of the wrong type are refused", "statement": "Passing a key that is not bytes-like (a str that was not encoded, None, an int) to get, contains, update, delete or the proof methods of a trie that holds a key raises TypeError, and neither the root nor the storage is changed. EMPT and SparseEMPT refuse every key that is not bytes in the same way.", "quantifier": "for all histories of calls (for the effects: all objects, whatever the storage holds), all str lengths, all values, plain and secure", "why_tests_cant": "What a wrong key does depends on the shape of the trie at the moment of the call; tests pass bytes", "anchors": ["src/pymt/mpt.py:MPT.get", "src/pymt/mpt.py:MPT.contains", "src/pymt/mpt.py:MPT.update", "src/pymt/mpt.py:MPT.delete", "src/pymt/mpt.py:MPT.get_proof_of_inclusion", "src/pymt/mpt.py:MPT.get_proof_of_exclusion", "src/pymt/utils/nibble_path.py:NibblePath.at", "src/pymt/empt.py:EMPT.update"]}
{"id": "C116", "title": "Proofs made and checked while several threads write to one MPT object", "statement": "If a thread asks an MPT object for a proof while any number of other threads call update and delete on it, the proof (or the exception) is the one that the trie would have given at some moment while the call ran; and if verify_proof_of_inclusion says True, the trie would have accepted the proof at some such moment. (False: the nodes of one moment may come with the root of another, also when one thread's work was overwritten by another's. What remains true: a mixed proof of inclusion is accepted by no trie; proofs of exclusion get the verdict of the proof of the moment; the verdict True means that a key beginning with the target key was there at some moment of the call; and as long as the root stays the same, all proofs and verdicts are those of the trie.)", "quantifier": "for all numbers of threads, lists of calls, modes, interleavings, keys and proofs", "why_tests_cant": "Needs thread switches at particular places of three calls at once; the claims are about all interleavings", "anchors": ["src/pymt/mpt.py:MPT.get_proof_of_inclusion", "src/pymt/mpt.py:MPT.get_proof_of_exclusion", "src/pymt/mpt.py:MPT.verify_proof_of_inclusion", "src/pymt/mpt.py:MPT.verify_proof_of_exclusion", "src/pymt/mpt.py:MPT.update", "src/pymt/mpt.py:MPT.delete"]}
{"id": "C117", "title": "Encoding a trie while several threads write to it", "statement": "If a thread calls encode on an MPT object while any number of other threads call update and delete on it, the bytes decode to the trie as it was at some moment while encode ran. (False: encode reads the root after the nodes. What remains true: encode raises RuntimeError or TypeError, or the decoded trie has the root of some moment and gives the answers of that moment or raises KeyError; it never gives a wrong answer.)", "quantifier": "for all numbers of threads, lists of calls, modes, interleavings and keys", "why_tests_cant": "Needs thread switches at particular places; that no interleaving gives a wrong answer is a statement about all of them", "anchors": ["src/pymt/mpt.py:MPT.encode", "src/pymt/mpt.py:MPT.decode", "src/pymt/mpt.py:MPT.update", "src/pymt/mpt.py:MPT.delete"]}
{"id": "C118", "title": "Proofs and sparse copies of an EMPT that several threads write to", "statement": "If a thread asks an EMPT for a proof, checks a proof with it or takes a sparse copy while any number of other threads call update, delete, get and contains on it, it gets what the EMPT would have given at some moment while the call ran. (False: nodes of one moment may come with the root of another, and get_sparse_trie may raise RuntimeError. What remains true: a mixed proof of inclusion is accepted by no trie; proofs of exclusion get the verdict of the proof of the moment; the verdict True means that a key beginning with the target key was in the trie at some moment of the call; a sparse copy has the root of some moment and gives the answers of that moment or raises KeyError; and as long as the root stays the same, all proofs and verdicts are those of the EMPT.)", "quantifier": "for all numbers of threads, lists of calls, modes, interleavings, keys and proofs", "why_tests_cant": "Needs thread switches at particular places of several calls at once; the claims are about all interleavings", "anchors": ["src/pymt/empt.py:EMPT.get_proof_of_inclusion", "src/pymt/empt.py:EMPT.get_proof_of_exclusion", "src/pymt/empt.py:EMPT.verify_proof_of_inclusion", "src/pymt/empt.py:EMPT.verify_proof_of_exclusion", "src/pymt/empt.py:EMPT.get_sparse_trie", "src/pymt/empt.py:EMPT.update", "src/pymt/empt.py:EMPT.delete"]}
{"id": "C119", "title": "Checking and making proofs with an object that has the root hash", "statement": "An object with the root hash of a trie, whether made with MPT(storage={}, root=trie.root_hash()) or decoded from bytes sent by anybody, gives every proof the verdict of the trie. (False for root nodes shorter than 32 bytes, and for exclusion proofs if the object has the root node in place of its hash. What remains true: an inclusion proof it accepts, whoever made it, is accepted by the trie; so is an exclusion proof, unless it is the short root node alone; an inclusion proof made by a trie whose root() has 32 bytes gets the same verdict; and a received object raises KeyError or makes the proofs the trie makes, up to the form of the root in them.)", "quantifier": "for all histories (empty values included), modes, objects with the root hash of the trie whatever their storage, keys and proofs, honest or forged", "why_tests_cant": "The proofs and the bytes of the object may be made by an adversary; the claims are about all of them, and about the rare forms of a root that no honest trie has", "anchors": ["src/pymt/mpt.py:MPT.root_hash", "src/pymt/mpt.py:MPT.verify_proof_of_inclusion", "src/pymt/mpt.py:MPT.verify_proof_of_exclusion", "src/pymt/mpt.py:MPT.get_proof_of_inclusion", "src/pymt/mpt.py:MPT.get_proof_of_exclusion", "src/pymt/mpt.py:MPT.decode"]}
{"id": "C120", "title": "Storages of tries can be merged", "statement": "The dict of a trie can be merged with the dicts of any other tries ({**a, **b}, in either order): an object with the root of the trie over the merged dict gives the same results and exceptions in every series of calls of get, contains, update and delete, has the same root afterwards, and makes the same proofs; so one merged dict serves all the tries.", "quantifier": "for all histories of the trie (empty values included), modes, other dicts of nodes, orders of merging, and series of calls afterwards", "why_tests_cant": "The nodes of the other tries may be anything, shared nodes included; the claim is about all of them and all later calls", "anchors": ["src/pymt/mpt.py:MPT.__init__", "src/pymt/mpt.py:MPT._get_node", "src/pymt/mpt.py:MPT.get", "src/pymt/mpt.py:MPT.update", "src/pymt/mpt.py:MPT.delete", "src/pymt/mpt.py:MPT.get_proof_of_inclusion", "src/pymt/mpt.py:MPT.get_proof_of_exclusion"]}
{"id": "C121", "title": "EMPTs over merged storages", "statement": "When both storages of an EMPT are merged with those of another one, an object with the root of the first reads the values of the first. (False for keys that both have with different values. What remains true: every key gives its value if the other EMPT does not have it or has the same value; else get raises InvalidReferenceError and never gives the wrong value; the EMPT whose values win reads all its values; membership and proofs are those of the first.)", "quantifier": "for all pairs of histories, modes and keys", "why_tests_cant": "The claim is about all pairs of histories and all ways their nodes and values can overlap", "anchors": ["src/pymt/empt.py:EMPT.__init__", "src/pymt/empt.py:EMPT.get", "src/pymt/empt.py:EMPT.contains", "src/pymt/empt.py:EMPT.get_proof_of_inclusion", "src/pymt/empt.py:EMPT.get_proof_of_exclusion"]}
{"id": "C122", "title": "Objects with any encode_rlp()", "statement": "Whatever the encode_rlp() methods of the values do (return bytes, return something else, raise, change the user's state, call update and delete of the same EMPT), the EMPT stays consistent: it is the EMPT of the calls encode_rlp() made and of the updates for which it returned bytes. An update whose encode_rlp() raises or returns no bytes raises and stores nothing; get returns the stored object exactly if encode_rlp() returns the bytes of the time it was stored, and otherwise raises; contains, iteration and delete do not depend on encode_rlp().", "quantifier": "for all encode_rlp() methods (depending on any state), programs of calls, modes and keys", "why_tests_cant": "encode_rlp() is code of the user and may do anything; tests can try a few such methods only", "anchors": ["src/pymt/empt.py:EMPT.update", "src/pymt/empt.py:EMPT.get", "src/pymt/empt.py:EMPT.delete", "src/pymt/empt.py:EMPT.contains", "src/pymt/empt.py:DataReference.__init__"]}
{"id": "C123", "title": "Exceptions of encode_rlp() reach the caller", "statement": "An exception of the encode_rlp() method of a stored object reaches the caller of every method that reads the object: get, pop, popitem, setdefault, clear. (False: KeyError is taken for a missing key by pop with a default, setdefault and clear; setdefault then replaces the object, clear ends silently with everything left. What remains true: get, pop without default and popitem pass on every exception, the others every exception but KeyError, and nothing changes.)", "quantifier": "for all encode_rlp() methods, histories, keys and exceptions", "why_tests_cant": "The claim is about all exceptions code of the user may raise, and all histories before", "anchors": ["src/pymt/empt.py:EMPT.get", "src/pymt/empt.py:EMPT.__getitem__", "src/pymt/empt.py:EMPT.__delitem__", "src/pymt/empt.py:EMPT.__iter__"]}
{"id": "C124", "title": "Missing nodes can be loaded on demand", "statement": "A client has the root of a trie and any part of its nodes. When a call ends with KeyError it asks somebody for the node whose hash is in the exception, checks hash and length of the answer, stores it and repeats the call. If every node is there or given, all calls (update, delete, get, contains, in any series) end as on the complete trie, the root is the same, and proofs are the same; the call is repeated at most as often as C125 says it reads nodes. Whoever answers, calls end as on the complete trie or with KeyError: never a wrong value; and a call that ends with KeyError is as good as not made: the others end as on the complete trie without it, and so does the root.", "quantifier": "for all histories, series of calls, incomplete storages and answers (no answer with the hash of another node)", "why_tests_cant": "The claim is about every subset of the nodes, every series of calls and every answer of a peer", "anchors": ["src/pymt/mpt.py:MPT._get_node", "src/pymt/mpt.py:MPT.update", "src/pymt/mpt.py:MPT.delete", "src/pymt/mpt.py:MPT.get", "src/pymt/mpt.py:MPT.contains", "src/pymt/mpt.py:MPT.get_proof_of_inclusion", "src/pymt/mpt.py:MPT.get_proof_of_exclusion"]}
{"id": "C125", "title": "How much a call reads", "statement": "However many keys a trie holds: get, contains, update and get_proof_of_inclusion read at most 2n+1 nodes from the storage (n: length of the key in bytes, 32 in secure mode), delete at most 2n+3, get_proof_of_exclusion at most 4n+2; the methods that check proofs read none. The bounds are reached.", "quantifier": "for all histories (any values), keys and modes", "why_tests_cant": "A bound for every history; the worst case of a call depends on the shape of the trie", "anchors": ["src/pymt/mpt.py:MPT._get_node", "src/pymt/mpt.py:MPT._get", "src/pymt/mpt.py:MPT._contains", "src/pymt/mpt.py:MPT._update", "src/pymt/mpt.py:MPT._delete", "src/pymt/mpt.py:MPT._get_proof_of_inclusion", "src/pymt/mpt.py:MPT._get_proof_of_exclusion"]}
{"id": "C126", "title": "How long proofs are", "statement": "However many keys a trie holds: if all its keys have at most n bytes (32 in secure mode) and all values at most B bytes, then every node in a proof of inclusion of k has at most n+B+546 bytes and the proof at most (2|k|+1)(n+B+546); a proof of exclusion has at most |k|+24 bytes more. In secure mode: at most 65(B+578) bytes.", "quantifier": "for all histories, keys, modes and values", "why_tests_cant": "A bound for every trie; sizes depend on the shape of the trie, of which there are infinitely many", "anchors": ["src/pymt/mpt.py:MPT.get_proof_of_inclusion", "src/pymt/mpt.py:MPT.get_proof_of_exclusion", "src/pymt/utils/node.py:Node.encode", "src/pymt/utils/nibble_path.py:NibblePath.encode"]}
{"id": "C127", "title": "An EMPT's trie keeps references instead of the data", "statement": "The documentation says that references reduce what is stored in the trie, and that the data is not in a SparseEMPT and cannot be retrieved from it: what the trie keeps of a value, beyond its key, does not grow with the value. (It does not hold: the reference contains the key and the whole data. A SparseEMPT gives the data of every key; every proof of inclusion contains key and data, also in secure mode; data of 32 bytes or more stays in the trie storage after it is deleted or replaced.)", "quantifier": "for all histories of an EMPT, keys and values", "why_tests_cant": "A bound that holds for all values, and what stays in a storage after every history", "anchors": ["src/pymt/empt.py:DataReference.encode", "src/pymt/empt.py:EMPT.update", "src/pymt/empt.py:EMPT.delete", "src/pymt/empt.py:EMPT.get_sparse_trie", "src/pymt/empt.py:SparseEMPT.get_reference", "src/pymt/empt.py:EMPT.get_proof_of_inclusion"]}
{"id": "C128", "title": "Nodes that pymt writes do not nest deeply", "statement": "rlp.decode works by recursion. Every entry that a trie ever has in its storage, also in the middle of a call, nests at most 33 lists deep, and every entry of a proof at most 32, whatever the number and lengths of keys and values; so decoding own nodes needs a constant number of stack frames. The format itself has no such limit: for every depth there are byte strings that others can send, for instance as entries of a proof, whose decoding ends with RecursionError.", "quantifier": "for all histories, moments, modes, keys and proofs", "why_tests_cant": "A bound for all tries; tests only see the nestings of the tries they build", "anchors": ["src/pymt/utils/node.py:Node.decode", "src/pymt/utils/node.py:Node.into_reference", "src/pymt/utils/node.py:_prepare_reference_for_encoding", "src/pymt/mpt.py:MPT.get_proof_of_inclusion", "src/pymt/mpt.py:MPT.verify_proof_of_inclusion"]}
{"id": "C129", "title": "Removing unused nodes from a dict while threads use it", "statement": "Let threads make calls on tries over one dict, every trie having one writer. A client that now and then removes from the dict what cannot be reached from the current root of any of the tries goes unnoticed: every call has the outcome it has without the removals. (False: a node that update has saved is not reachable until update sets the root, so a removal in between loses the value for good although update returns; and a call that reads the trie of another thread may still follow the root it found before that thread changed it. If nothing is removed while update or delete or such a read runs, it holds; threads may be in the middle of reading their own trie.)", "quantifier": "for all lists of calls, all interleavings and all moments and extents of removals", "why_tests_cant": "Needs a removal between two particular accesses to the dict", "anchors": ["src/pymt/mpt.py:MPT.update", "src/pymt/mpt.py:MPT.delete", "src/pymt/mpt.py:MPT.get", "src/pymt/mpt.py:MPT.contains", "src/pymt/mpt.py:MPT._store_node"]}
{"id": "C130", "title": "How much room a trie takes", "statement": "After any history of update and delete on a new trie, once everything that cannot be reached from the root is removed from the dict, a trie with N > 0 keys has at most 3N - 2 entries in it (an empty one has none), whatever happened before. If keys have at most n bytes (32 in secure mode) and values at most B, every entry has at most n + B + 546 bytes. Without such removals there is no bound in terms of what the trie contains: writing m different values of 32 bytes or more to one key leaves at least m entries.", "quantifier": "for all histories without empty values, any number and length of keys and values", "why_tests_cant": "The worst ratio of nodes to keys must be found over all sets of keys and all histories", "anchors": ["src/pymt/mpt.py:MPT.update", "src/pymt/mpt.py:MPT.delete", "src/pymt/mpt.py:MPT._store_node", "src/pymt/utils/node.py:Node.into_reference"]}
{"id": "C131", "title": "What a storage shows of the past", "statement": "The storages of two tries with the same contents have the same entries whatever happened before, so that a copy of the storage, or encode(), shows nothing of values that were deleted or replaced. (False: every value of 32 bytes or more that a key ever had stays in the storage and in what encode() returns; the same for a SparseEMPT from get_sparse_trie() and its encode_rlp(), where the key is shown too. It holds once everything that cannot be reached from the root is removed: then the entries are the same, in some order.)", "quantifier": "for all pairs of histories with the same contents", "why_tests_cant": "Quantifies over pairs of histories; what is left behind depends on every intermediate state", "anchors": ["src/pymt/mpt.py:MPT.encode", "src/pymt/mpt.py:MPT._store_node", "src/pymt/mpt.py:MPT.delete", "src/pymt/empt.py:EMPT.get_sparse_trie", "src/pymt/empt.py:SparseEMPT.encode_rlp"]}
{"id": "C132", "title": "What len(trie) counts", "statement": "len(trie) is the number of nodes in the trie, as its documentation says. (False in both directions: nodes that no longer belong to the trie count, and nodes shorter than 32 bytes, which are embedded in their parent or kept in the root, do not. What holds: len is at least the number of nodes that have a hash, and equal to it once everything unused is removed; it never decreases; a trie with one key has len 0, and is False in an if, when key and value together have at most 27 bytes.)", "quantifier": "for all histories of update and delete", "why_tests_cant": "Quantifies over all histories; which nodes are counted depends on every intermediate state and on the sizes of all nodes", "anchors": ["src/pymt/mpt.py:MPT.__len__", "src/pymt/mpt.py:MPT._store_node", "src/pymt/utils/node.py:Node.into_reference"]}
{"id": "C133", "title": "What a proof tells about other keys", "statement": "Whoever is given a proof of inclusion of a key can read no value in it but that of the key. (False: the proof has the values of all keys with which the key begins, and, since short nodes are embedded in others, short values of unrelated keys. Exactly: the value of another key can be read if the nodes of its own proof are, from where the keys part, all shorter than 32 bytes. Values of 32 bytes or more can be read only for the key and keys with which it begins; in secure mode with such values nothing else can be read, and the same for a secure EMPT with references of 32 bytes or more. Whatever can be read is true. A proof of exclusion may have the value of a neighbour; in a trie with one key it always has.)", "quantifier": "for all histories, all present keys and all proofs made", "why_tests_cant": "Quantifies over all tries; which nodes are embedded depends on the sizes of whole subtries", "anchors": ["src/pymt/mpt.py:MPT.get_proof_of_inclusion", "src/pymt/mpt.py:MPT.get_proof_of_exclusion", "src/pymt/mpt.py:MPT._store_node", "src/pymt/utils/node.py:Node.into_reference"]}
{"id": "C134", "title": "The past of a trie cannot be seen in the answers of its calls", "statement": "Two tries with the same contents give the same outcomes for every sequence of later calls of get, contains, update, delete, get_proof_of_inclusion, get_proof_of_exclusion, verify_proof_of_inclusion, verify_proof_of_exclusion, root and root_hash: the same values, exceptions, proofs, verdicts and roots, whatever was done before. (False for empty tries only: a new trie and one that had keys differ in root() and in the exception get raises, and in nothing else, until the next update.)", "quantifier": "for all pairs of histories with the same contents and all sequences of later calls", "why_tests_cant": "Quantifies over pairs of histories and over all continuations, including calls that raise", "anchors": ["src/pymt/mpt.py:MPT.get", "src/pymt/mpt.py:MPT.update", "src/pymt/mpt.py:MPT.delete", "src/pymt/mpt.py:MPT.get_proof_of_inclusion", "src/pymt/mpt.py:MPT.get_proof_of_exclusion", "src/pymt/mpt.py:MPT.verify_proof_of_inclusion", "src/pymt/mpt.py:MPT.verify_proof_of_exclusion"]}
{"id": "C135", "title": "The order of the keys of an EMPT", "statement": "Iterating over an EMPT (also keys(), items()) gives the present keys, each once, in the order in which they were added, as a dict does: a key whose value is replaced keeps its place, and a key that was deleted and added again comes last. Calls that raise do not change the order. popitem() removes the key that was added first.", "quantifier": "for all histories of calls, plain and secure", "why_tests_cant": "Quantifies over all histories, with replacements, deletions, re-insertions and calls that raise", "anchors": ["src/pymt/empt.py:EMPT.__iter__", "src/pymt/empt.py:EMPT.update", "src/pymt/empt.py:EMPT.delete"]}
{"id": "C136", "title": "The past of an EMPT in the answers of its calls", "statement": "Two EMPTs with the same contents give the same outcomes for every sequence of later calls (get, get_reference, contains, update, delete, pop, popitem, setdefault, clear, len, iteration, items, making and checking proofs, root, root_hash). (False: the order of the keys shows in which order they were added, and an emptied EMPT differs from a new one as in C134. With the same order, all outcomes are the same; with another order, those of all calls that do not go through the keys.)", "quantifier": "for all pairs of histories with the same contents and all sequences of later calls", "why_tests_cant": "Quantifies over pairs of histories and over all continuations, including calls that raise", "anchors": ["src/pymt/empt.py:EMPT.get", "src/pymt/empt.py:EMPT.update", "src/pymt/empt.py:EMPT.delete", "src/pymt/empt.py:EMPT.__iter__", "src/pymt/empt.py:EMPT.get_reference"]}
{"id": "C137", "title": "Threads that ask a MerkleTree for its root", "statement": "However the calls of threads that call get_merkle_root() on one MerkleTree with leaves interleave, each gets the root of the leaves. (False: two threads that find the tree not ready both make it, and can leave it with the root of some of its leaves for good; or one gets ValueError. Holds when make_tree() has returned before the threads start: then every thread that does not call put or make_tree gets in any interleaving what it gets alone. Holds when every call is made under one lock.)", "quantifier": "for all hash functions, leaves, numbers of threads, calls and interleavings", "why_tests_cant": "Tests see a few interleavings; the failing ones need a switch between two particular reads of an attribute", "anchors": ["src/pymt/mt.py:MerkleTree.get_merkle_root", "src/pymt/merkletools.py:MerkleTools.make_tree", "src/pymt/merkletools.py:MerkleTools._calculate_next_level", "src/pymt/mt.py:MerkleTree.get_proof_of_inclusion", "src/pymt/mt.py:MerkleTree.verify_proof_of_inclusion"]}
{"id": "C138", "title": "The root while other threads add leaves", "statement": "The root that one thread gets from get_merkle_root() of a MerkleTree not yet made, while other threads put values in, is the root of the leaves that the tree had at some moment. (False: a leaf put in at the wrong moment takes the place of the last of an odd number of leaves, which is then left out. Nothing else goes wrong.)", "quantifier": "for all hash functions, leaves, numbers of threads, values put in and interleavings", "why_tests_cant": "Needs all interleavings of the steps of make_tree with additions; the failing window is between len(levels[0]) and levels[0][-1]", "anchors": ["src/pymt/mt.py:MerkleTree.get_merkle_root", "src/pymt/merkletools.py:MerkleTools.make_tree", "src/pymt/merkletools.py:MerkleTools._calculate_next_level", "src/pymt/mt.py:MerkleTree.put"]}
{"id": "C139", "title": "Leaves added by several threads", "statement": "Calls of put, get and get_count on one MerkleTree by any number of threads have, in any interleaving, the outcomes and the effect that they have one after another in some order which keeps the order of the calls of each thread and has a call that ended before another began before it. So no value is lost or put in twice.", "quantifier": "for all hash functions, trees, numbers of threads, calls and interleavings", "why_tests_cant": "Quantifies over all interleavings; lost updates show up rarely", "anchors": ["src/pymt/mt.py:MerkleTree.put", "src/pymt/mt.py:MerkleTree.get", "src/pymt/mt.py:MerkleTree.get_count", "src/pymt/merkletools.py:MerkleTools.add_leaf"]}
{"id": "C140", "title": "Threads that use a made MerkleTree while others add leaves", "statement": "When make_tree() (or a call that needs the root) has returned, calls by any number of threads other than make_tree and reset_tree have, in any interleaving, the outcomes and the effect that they have one after another in some order which keeps the order of the calls of each thread and has a call that ended before another began before it; everybody who asks for the root gets the root the tree had, whatever is put in meanwhile.", "quantifier": "for all hash functions, histories of the tree, numbers of threads, calls and interleavings", "why_tests_cant": "get_proof_of_inclusion reads the growing list of leaves several times; tests see a few interleavings", "anchors": ["src/pymt/mt.py:MerkleTree.put", "src/pymt/mt.py:MerkleTree.get", "src/pymt/mt.py:MerkleTree.get_count", "src/pymt/mt.py:MerkleTree.get_merkle_root", "src/pymt/mt.py:MerkleTree.get_proof_of_inclusion", "src/pymt/mt.py:MerkleTree.verify_proof_of_inclusion", "src/pymt/merkletools.py:MerkleTools.get_proof_of_inclusion", "src/pymt/merkletools.py:MerkleTools.get_merkle_root"]}
{"id": "C141", "title": "The past of a MerkleTree in the answers of its calls", "statement": "What a MerkleTree answers, now and after any further calls, depends on nothing but the values put in since the last reset_tree(). (False: a question asked in the past, for the root or whether a proof is right, changes later answers, since it makes the tree and later values are then left out. Holds of the values together with how many of them there were when the tree was last made; after reset_tree() nothing of the past can be seen.)", "quantifier": "for all hash functions, histories with any calls, and sequences of later calls", "why_tests_cant": "Quantifies over pairs of histories and all later call sequences", "anchors": ["src/pymt/mt.py:MerkleTree.put", "src/pymt/mt.py:MerkleTree.make_tree", "src/pymt/mt.py:MerkleTree.reset_tree", "src/pymt/mt.py:MerkleTree.get_merkle_root", "src/pymt/mt.py:MerkleTree.verify_proof_of_inclusion", "src/pymt/mt.py:MerkleTree.get_proof_of_inclusion"]}
{"id": "C142", "title": "A call on a MerkleTree that an exception ends early", "statement": "When an exception (KeyboardInterrupt, MemoryError) ends a call on a MerkleTree at any point, the tree is afterwards as good as one on which the call was not made, or one on which it was. (False: when make_tree() on a made tree ends early, the tree has to be made again; until then it gives no proofs. Nothing else goes wrong, also when many calls end early. reset_tree: see C143.)", "quantifier": "for all hash functions, histories, calls, points at which the call ends, and sequences of later calls", "why_tests_cant": "An exception can come between any two accesses; tests do not inject it at every point", "anchors": ["src/pymt/mt.py:MerkleTree.put", "src/pymt/mt.py:MerkleTree.make_tree", "src/pymt/mt.py:MerkleTree.get_merkle_root", "src/pymt/mt.py:MerkleTree.get_proof_of_inclusion", "src/pymt/mt.py:MerkleTree.verify_proof_of_inclusion", "src/pymt/merkletools.py:MerkleTools.make_tree", "src/pymt/merkletools.py:MerkleTools._calculate_next_level"]}
{"id": "C143", "title": "reset_tree ended early by an exception", "statement": "When an exception ends reset_tree() at any point, the tree is as good as before the call, or as a new one. (False: is_ready is set last, so a tree that was made is left ready without levels and raises ValueError for its root although it has leaves, or gives the root of leaves it no longer has. Holds of a tree that was not made; calling reset_tree() again, or make_tree() when something was put in, repairs the tree.)", "quantifier": "for all hash functions, histories, points at which the call ends, and sequences of later calls", "why_tests_cant": "An exception can come between any two assignments; tests do not inject it", "anchors": ["src/pymt/mt.py:MerkleTree.reset_tree", "src/pymt/merkletools.py:MerkleTools.reset_tree"]}
{"id": "C144", "title": "Threads that add leaves to a MerkleTree, read them, and reset it", "statement": "Calls of put, get, get_count and reset_tree by any number of threads on one MerkleTree have, in any interleaving, the outcomes and the effect that they have one after another in some order. This order keeps the order of the calls of each thread, and a call that had ended before another began comes before it. Without reset_tree, on a tree that is made, the same holds of all calls but make_tree.", "quantifier": "for all hash functions, trees (made or not), numbers of threads, calls and interleavings", "why_tests_cant": "reset_tree replaces three attributes one by one, and put may append to the list that was replaced; tests see a few interleavings", "anchors": ["src/pymt/mt.py:MerkleTree.put", "src/pymt/mt.py:MerkleTree.get", "src/pymt/mt.py:MerkleTree.get_count", "src/pymt/mt.py:MerkleTree.reset_tree", "src/pymt/merkletools.py:MerkleTools.reset_tree", "src/pymt/merkletools.py:MerkleTools.put", "src/pymt/merkletools.py:MerkleTools.get", "src/pymt/merkletools.py:MerkleTools.get_count"]}
{"id": "C145", "title": "The root of a MerkleTree that was reset while another thread asked for the root", "statement": "When one thread calls reset_tree() and then put(...) while another calls get_merkle_root(), a root asked for when all of these calls have returned is the root of values put in after the reset. (False: the tree can be left ready with the levels of the old leaves; it then gives the old root, and its proofs for new values are not accepted by it. get_merkle_root can also raise TypeError. Holds when all calls are made under one lock; whatever happened, reset_tree or make_tree called alone repairs the tree.)", "quantifier": "for all hash functions, values before and after the reset, and interleavings; for the lock: all numbers of threads and calls", "why_tests_cant": "Needs an interleaving inside get_merkle_root; tests have one thread", "anchors": ["src/pymt/mt.py:MerkleTree.reset_tree", "src/pymt/mt.py:MerkleTree.put", "src/pymt/mt.py:MerkleTree.make_tree", "src/pymt/mt.py:MerkleTree.get_merkle_root", "src/pymt/mt.py:MerkleTree.get_proof_of_inclusion", "src/pymt/mt.py:MerkleTree.verify_proof_of_inclusion", "src/pymt/merkletools.py:MerkleTools.reset_tree", "src/pymt/merkletools.py:MerkleTools.make_tree", "src/pymt/merkletools.py:MerkleTools._calculate_next_level", "src/pymt/merkletools.py:MerkleTools.get_merkle_root"]}
{"id": "C146", "title": "An EMPT that is given one dict for both storages", "statement": "An EMPT may be given the same dict as trie storage and as data storage: calls of update, get, delete and in have the outcomes they have with two dicts, and the root is the same. (False: a key may be the hash of a node, and then update or delete of this key destroys the node. Holds when no key has 32 bytes, and for keys of any length that are not the hash of a node or of the empty node. Iteration and len also count the nodes, and build_trie removes data.)", "quantifier": "for all hash functions, both modes, all sequences of calls, keys and values; exceptions are outcomes too", "why_tests_cant": "EMPT does not compare its two storages; tests give it two of them. The effect depends on keys that are hashes of nodes", "anchors": ["src/pymt/empt.py:EMPT.__init__", "src/pymt/empt.py:EMPT.update", "src/pymt/empt.py:EMPT.get", "src/pymt/empt.py:EMPT.delete", "src/pymt/empt.py:EMPT.__contains__", "src/pymt/empt.py:EMPT.__len__", "src/pymt/empt.py:EMPT.__iter__", "src/pymt/empt.py:EMPT.build_trie"]}
{"id": "C147", "title": "put_list with a wrong value", "statement": "MerkleTree.put_list(values) puts in all values or, when it raises, leaves the tree as it was. (False: the values before the first one that is not bytes stay in, and calling it again with a corrected list puts them in twice, which changes the root. It does exactly what put does for the values before the first wrong one. Nothing changes when the argument is no list or tuple, when the first value is wrong, and for put_list(tree.leaves), which raises TypeError and does not go on for ever.)", "quantifier": "for all hash functions, states of the tree, and lists of values of any type", "why_tests_cant": "Tests call put_list with correct values; the claim is about every position of a wrong value and every state of the tree", "anchors": ["src/pymt/mt.py:MerkleTree.put_list", "src/pymt/mt.py:MerkleTree.put", "src/pymt/merkletools.py:MerkleTools.add_leaf"]}
{"id": "C148", "title": "A timestamp can be read back", "statement": "Utils.from_timstamp_string(Utils.get_timestamp_string()) is what Utils.get_datetime_stamp() gives at the same time, without the fraction of the second. (False: without Django every call of from_timstamp_string raises AttributeError; with Django but without USE_TZ reading any timestamp back raises ValueError, because it has no offset. Holds with Django and USE_TZ.)", "quantifier": "for all moments of the years 1000 to 9999, with and without Django", "why_tests_cant": "The claim is about every moment and every setup; a test has one clock and one installation", "anchors": ["src/pymt/utils/utils.py:Utils.get_timestamp_string", "src/pymt/utils/utils.py:Utils.get_datetime_stamp", "src/pymt/utils/utils.py:Utils.from_timstamp_string"]}
{"id": "C149", "title": "Timestamps are ordered as the clock", "statement": "Timestamps of get_timestamp() and get_timestamp_string() compare, as bytes or texts, as the moments shown by the clock: one is smaller exactly when its moment is in an earlier second, and two are equal exactly when their moments are in the same second.", "quantifier": "for all two moments of the years 1000 to 9999, with and without Django", "why_tests_cant": "The claim is about all pairs of moments", "anchors": ["src/pymt/utils/utils.py:Utils.get_timestamp", "src/pymt/utils/utils.py:Utils.get_timestamp_string"]}
{"id": "C150", "title": "Threads that loop over the same Proof", "statement": "Threads that loop over one Proof object each get its five fields, in any interleaving. (False: the position is an attribute of the object. A loop can miss items, get them twice or begin with the last one, and it can raise IndexError. It never gets anything but items of the proof, and raises nothing else. Holds when every loop is made under one lock.)", "quantifier": "for all proofs, numbers of threads and interleavings of single accesses", "why_tests_cant": "Needs particular interleavings inside __next__; tests have one thread", "anchors": ["src/pymt/proof.py:Proof.__iter__", "src/pymt/proof.py:Proof.__next__", "src/pymt/proof.py:Proof.items"]}
{"id": "C151", "title": "Clients that choose their calls as they go", "statement": "Threads that choose each call when the one before it has ended, by anything that has happened so far (answers to them or to others, contents of the storage), bring about nothing that threads with fixed lists of calls could not: for the calls they turn out to make there is an interleaving with the same storage, outcomes and calls in progress. So what is claimed for threads with lists of calls (C86, C96, C144) holds for them.", "quantifier": "for all ways of choosing, all numbers of threads and all interleavings; tries, EMPTs and Merkle trees", "why_tests_cant": "Quantifies over all client programs and schedules", "anchors": ["src/pymt/mpt.py:MPT.update", "src/pymt/mpt.py:MPT.get", "src/pymt/empt.py:EMPT.update", "src/pymt/mt.py:MerkleTree.put"]}
{"id": "C152", "title": "Any program with a trie of its own", "statement": "Programs run in threads, each with an MPT of its own, all over one dict. Whatever they compute and however their next call depends on answers, each observes in any interleaving exactly what it would observe alone, in the same order, and its trie ends with the same root.", "quantifier": "for all programs, numbers of threads and interleavings of single accesses; keys within the recursion limit, no hash collision among the nodes the programs would write", "why_tests_cant": "Quantifies over all client programs and schedules", "anchors": ["src/pymt/mpt.py:MPT.update", "src/pymt/mpt.py:MPT.delete", "src/pymt/mpt.py:MPT.get", "src/pymt/mpt.py:MPT.contains"]}
{"id": "C153", "title": "Threads with an EMPT or SparseEMPT each over one trie storage", "statement": "Threads each use a SparseEMPT of their own (or an EMPT with a data storage of its own), all made over one dict as trie storage, as happens with the default argument. In any interleaving every call has the outcome it would have if the thread were alone, and the root in the end is the same.", "quantifier": "for all lists of calls, numbers of threads and interleavings; values of any type", "why_tests_cant": "Quantifies over schedules; check-then-act sequences such as contains followed by delete need many interleavings", "anchors": ["src/pymt/empt.py:SparseEMPT.update", "src/pymt/empt.py:SparseEMPT.delete", "src/pymt/empt.py:SparseEMPT.get_reference", "src/pymt/empt.py:SparseEMPT.contains", "src/pymt/empt.py:EMPT.update", "src/pymt/empt.py:EMPT.delete", "src/pymt/empt.py:EMPT.get"]}
{"id": "C154", "title": "Threads whose calls are ended by exceptions from elsewhere", "statement": "Threads call the methods of MPTs over one dict, and any call may be ended in the middle by an exception that is not its own (KeyboardInterrupt, a timeout). Each trie reads at any moment as after some of the calls, made one after the other, and an update that is not ended returns None. Any call that is not ended has the outcome it would have on the trie of some moment while it ran, but for the two exceptions that threads can cause each other anyway (C88). For a shared EMPT: get gives only values some call stored under that key, and a key that was stored and is not deleted is listed, whatever calls were ended.", "quantifier": "for all lists of calls, numbers of threads, interleavings of single accesses and moments at which calls are ended", "why_tests_cant": "Quantifies over interleavings and over the points at which exceptions arrive", "anchors": ["src/pymt/mpt.py:MPT.update", "src/pymt/mpt.py:MPT.delete", "src/pymt/mpt.py:MPT.get", "src/pymt/mpt.py:MPT.contains", "src/pymt/empt.py:EMPT.update", "src/pymt/empt.py:EMPT.get", "src/pymt/empt.py:EMPT.delete"]}
{"id": "C155", "title": "Ended calls harm no other call when writers take turns", "statement": "Threads hold a lock while they call update or delete of a trie, and release it when an exception comes; readers need no lock. Calls may be ended anywhere. Then no change that was made without an exception is lost: the trie reads as after calls made one after the other, among them all that returned.", "quantifier": "for all lists of calls, numbers of threads, interleavings in which writers of the trie take turns, and moments at which calls are ended", "why_tests_cant": "Quantifies over interleavings and over the points at which exceptions arrive", "anchors": ["src/pymt/mpt.py:MPT.update", "src/pymt/mpt.py:MPT.delete", "src/pymt/mpt.py:MPT.get", "src/pymt/mpt.py:MPT.contains"]}
{"id": "C156", "title": "A key file is replaced as a whole or not at all", "statement": "If to_key_file raises an exception, all files are as before; in particular the key pair that was in the file can still be read.", "quantifier": "for all key pairs, nicknames of any type, passphrases, file systems, and points at which the write may be ended from outside", "why_tests_cant": "Quantifies over the state of the file system and over every point of failure", "anchors": ["src/pymt/keypairs.py:RsaKeyPair.to_key_file", "src/pymt/keypairs.py:RsaKeyPair.to_key_string", "src/pymt/keypairs.py:RsaKeyPair.nickname", "src/pymt/keypairs.py:RsaKeyPair.__init__"]}
{"id": "C157", "title": "What a key file vouches for", "statement": "A text that from_key_string reads with a passphrase was written by to_key_string with this passphrase for this key pair, so nickname and public key in it can be relied on.", "quantifier": "for all texts, passphrases and key pairs", "why_tests_cant": "Quantifies over all texts somebody may have changed", "anchors": ["src/pymt/keypairs.py:RsaKeyPair.from_key_string", "src/pymt/keypairs.py:RsaKeyPair.from_key_file", "src/pymt/keypairs.py:RsaKeyPair.to_key_string"]}
{"id": "C158", "title": "Printing a key pair", "statement": "str and repr of a key pair do not depend on the private key. str tells the class and the nickname, repr shows the public key, and raises AttributeError for an object without keys.", "quantifier": "for all key pairs of the three classes", "why_tests_cant": "Independence from the private key relates pairs of executions", "anchors": ["src/pymt/keypairs.py:RsaKeyPair.__str__", "src/pymt/keypairs.py:RsaKeyPair.__repr__", "src/pymt/keypairs.py:RsaAuthKeyPair.__str__", "src/pymt/keypairs.py:RsaAuthKeyPair.__repr__", "src/pymt/keypairs.py:RsaEncKeyPair.__str__", "src/pymt/keypairs.py:RsaEncKeyPair.__repr__", "src/pymt/keypairs.py:RsaKeyPair.public_key_string"]}
{"id": "C159", "title": "The type of a proof", "statement": "A proof is accepted only for what its type says: verify_proof_of_inclusion of a trie accepts only proofs of type MPT-POI, verify_proof_of_exclusion only MPT-POE, and verify_proof_of_inclusion of a MerkleTree only MT-POI. No proof is accepted both as a proof of inclusion and as one of exclusion.", "quantifier": "for all tries, Merkle trees, proofs and hash functions", "why_tests_cant": "Quantifies over all proofs somebody may hand in", "anchors": ["src/pymt/mpt.py:MPT.verify_proof_of_inclusion", "src/pymt/mpt.py:MPT.verify_proof_of_exclusion", "src/pymt/mt.py:MerkleTree.verify_proof_of_inclusion", "src/pymt/proof.py:Proof.type"]}
{"id": "C160", "title": "The text of a proof", "statement": "Two proofs print the same (repr) exactly if they agree in type, timestamp, key, root and all entries, and so exactly if == holds. The text has only printable ASCII characters, whatever bytes the proof holds.", "quantifier": "for all proofs, with any bytes in every field", "why_tests_cant": "Injectivity of a rendering with quoting and escapes relates all pairs of proofs", "anchors": ["src/pymt/proof.py:Proof.__repr__", "src/pymt/proof.py:Proof.__eq__", "src/pymt/proof.py:Proof.__hash__"]}
{"id": "C161", "title": "The text of a Merkle tree", "statement": "Merkle trees that print the same (str, repr) have the same leaves and the same root.", "quantifier": "for all Merkle trees in any state", "why_tests_cant": "Relates all pairs of trees", "anchors": ["src/pymt/merkletools.py:MerkleTools.__str__", "src/pymt/merkletools.py:MerkleTools.__repr__", "src/pymt/merkletools.py:MerkleTools.get_tree_ready_state"]}
{"id": "C162", "title": "Loops over an MPT", "statement": "A loop over an MPT (for key in trie, list(trie)) goes through its keys.", "quantifier": "for all histories of calls and both modes", "why_tests_cant": "Quantifies over all tries; the loop goes through Python's fallback protocol with int keys", "anchors": ["src/pymt/mpt.py:MPT.__getitem__", "src/pymt/mpt.py:MPT.get", "src/pymt/mpt.py:MPT.__len__"]}
{"id": "C163", "title": "Nobody else can pass for the sender of a message", "statement": "a encrypts a message for b. Whatever somebody makes of it without touching the session key, nonce, tag and ciphertext, b.decrypt accepts it only with a as the sender.", "quantifier": "for all key pairs, messages, random choices and changed texts, and every cryptographic library that meets the contract", "why_tests_cant": "Quantifies over everything that somebody in between may do with a message", "anchors": ["src/pymt/keypairs.py:RsaKeyPair.encrypt", "src/pymt/keypairs.py:RsaKeyPair.decrypt"]}
{"id": "C164", "title": "A message is for the one who can read it", "statement": "a encrypts a message for b. A text with this ciphertext and a's signature is read by nobody but b with a as the sender.", "quantifier": "for all key pairs, messages, random choices and changed texts, and every cryptographic library that meets the contract", "why_tests_cant": "Quantifies over everything that a receiver may do with a message", "anchors": ["src/pymt/keypairs.py:RsaKeyPair.encrypt", "src/pymt/keypairs.py:RsaKeyPair.decrypt"]}
{"id": "C165", "title": "Printing nibble paths", "statement": "Every NibblePath can be printed (repr, str), and paths that print the same are equal (==).", "quantifier": "for all paths, made by the constructor, common_prefix or combine", "why_tests_cant": "Relates all pairs of paths", "anchors": ["src/pymt/utils/nibble_path.py:NibblePath.__repr__", "src/pymt/utils/nibble_path.py:NibblePath.__str__", "src/pymt/utils/nibble_path.py:NibblePath._create_new"]}
{"id": "C166", "title": "Offsets of nibble paths", "statement": "NibblePath(data, offset) skips the first offset nibbles; with a negative offset, so many nibbles at the end are skipped, as the documentation says.", "quantifier": "for all data and all offsets within the data, of either sign", "why_tests_cant": "Quantifies over all data and offsets", "anchors": ["src/pymt/utils/nibble_path.py:NibblePath.__init__", "src/pymt/utils/nibble_path.py:NibblePath.__len__", "src/pymt/utils/nibble_path.py:NibblePath.at"]}
{"id": "C167", "title": "consume gives a new path", "statement": "path.consume(n) returns a new path without the first n nibbles, as the documentation says; the old path stays as it is.", "quantifier": "for all paths and amounts, and all other paths that exist", "why_tests_cant": "Aliasing: relates the result to every reference to the old path", "anchors": ["src/pymt/utils/nibble_path.py:NibblePath.consume"]}
{"id": "C168", "title": "Threads with an EMPT each over the same two dicts", "statement": "When every thread has an EMPT object of its own and all are made with the same trie storage and the same data storage (as all made without arguments are), the calls of each thread have the outcomes they would have if the thread were alone.", "quantifier": "for all numbers of threads, calls, values, secure or not, and all interleavings of the accesses to the two dicts", "why_tests_cant": "Quantifies over all interleavings", "anchors": ["src/pymt/empt.py:EMPT.__init__", "src/pymt/empt.py:EMPT.update", "src/pymt/empt.py:EMPT.get", "src/pymt/empt.py:EMPT.delete"]}
{"id": "C169", "title": "What others over the same two dicts cannot do", "statement": "Threads with an EMPT each over the same two dicts, also with the same keys: the others can make get raise KeyError or InvalidReferenceError and delete raise KeyError, and nothing else. contains is always right; update succeeds whenever it would alone; get returns only bytes that the thread itself stored last under that key (unless two hashes are equal); and between calls the root is the one of an EMPT to which only the thread's own changes that did not raise were made.", "quantifier": "for all numbers of threads, calls, values, secure or not, and all interleavings of the accesses to the two dicts", "why_tests_cant": "Quantifies over all interleavings", "anchors": ["src/pymt/empt.py:EMPT.update", "src/pymt/empt.py:EMPT.get", "src/pymt/empt.py:EMPT.delete", "src/pymt/empt.py:EMPT.contains"]}
{"id": "C170", "title": "Calls that are ended, and others over the same two dicts", "statement": "As C169, and any call may be ended between two of its accesses of the dicts and the root by an exception that does not come from pymt (KeyboardInterrupt, MemoryError, an error of the storage). Each ended call took effect on the trie of its thread or did not, nothing in between; given that, every call that is not ended has an outcome as in C169, and between calls the root is the one of an EMPT to which only the thread's own changes were made.", "quantifier": "for all numbers of threads, calls, values, secure or not, all interleavings of the accesses to the two dicts, and all points at which calls are ended", "why_tests_cant": "Quantifies over all interleavings and all points of failure", "anchors": ["src/pymt/empt.py:EMPT.update", "src/pymt/empt.py:EMPT.get", "src/pymt/empt.py:EMPT.delete", "src/pymt/empt.py:EMPT.contains"]}
{"id": "C171", "title": "Names of hash functions", "statement": "MerkleTree(hash_type=...) accepts the two documented names \"sha256\" and \"sha3\".", "quantifier": "for all texts (which ones are accepted), both modes", "why_tests_cant": "There are infinitely many texts", "anchors": ["src/pymt/merkletools.py:MerkleTools.__init__", "src/pymt/mt.py:MerkleTree.__init__"]}
{"id": "C172", "title": "Merkle trees with different hash functions", "statement": "A Merkle tree accepts no proof of inclusion made by a Merkle tree with another hash_type, and == between the two is False.", "quantifier": "for all pairs of hash types, histories of calls, values and modes of the two trees", "why_tests_cant": "Quantifies over all pairs of histories and over what the hash functions return", "anchors": ["src/pymt/merkletools.py:MerkleTools.__eq__", "src/pymt/merkletools.py:MerkleTools.__hash__", "src/pymt/mt.py:MerkleTree.get_proof_of_inclusion", "src/pymt/mt.py:MerkleTree.verify_proof_of_inclusion"]}
{"id": "C173", "title": "The keys of a key pair object", "statement": "Whatever a client does to a key pair object (assigning to and deleting its properties, calling generate_keypair again), its public key stays the same, so that signatures made with it stay valid and messages encrypted for it can be decrypted.", "quantifier": "for all objects, sequences of assignments, deletions and calls of generate_keypair, data and messages", "why_tests_cant": "Quantifies over all sequences of actions and all messages", "anchors": ["src/pymt/keypairs.py:RsaKeyPair.public_key", "src/pymt/keypairs.py:RsaKeyPair.public_key_string", "src/pymt/keypairs.py:RsaKeyPair.nickname", "src/pymt/keypairs.py:RsaKeyPair.generate_keypair"]}
