{"id": "C01", "title": "Read your writes inside a transaction", "statement": "After urkel_tx_insert(tx,k,v) returns 1 with len(v)<=1023, urkel_tx_get(tx,k) returns exactly v, and urkel_tx_get of every other key returns what it returned before the insert (same value, or not found).", "quantifier": "all transactions reached by any history on any healthy database, all 32-byte keys, all values up to 1023 bytes", "why_tests_cant": "The tree shape (prefix splits, leaf collisions, lazily loaded hash nodes) depends on all 2^256 keys and on history; a test visits a handful of shapes.", "anchors": ["src/tree.c:urkel_tx_insert", "src/tree.c:urkel_tree_insert", "src/tree.c:urkel_tree_get", "src/bits.c"]}
{"id": "C02", "title": "Remove deletes exactly one key", "statement": "urkel_tx_remove(tx,k) returns 1 if k was present and afterwards k is not found while every other key is unchanged; if k was absent it returns 0 with ENOTFOUND and nothing observable changes.", "quantifier": "all transactions, all keys, all tree shapes", "why_tests_cant": "Removal merges prefixes of siblings that may be on disk; wrong merges only show for particular bit patterns.", "anchors": ["src/tree.c:urkel_tx_remove", "src/tree.c:urkel_tree_remove", "src/bits.c:urkel_bits_join"]}
{"id": "C03", "title": "has agrees with get", "statement": "On a healthy database urkel_tx_has(tx,k) returns 1 exactly when urkel_tx_get(tx,k) does, and 0/ENOTFOUND exactly when the key is absent.", "quantifier": "all transactions and keys", "why_tests_cant": "Ranges over all trees and keys.", "anchors": ["src/tree.c:urkel_tx_has", "src/tree.c:urkel_tx_get", "src/store.c:urkel_store_retrieve"]}
{"id": "C04", "title": "Oversized values are rejected without effect", "statement": "urkel_tx_insert with a value longer than 1023 bytes returns 0 with EINVAL and leaves the transaction (contents, root hash) unchanged; every length 0..1023 is accepted.", "quantifier": "all transactions, keys and value lengths", "why_tests_cant": "Boundary must hold in every state.", "anchors": ["src/tree.c:urkel_tx_insert", "include/urkel.h:URKEL_VALUE_SIZE"]}
{"id": "C05", "title": "A transaction is a finite map", "statement": "For every sequence of insert, remove, get, has and root calls on a transaction, the return values and outputs equal those of an ordinary finite map from 32-byte keys to byte strings started from the snapshot's contents.", "quantifier": "all operation sequences of any length from any snapshot", "why_tests_cant": "Unbounded histories.", "anchors": ["src/tree.c:urkel_tree_insert", "src/tree.c:urkel_tree_remove", "src/tree.c:urkel_tree_get"]}
{"id": "C06", "title": "Root hash depends only on contents (history independence)", "statement": "Two transactions (of the same or of different databases) with the same key/value contents have the same urkel_tx_root, whatever sequence of inserts, overwrites and removes produced them, committed or not. An empty one has the all-zero root.", "quantifier": "all pairs of operation histories", "why_tests_cant": "Quantifies over pairs of unbounded histories.", "anchors": ["src/tree.c:urkel_tx_root", "src/nodes.c:urkel_node_hash", "src/util.c:urkel_hash_internal"]}
{"id": "C07", "title": "Root hash binds the contents", "statement": "If two transactions have equal root hashes then they have equal contents, or an explicit hash collision (two distinct inputs with the same BLAKE2b output) or an explicit preimage of the zero hash can be extracted from the two trees.", "quantifier": "all pairs of transactions, any 32-byte hash function", "why_tests_cant": "Cryptographic binding cannot be sampled.", "anchors": ["src/util.c:urkel_hash_internal", "src/util.c:urkel_hash_leaf", "src/nodes.c:urkel_node_hash"]}
{"id": "C08", "title": "Re-inserting an existing pair changes nothing", "statement": "urkel_tx_insert(tx,k,v) when the transaction already maps k to v returns 1 and leaves all reads and the root hash unchanged.", "quantifier": "all transactions, keys, values", "why_tests_cant": "In-memory and on-disk leaves take different code paths.", "anchors": ["src/tree.c:urkel_tree_insert", "src/nodes.c:urkel_node_value_equals"]}
{"id": "C09", "title": "Insert then remove of a fresh key restores the root", "statement": "If k is absent, urkel_tx_insert(tx,k,v) followed by urkel_tx_remove(tx,k) both succeed and restore the original root hash and contents.", "quantifier": "all transactions, keys, values", "why_tests_cant": "Requires split and merge to be exact inverses for every bit pattern.", "anchors": ["src/tree.c:urkel_tree_insert", "src/tree.c:urkel_tree_remove", "src/bits.c:urkel_bits_split", "src/bits.c:urkel_bits_join"]}
{"id": "C10", "title": "Proof completeness", "statement": "On a healthy database urkel_tx_prove(tx,k) succeeds for every key and urkel_verify of the produced bytes with key k against urkel_tx_root(tx) returns 1; it reports exists=1 with the stored value when k is present and exists=0 when it is absent.", "quantifier": "all transactions and keys, present or absent", "why_tests_cant": "All four proof kinds at all depths and prefix lengths.", "anchors": ["src/tree.c:urkel_tx_prove", "src/tree.c:urkel_tree_prove", "src/proof.c", "src/tree.c:urkel_verify"]}
{"id": "C11", "title": "Proof soundness", "statement": "For any byte string whatsoever, if urkel_verify accepts it for key k against the root of a tree, then the reported answer (exists and value, or absent) is the tree's actual content at k, or an explicit hash collision / zero-hash preimage is extracted.", "quantifier": "all byte strings, keys and trees, any hash function", "why_tests_cant": "Adversarial inputs are unbounded.", "anchors": ["src/tree.c:urkel_verify", "src/proof.c:urkel_proof_verify", "src/proof.c:urkel_proof_read"]}
{"id": "C12", "title": "Proofs cannot equivocate", "statement": "For any 32-byte root (even one no honest tree has) and any key, two accepted proofs report the same existence bit and the same value, or an explicit hash collision / zero-hash preimage is extracted.", "quantifier": "all pairs of byte strings, all keys, all roots", "why_tests_cant": "Adversarial pairs of inputs.", "anchors": ["src/proof.c:urkel_proof_verify", "src/tree.c:urkel_verify"]}
{"id": "C13", "title": "Verification is total and memory-safe", "statement": "urkel_verify terminates on every byte string without abort or out-of-bounds access; it either returns 1 or returns 0 with one of EINVAL, ESAMEPATH, ESAMEKEY, ENEGDEPTH, EPATHMISMATCH, ETOODEEP, EHASHMISMATCH; on failure exists=0 and value_len=0; value_len is at most 1023.", "quantifier": "all byte strings, keys, roots", "why_tests_cant": "Parser robustness over all inputs.", "anchors": ["src/proof.c:urkel_proof_read", "src/proof.c:urkel_proof_verify", "src/tree.c:urkel_verify", "src/bits.c:urkel_bits_read"]}
{"id": "C14", "title": "Proof serialization round trip and size bound", "statement": "Every proof produced by urkel_tx_prove is serialized to exactly urkel_proof_size bytes, at most URKEL_PROOF_SIZE (17957), and parses back to the same proof.", "quantifier": "all transactions and keys", "why_tests_cant": "Depends on all depths and prefix lengths.", "anchors": ["src/proof.c:urkel_proof_write", "src/proof.c:urkel_proof_read", "src/proof.c:urkel_proof_size", "include/urkel.h:URKEL_PROOF_SIZE"]}
{"id": "C15", "title": "Proofs have a unique encoding", "statement": "No two distinct byte strings decode to the same proof (so a proof can be deduplicated by its bytes).", "quantifier": "all pairs of byte strings", "why_tests_cant": "Quantifies over all pairs of inputs; here it is false (unused bitmap bits are ignored) and the proof exhibits it.", "anchors": ["src/proof.c:urkel_proof_read", "src/bits.c:urkel_bits_read"]}
{"id": "C16", "title": "Commit preserves contents", "statement": "After urkel_tx_commit returns 1, the transaction still has the same contents and the same root hash, although every node is now read back from the files.", "quantifier": "all transactions; full claim for all values up to 1023 bytes", "why_tests_cant": "Depends on every tree shape, file layout and rollover; values of 256 bytes or more break it (8-bit truncation).", "anchors": ["src/tree.c:urkel_tx_commit", "src/tree.c:urkel_tree_write", "src/nodes.c:urkel_node_save", "src/store.c:urkel_store_commit"]}
{"id": "C17", "title": "Commit publishes", "statement": "After urkel_tx_commit returns 1, urkel_root equals the transaction's root hash and a transaction created with root NULL sees exactly the committed contents.", "quantifier": "all databases and transactions", "why_tests_cant": "Unbounded histories.", "anchors": ["src/tree.c:urkel_tree_commit", "src/tree.c:urkel_tx_create", "src/tree.c:urkel_root"]}
{"id": "C18", "title": "Transactions are isolated, stable views", "statement": "What a transaction reads is not changed by inserts, removes or commits made through other transactions of the same database, or by reads.", "quantifier": "all interleavings of operations on any number of transactions", "why_tests_cant": "Unbounded interleavings of API calls.", "anchors": ["src/tree.c:urkel_tx_create", "src/store.c:urkel_store_commit", "src/store.c:urkel_slab_write"]}
{"id": "C19", "title": "Historical snapshots by root hash", "statement": "For every root hash committed earlier (in this or an earlier session), urkel_tx_create(tree, root) succeeds and shows exactly the contents committed with that root; the all-zero hash always gives the empty map.", "quantifier": "all commit histories, all previously committed roots", "why_tests_cant": "Depends on the whole chain of metas and the cache state.", "anchors": ["src/store.c:urkel_store_read_history", "src/tree.c:urkel_tx_create"]}
{"id": "C20", "title": "Unknown roots are reported, not served", "statement": "urkel_tx_create, urkel_tx_inject and urkel_inject with a hash that is not a committed root fail with ENOTFOUND and change nothing.", "quantifier": "all hashes that are not committed roots, all databases", "why_tests_cant": "All histories; for urkel_inject it is false: it clears an uninitialized node.", "anchors": ["src/store.c:urkel_store_read_history", "src/store.c:urkel_store_has_history", "src/tree.c:urkel_inject"]}
{"id": "C21", "title": "Inject rewinds", "statement": "After urkel_inject(tree, h) returns 1, urkel_root(tree)=h and transactions created with root NULL show the contents committed with h; urkel_tx_inject(tx,h) does the same for one transaction.", "quantifier": "all databases and committed roots", "why_tests_cant": "Unbounded histories.", "anchors": ["src/tree.c:urkel_inject", "src/tree.c:urkel_tx_inject", "src/tree.c:urkel_tx_create"]}
{"id": "C22", "title": "tx_clear resets to a fresh transaction", "statement": "urkel_tx_clear(tx) makes tx indistinguishable from urkel_tx_create(tree, NULL).", "quantifier": "all databases and transactions", "why_tests_cant": "Interplay with urkel_inject's revert flag; false after inject.", "anchors": ["src/tree.c:urkel_tx_clear", "src/tree.c:urkel_tx_create"]}
{"id": "C23", "title": "Committed data survives close and open", "statement": "After any history of successful commits, urkel_close then urkel_open succeeds and gives a database with the same urkel_root and the same contents.", "quantifier": "all histories of commits, at all file positions including rollovers", "why_tests_cant": "Depends on file offsets up to 2 GB; at a rollover boundary it is false.", "anchors": ["src/store.c:urkel_store_init", "src/store.c:urkel_store_recover_state", "src/store.c:urkel_store_find_meta", "src/store.c:urkel_store_write_meta"]}
{"id": "C24", "title": "History survives close and open", "statement": "After close and open every root that was reachable by hash before is still reachable and has the same contents.", "quantifier": "all histories of commits", "why_tests_cant": "Meta back-pointer chain over unbounded histories.", "anchors": ["src/store.c:urkel_store_read_history", "src/store.c:urkel_store_write_meta"]}
{"id": "C25", "title": "Crash atomicity of commit", "statement": "If the process stops after any prefix of the bytes of a commit has reached the files, the next urkel_open succeeds and the database is in exactly the state before or the state after that commit, provided no user-controlled bytes imitate a keyed meta record.", "quantifier": "every crash point (every byte prefix) of every commit on every database", "why_tests_cant": "Every crash offset on every database.", "anchors": ["src/store.c:urkel_store_flush", "src/store.c:urkel_store_find_meta", "src/store.c:urkel_store_recover_state", "src/tree.c:urkel_tree_write"]}
{"id": "C26", "title": "Recovery is idempotent", "statement": "Opening, closing and opening again gives the same root, contents and files as opening once; opening a cleanly closed database does not lose a byte of committed data.", "quantifier": "all directory contents", "why_tests_cant": "Ranges over all file contents.", "anchors": ["src/store.c:urkel_store_recover_state", "src/store.c:urkel_store_find_meta"]}
{"id": "C27", "title": "A crash while creating a database is recoverable", "statement": "If the process stops at any point during the first urkel_open, a later urkel_open of the directory succeeds with an empty database.", "quantifier": "every crash point of the creation sequence", "why_tests_cant": "Every crash offset; false if the key file is created but not fully written.", "anchors": ["src/store.c:urkel_store_init_meta", "src/io.c:urkel_fs_write_file", "src/io.c:urkel_fs_read_file"]}
{"id": "C28", "title": "Files are append-only", "statement": "While a database is open no operation changes a byte already written: every data file only grows, and existing files keep their indexes.", "quantifier": "all operations, all states", "why_tests_cant": "Needed for isolation; all histories.", "anchors": ["src/store.c:urkel_store_write", "src/store.c:urkel_store_flush", "src/io_posix.c:urkel_file_write"]}
{"id": "C29", "title": "A failed commit leaves the database usable", "statement": "If urkel_tx_commit returns 0 (EBADWRITE), urkel_root, history and other transactions are unchanged, the transaction can still be destroyed or committed again, and a later successful commit is correct.", "quantifier": "all databases and all write failures", "why_tests_cant": "All failure points; false: the transaction root dangles and partial appends shift later records.", "anchors": ["src/tree.c:urkel_tree_commit", "src/store.c:urkel_store_flush", "src/io_posix.c:urkel_file_write"]}
{"id": "C30", "title": "Iteration is complete, ordered and exact", "statement": "urkel_iter_next on a transaction returns every key/value pair exactly once in ascending key order, then returns 0 with EITEREND.", "quantifier": "all transactions whose tree height fits the iterator stack", "why_tests_cant": "All tree shapes and all mixtures of loaded and unloaded nodes.", "anchors": ["src/tree.c:urkel_iter_seek", "src/tree.c:urkel_iter_next", "src/tree.c:urkel_iter_push"]}
{"id": "C31", "title": "Iteration never aborts", "statement": "Iterating any transaction never aborts the process, whatever keys it holds.", "quantifier": "all transactions", "why_tests_cant": "Adversarially chosen keys; false: a chain of 256 internal nodes, or 128 unloaded ones, overflows the 256-entry stack check.", "anchors": ["src/tree.c:urkel_iter_push", "src/tree.c:urkel_iter_seek"]}
{"id": "C32", "title": "Iterator end is sticky", "statement": "Once urkel_iter_next has returned 0 with EITEREND, every later call returns 0 with EITEREND.", "quantifier": "all iterators", "why_tests_cant": "All call sequences.", "anchors": ["src/tree.c:urkel_iter_seek"]}
{"id": "C33", "title": "Node records round trip", "statement": "Every internal or leaf node that a commit writes is read back as the same node (prefix bits, child pointers and hashes; key and value pointer), its size field fits the record and is at most 113 bytes.", "quantifier": "all prefixes 0..255 bits, all pointers in range, all hashes and keys", "why_tests_cant": "Bit-packing over all sizes and values.", "anchors": ["src/nodes.c:urkel_node_write", "src/nodes.c:urkel_node_read", "src/nodes.c:urkel_node_size", "src/nodes.c:urkel_pointer_write", "src/nodes.c:urkel_pointer_read"]}
{"id": "C34", "title": "Pointers round trip in 7 bytes", "statement": "urkel_pointer_write followed by urkel_pointer_read returns the same pointer for every file index up to 32767, position below 2^31 and size up to 1023; these bounds are tight.", "quantifier": "all pointers in range", "why_tests_cant": "Packed bit fields over 2^56 values.", "anchors": ["src/nodes.c:urkel_pointer_write", "src/nodes.c:urkel_pointer_read"]}
{"id": "C35", "title": "Corrupt node records are reported, not fatal", "statement": "Whatever bytes a node record contains, reading it yields a node or ECORRUPTION; it never aborts or reads out of bounds.", "quantifier": "all byte strings of length 1..113", "why_tests_cant": "All byte strings; false for a two-byte prefix size above 256.", "anchors": ["src/nodes.c:urkel_node_read", "src/bits.c:urkel_bits_init", "src/tree.c:urkel_tree_get"]}
{"id": "C36", "title": "Commit records round trip and are authenticated", "statement": "A meta record reads back as written under the same key; a 38-byte record is accepted only if its last 20 bytes are the keyed checksum of its first 18, so any two accepted records with equal first 18 bytes are equal.", "quantifier": "all metas, keys and byte strings", "why_tests_cant": "All byte strings.", "anchors": ["src/store.c:urkel_meta_write", "src/store.c:urkel_meta_read"]}
{"id": "C37", "title": "File names round trip and sort numerically", "statement": "urkel_serialize_u32 produces a 10-digit name that urkel_parse_u32 reads back as the same number; every accepted name is the serialization of its number; string order of names equals numeric order.", "quantifier": "all 32-bit numbers, all names", "why_tests_cant": "2^32 numbers and all strings.", "anchors": ["src/util.c:urkel_parse_u32", "src/util.c:urkel_serialize_u32"]}
{"id": "C38", "title": "Gaps in data files are refused", "statement": "Opening succeeds in finding the last file index exactly when the data files present are 1..n without a gap; other names are ignored.", "quantifier": "all directory listings", "why_tests_cant": "All sets of files.", "anchors": ["src/store.c:urkel_store_find_index"]}
{"id": "C39", "title": "Records land where their pointers say", "statement": "Every record written during a commit ends up, when flushed, at the file index and position recorded for it, entirely inside one file, and no file exceeds MAX_FILE_SIZE.", "quantifier": "all sequences of buffered writes and flushes, all rollovers", "why_tests_cant": "Rollover and multi-flush arithmetic for all sizes.", "anchors": ["src/store.c:urkel_slab_write", "src/store.c:urkel_store_flush", "src/store.c:urkel_store_write"]}
{"id": "C40", "title": "Open file handles are bounded and eviction is safe", "statement": "Eviction terminates, never closes the file being appended to, and leaves at most 32 open files.", "quantifier": "all file maps, all random streams", "why_tests_cant": "All random choices and map shapes.", "anchors": ["src/store.c:urkel_store_evict", "src/store.c:urkel_store_open_file", "src/store.c:urkel_filemap_insert"]}
{"id": "C41", "title": "Concurrent readers are safe", "statement": "Concurrent calls that only hold the tree read lock (get, has, iterate, prove on different transactions) never abort.", "quantifier": "all interleavings", "why_tests_cant": "Schedules; false: two readers can both miss the file map and insert the same file.", "anchors": ["src/store.c:urkel_store_open_file", "src/store.c:urkel_filemap_lookup", "src/store.c:urkel_filemap_insert"]}
{"id": "C42", "title": "No deadlock between API calls", "statement": "No set of concurrent API calls on a database and its transactions (no open iterators) can reach a state in which all unfinished calls wait for locks.", "quantifier": "all sets of concurrent calls and all schedules", "why_tests_cant": "Schedules; false when urkel_tx_prove runs beside a writer of the same transaction.", "anchors": ["src/tree.c:urkel_tx_prove", "src/tree.c:urkel_tx_commit", "src/tree.c:urkel_tx_create"]}
{"id": "C43", "title": "Shared state is lock-protected", "statement": "Every API call that writes shared database state holds the database write lock while it does so, and every read of it holds at least the read lock; the same for transaction state and the transaction lock, so no two concurrent calls race on it.", "quantifier": "all pairs of API calls and all schedules", "why_tests_cant": "Schedules.", "anchors": ["src/tree.c", "src/store.c:urkel_store_read_history"]}
{"id": "C44", "title": "One process at a time", "statement": "Two processes never both hold the same database open.", "quantifier": "all interleavings of opens and closes of two or more processes", "why_tests_cant": "Schedules; false: closing unlinks the lock file after releasing it.", "anchors": ["src/store.c:urkel_store_init_lock", "src/store.c:urkel_store_clear", "src/io_posix.c:urkel_fs_open_lock"]}
{"id": "C45", "title": "Path handling never overflows", "statement": "For every prefix accepted by urkel_open, every file path built from it fits the PATH_MAX+1 buffer including its terminator.", "quantifier": "all prefixes", "why_tests_cant": "All lengths; false for length 1014.", "anchors": ["src/store.c:urkel_store_init_prefix", "src/store.c:urkel_store_path"]}
{"id": "C46", "title": "Prefix arithmetic never aborts on tree operations", "statement": "On a healthy database no insert, remove, get, has, prove or commit reaches an internal consistency check failure, whatever keys are used.", "quantifier": "all transactions and keys", "why_tests_cant": "All bit patterns and depths up to 256.", "anchors": ["src/bits.c", "src/tree.c", "src/internal.h:CHECK"]}
{"id": "C47", "title": "Streaming hash equals one-shot hash", "statement": "Feeding data to the hash in any chunks gives the digest of the concatenation, and the streaming implementation equals the block-wise BLAKE2b definition.", "quantifier": "all byte strings and all ways of cutting them", "why_tests_cant": "All lengths and chunkings around the 128-byte buffer.", "anchors": ["src/blake2b.c:urkel_blake2b_update", "src/blake2b.c:urkel_blake2b_final"]}
{"id": "C48", "title": "Reads and writes survive partial system calls", "statement": "Whatever sequence of short counts and interruptions the kernel returns, a file write that reports success wrote exactly the given bytes in order, and a read that reports success returns exactly the bytes at that position.", "quantifier": "all kernel response sequences", "why_tests_cant": "Environment nondeterminism.", "anchors": ["src/io_posix.c:urkel_fs_write", "src/io_posix.c:urkel_fs_pread", "src/io_posix.c:urkel_fs_read"]}
{"id": "C49", "title": "One-shot calls equal their transaction forms", "statement": "urkel_get, urkel_has, urkel_prove, urkel_insert and urkel_remove behave as creating a transaction at the given root, doing the operation (and committing, for insert/remove) and destroying it.", "quantifier": "all databases, keys, values, roots", "why_tests_cant": "All states.", "anchors": ["src/tree.c:urkel_get", "src/tree.c:urkel_insert", "src/tree.c:urkel_remove"]}
{"id": "C50", "title": "Whole-database refinement", "statement": "Every sequence of open, transaction, commit, inject, snapshot, reopen operations returns what a simple specification (a list of committed finite maps plus a finite map per transaction) returns.", "quantifier": "all operation sequences (values up to 255 bytes, no rollover-boundary accident)", "why_tests_cant": "Unbounded histories.", "anchors": ["src/tree.c", "src/store.c"]}
{"id": "C51", "title": "Root cache is transparent", "statement": "Looking up a historical root through the in-memory cache gives the same snapshot as walking the commit chain on disk; the order of earlier lookups does not change any result.", "quantifier": "all histories and lookup orders", "why_tests_cant": "Unbounded histories.", "anchors": ["src/store.c:urkel_cache_lookup", "src/store.c:urkel_cache_insert", "src/store.c:urkel_store_read_history"]}
{"id": "C52", "title": "Key comparison and hex helpers", "statement": "urkel_memcmp returns zero exactly for equal buffers and its sign is the lexicographic order; the command line tool's hex encoding and decoding are inverse.", "quantifier": "all buffers", "why_tests_cant": "All inputs.", "anchors": ["src/internal.c:__urkel_memcmp", "src/urkel.c:urkel_base16_encode", "src/urkel.c:urkel_base16_decode"]}
{"id": "C53", "title": "An I/O error while opening does not destroy committed data", "statement": "If opening a database fails or succeeds while some read during recovery fails transiently, every commit that was there before is still there for the next open.", "quantifier": "all databases and all failing reads during recovery", "why_tests_cant": "All fault positions; false: a failed read makes recovery skip a data file and unlink it.", "anchors": ["src/store.c:urkel_store_recover_state", "src/store.c:urkel_store_find_meta"]}
{"id": "C54", "title": "Path normalisation", "statement": "The database path computed from the prefix given to urkel_open is absolute, has no empty, . or .. component and no trailing separator, and names what the prefix names lexically; computing it stays within its buffer.", "quantifier": "all prefixes and working directories", "why_tests_cant": "All strings.", "anchors": ["src/io_posix.c:urkel_path_resolve", "src/io_posix.c:urkel_path_normalize"]}
{"id": "C55", "title": "One handle at a time within a process", "statement": "While a process has a database open, a second urkel_open of it in the same process fails, and nothing it does lets other processes in.", "quantifier": "all orders of opens and closes of several handles", "why_tests_cant": "Schedules; false: fcntl locks belong to the process and are dropped when any descriptor of the file is closed.", "anchors": ["src/io_posix.c:urkel_fs_flock", "src/io.c:urkel_fs_open_lock", "src/store.c:urkel_store_init_lock"]}
{"id": "C56", "title": "Power loss", "statement": "After a power loss, at any moment, urkel_open succeeds and every commit whose call had returned success is there.", "quantifier": "all histories, all moments including the middle of a call, all choices of which unsynced bytes reached the disk, builds with and without URKEL_FSYNC", "why_tests_cant": "All crash points and all orders in which the operating system writes pages back.", "anchors": ["src/store.c:urkel_store_commit", "src/store.c:urkel_store_sync", "src/store.c:urkel_store_write", "src/store.c:urkel_store_flush"]}
{"id": "C57", "title": "Histories with kills", "statement": "However often the process is killed, in the middle of commits and in the middle of opens, urkel_open succeeds and every commit whose call had returned success is there with its contents; an open that is killed and repeated has the same outcome as one that is not.", "quantifier": "all histories of calls with any number of kills at any moment", "why_tests_cant": "All crash points, repeated any number of times.", "anchors": ["src/store.c:urkel_store_recover_state", "src/store.c:urkel_store_find_meta", "src/store.c:urkel_store_init", "src/store.c:urkel_store_commit"]}
{"id": "C58", "title": "urkel_destroy", "statement": "urkel_destroy deletes nothing but the database's own files and directory; return value 1 means that they are all gone and a later urkel_open makes an empty database; return value 0 means that the database is still there; while another process has the database open nothing is deleted.", "quantifier": "all contents of the file system, all prefixes, all failing system calls", "why_tests_cant": "All directory contents, names and path lengths; the last clause but one is false when the directory holds a foreign file, and a 1014-byte prefix overflows the path buffer.", "anchors": ["src/store.c:urkel_store_destroy", "src/tree.c:urkel_destroy", "src/io.c:urkel_fs_open_lock"]}
{"id": "C59", "title": "Concurrent calls are linearizable", "statement": "Calls made at the same time from several threads, on the database and on the same or different transactions, return what they would return, and leave the database and the transactions as they would be left, if they were made one after the other in some order in which a call that had returned before another one was made comes first.", "quantifier": "all sets of calls, all states, all interleavings of their steps", "why_tests_cant": "The number of interleavings is unbounded and a test runs few of them.", "anchors": ["src/tree.c:urkel_root", "src/tree.c:urkel_inject", "src/tree.c:urkel_tx_create", "src/tree.c:urkel_tx_commit", "src/tree.c:urkel_tx_prove", "src/tree.c:urkel_tx_get"]}
{"id": "C60", "title": "One-shot calls are atomic", "statement": "urkel_get, urkel_has, urkel_prove, urkel_insert and urkel_remove made at the same time from several threads behave as if each were executed at one moment: a read returns what the database held at one moment, and no successful insert or remove is lost.", "quantifier": "all databases, keys and values, all interleavings with other calls", "why_tests_cant": "The window between reading the root and committing is short and a test seldom hits it; the clause on writes is in fact false.", "anchors": ["src/tree.c:urkel_get", "src/tree.c:urkel_has", "src/tree.c:urkel_prove", "src/tree.c:urkel_insert", "src/tree.c:urkel_remove"]}
{"id": "C61", "title": "The command line means what the usage text says", "statement": "The urkel tool runs a command exactly when its arguments are an action with the operands it needs and options in any position (-p/--path, -r/--root, -H/--hash), where keys and roots are 64 hexadecimal digits of either case (with -H a key is any string, hashed), values are hexadecimal strings of at most 1024 bytes, and the last of several options counts; the path defaults to URKEL_PATH and then to the current directory. On any other command line it touches no database and exits with status 1 (or prints the usage if help was asked for); a command touches no database but the one at its path.", "quantifier": "all argument lists, environment values and file systems", "why_tests_cant": "There are infinitely many argument lists, and the error cases (a missing operand after an option, odd or overlong hexadecimal strings, too many operands) combine freely.", "anchors": ["src/urkel.c:urkel_options_init", "src/urkel.c:main", "src/urkel.c:urkel_base16_decode"]}
{"id": "C62", "title": "The commands of the tool read and write what was committed", "statement": "On a directory left behind by any sequence of runs (or a new one), get prints the value that the key has in the last commit (with -r: in the commit with that root) or fails if there is none; insert and remove exit with 0 exactly when the new contents have been committed and the next run sees them; list prints the keys of the selected contents once each in ascending order; info prints their number and total size; root prints the current root; prove prints a proof that verify accepts with the root of the selected contents, and verify prints only what is true of the contents with the given root.", "quantifier": "all histories of a directory, keys, values, roots, proofs", "why_tests_cant": "It ranges over all histories of runs and all contents; for values of 256 to 1023 bytes it is in fact false.", "anchors": ["src/urkel.c:urkel_main", "src/tree.c:urkel_iter_next", "src/tree.c:urkel_insert", "src/tree.c:urkel_get", "src/store.c:urkel_store_open"]}
{"id": "C63", "title": "No use after free, no double free", "statement": "A program that destroys each transaction once, does not use a handle after destroying it and closes the database last, never makes the library read, write or free memory that is not allocated, whatever addresses the allocator hands out; in-place changes to shared nodes never show through: every call returns what it would return if trees were immutable values.", "quantifier": "all programs (sequences of API calls with their results), all directories including damaged ones, all allocators, all system call failures from which the calls return", "why_tests_cant": "Which nodes are freed, resolved or shared depends on the whole history of the tree and the allocator decides whether a stale pointer is noticed; a sanitizer only sees the runs that were made. It is in fact false after a failed commit.", "anchors": ["src/nodes.c:urkel_node_destroy", "src/tree.c:urkel_tree_insert", "src/tree.c:urkel_tree_remove", "src/tree.c:urkel_tree_write", "src/tree.c:urkel_tx_destroy", "src/proof.c:urkel_proof_clear"]}
{"id": "C64", "title": "Memory is given back", "statement": "After every transaction has been destroyed the library holds only the memory of the open database itself, however many calls were made, and after urkel_close it holds none; urkel_verify leaves memory as it was.", "quantifier": "all programs, directories, allocators and proofs", "why_tests_cant": "A leak on one path of one function (an error return, a node that is both resolved and replaced) is only seen by a test that takes this path; it is in fact false for urkel_verify on malformed proofs and for a failing urkel_open.", "anchors": ["src/tree.c:urkel_open", "src/tree.c:urkel_close", "src/tree.c:urkel_tx_destroy", "src/tree.c:urkel_verify", "src/proof.c:urkel_proof_read", "src/nodes.c:urkel_node_destroy"]}
{"id": "C65", "title": "A commit is written in bounded batches", "statement": "However large a transaction is, committing it never holds more than WRITE_BUFFER plus about a kilobyte of data in memory and never writes more than that at once, even if writes fail; a commit that stays in one file makes one final append that carries the commit record, preceded only by appends of at least WRITE_BUFFER bytes, so that a small commit is a single write; copies into the buffer stay inside its allocation, which is at most half as large again as its contents.", "quantifier": "all reachable databases, transactions, values and failing system calls; all sequences of buffer writes and flushes", "why_tests_cant": "The sizes at which the buffer is flushed depend on the record sizes met along the whole tree; 64 MB transactions with every alignment of record boundaries cannot be enumerated.", "anchors": ["src/store.c:urkel_store_needs_flush", "src/store.c:urkel_store_flush", "src/store.c:urkel_slab_write", "src/tree.c:urkel_tree_write", "src/store.c:urkel_store_commit"]}
{"id": "C66", "title": "The root cache is a faithful map", "statement": "However many snapshots have been looked up or committed, and whatever their hashes, the in-memory cache of old roots returns for a root exactly the entry that was first stored for it and nothing for a root never stored, keeps everything across each growth of its table, never touches memory outside its arrays or memory it has not written, always ends its searches, and on close frees each stored entry exactly once.", "quantifier": "all hash functions, all sequences of up to 1653562409 insertions with any lookups between them", "why_tests_cant": "The table is rearranged in place by a kick-out process whose course depends on every collision pattern; the patterns for tables of every size cannot be enumerated.", "anchors": ["src/khash.h:kh_get", "src/khash.h:kh_put", "src/khash.h:kh_resize", "src/store.c:urkel_cache_lookup", "src/store.c:urkel_cache_insert", "src/store.c:urkel_cache_clear", "src/util.c:urkel_murmur3"]}
{"id": "C67", "title": "Iterators use memory correctly and give it back", "statement": "Whatever was done before, an iterator over a transaction or a snapshot may be advanced any number of times, to the end or not, and destroyed at any point: no freed or unallocated memory is used, nothing is freed twice, the blocks of the transaction and of everything else stay as they were, the iterator holds at most a fixed number of blocks however many pairs it has visited, and once it is destroyed memory is exactly what it was before it was created.", "quantifier": "all databases (damaged ones and failing reads included), all sequences of calls before, all allocators, all numbers of urkel_iter_next calls, all points at which the iterator is destroyed", "why_tests_cant": "Which nodes on the stack belong to the iterator and which to the transaction depends on how the tree is split between memory and disk at every point of the iteration; a memory checker sees only the trees that were run.", "anchors": ["src/tree.c:urkel_iter_create", "src/tree.c:urkel_iter_destroy", "src/tree.c:urkel_iter_push", "src/tree.c:urkel_iter_pop", "src/tree.c:urkel_iter_seek", "src/tree.c:urkel_iter_next", "src/tree.c:urkel_iterate"]}
{"id": "C68", "title": "Descriptors, mappings and the store's memory are given back", "statement": "After urkel_close, and after an urkel_open or urkel_destroy that fails, exactly the file descriptors, memory mappings and directory streams exist that existed before, and so do the blocks of memory, except for one block that a failing urkel_open leaks (C64). On the way no descriptor, mapping or block is used after it was released, released twice, or used as something it is not. This holds whatever is done in between and whichever system calls fail.", "quantifier": "all outcomes of all system calls, all contents of files and directories, all allocators, all sequences of reads, buffered writes, flushes, commits and history lookups between open and close", "why_tests_cant": "Every failing call has its own clean-up path, and they combine with the state of the file table and with eviction; tests exercise a handful of failures.", "anchors": ["src/store.c:urkel_store_open", "src/store.c:urkel_store_close", "src/store.c:urkel_store_clear", "src/store.c:urkel_store_destroy", "src/store.c:urkel_store_open_file", "src/store.c:urkel_store_write", "src/store.c:urkel_store_evict", "src/io.c:urkel_fs_open_lock", "src/io_posix.c:urkel_file_open", "src/io_posix.c:urkel_file_close", "src/io_posix.c:urkel_fs_scandir", "src/tree.c:urkel_open", "src/tree.c:urkel_close"]}
{"id": "C69", "title": "Damaged data files: exactly which damage a call does not survive", "statement": "Whatever the data files contain, urkel_tx_get, urkel_tx_has, urkel_tx_insert, urkel_tx_remove and urkel_tx_prove return (with a result or an error code), except for exactly these kinds of damage on the way from the root to the key. The process is aborted if and only if a record on the way announces a path longer than a key, or, for a removal, the key is there and the record on the other side of the last branch is unreadable or its path does not fit. Memory outside the key is read if and only if the paths on the way use up the key before a leaf is reached, or, for an insertion, a branch path covers all the rest of the key or a leaf with another key is found although all bits are used up.", "quantifier": "all directories a database was opened from, all sequences of calls and results, all changes of the data files at any time, all failures of system calls, all keys and values", "why_tests_cant": "A corrupted file is any file; a fuzzer finds some crashing inputs but cannot show that the rest is survived, nor which damage is the cause.", "anchors": ["src/tree.c:urkel_tree_get", "src/tree.c:urkel_tree_insert", "src/tree.c:urkel_tree_remove", "src/tree.c:urkel_tree_prove", "src/store.c:urkel_store_resolve", "src/store.c:urkel_store_read_node", "src/nodes.c:urkel_node_read", "src/bits.c:urkel_bits_join"]}
{"id": "C70", "title": "Iteration over damaged files", "statement": "Whatever the data files contain, an iterator over a transaction returns exactly the pairs of the tree from left to right, with ECORRUPTION once in the place of each node and each value that cannot be read, continues with the rest of the tree after each such error, and returns EITEREND for ever after the end. It never exhibits undefined behaviour, never loops, and aborts the process exactly if it comes to a record with a path longer than a key or to a node 256 steps below the root.", "quantifier": "every environment, every program with any calls on a database opened from any directory, with any changes of the data files between the calls, every transaction of it, and every number of calls of urkel_iter_next", "why_tests_cant": "the contents of damaged files are arbitrary; a record can point at itself, so that the tree under the root may be infinite and the number of events exponential", "anchors": ["src/tree.c: urkel_iter_next, urkel_iter_seek, urkel_iter_push, urkel_iter_create", "src/store.c: urkel_store_resolve, urkel_store_retrieve", "src/node.c: urkel_node_read"]}
{"id": "C71", "title": "Opening any directory, and looking for old roots in damaged files", "statement": "Whatever a directory contains, urkel_open cuts the data files off behind the newest commit record that carries the directory's key, and opens with the hash of the node this record names as root; without such a record it opens empty; if that node cannot be read it fails with EBADOPEN, and it aborts only if the record of that node announces a path longer than a key. Whatever the data files contain, urkel_tx_create for a root not known in memory follows the chain of commit records: it finds the root exactly if a record with it comes before a broken one, returns ENOTFOUND exactly if the chain ends or breaks first, aborts exactly if it meets a root record with a path longer than a key, and fails to return exactly if the chain leads in a circle without that root.", "quantifier": "every environment, every directory content, every program with any calls on a database opened from any directory with any changes of the data files and failing system calls between the calls, every root hash", "why_tests_cant": "the content of the files is arbitrary, and that a search ends for every content that has no circle cannot be tested", "anchors": ["src/store.c:urkel_store_init", "src/store.c:urkel_store_recover_state", "src/store.c:urkel_store_find_meta", "src/store.c:urkel_store_read_root", "src/store.c:urkel_store_read_history", "src/tree.c:urkel_tx_create", "src/tree.c:urkel_open"]}
{"id": "C72", "title": "Calls that only look change nothing, also on damaged files", "statement": "In any program, whatever happened to its data files, a call of urkel_root, urkel_tx_root, urkel_tx_get, urkel_tx_has or urkel_tx_prove that returns (with a result or an error) leaves the database and its files as they were, and no later call, damage or failing system call shows any difference: leaving such calls out of a history, or adding them, changes none of the other answers and none of the written bytes.", "quantifier": "every environment, every program with any calls on a database opened from any directory with any changes of the data files and failing system calls between the calls, every continuation by such events", "why_tests_cant": "urkel_tx_root and urkel_tx_prove do write to the tree in memory (they record hashes in its nodes, also when they fail half way); that this is invisible is a statement about all later histories", "anchors": ["src/tree.c:urkel_tx_root", "src/tree.c:urkel_tx_get", "src/tree.c:urkel_tx_has", "src/tree.c:urkel_tx_prove", "src/tree.c:urkel_tree_prove", "src/nodes.c:urkel_node_hash", "src/tree.c:urkel_tree_write"]}
{"id": "C73", "title": "What lookups and changes do on damaged data files", "statement": "In any program on a database whose data files may have been damaged: urkel_tx_get returns a value exactly if the way of the key through the records leads to its leaf and that value is stored there, URKEL_ECORRUPTION exactly if a record on the way or the value cannot be read, and URKEL_ENOTFOUND exactly if the way ends elsewhere (urkel_tx_has likewise, without the value). urkel_tx_prove fails with URKEL_ECORRUPTION exactly if a record on the way or the value of the leaf it leads to cannot be read, and a proof it returns says the same as urkel_tx_get. A successful urkel_tx_insert makes the key read as the new value and leaves the answer for every other key as it was, errors included; urkel_tx_remove likewise makes the key disappear and keeps all other answers. A failing insert or remove changes nothing, and fails with exactly these errors.", "quantifier": "every environment, every program, every change of the contents of the data files at any moments, every transaction, key and value", "why_tests_cant": "it ranges over all contents of the data files and over all other keys; damage that no lookup can see (an unused bit) turns out to matter for a later remove", "anchors": ["src/tree.c:urkel_tree_get", "src/tree.c:urkel_tree_insert", "src/tree.c:urkel_tree_remove", "src/tree.c:urkel_tx_get", "src/tree.c:urkel_tx_has", "src/tree.c:urkel_tx_insert", "src/tree.c:urkel_tx_remove", "src/bits.c:urkel_bits_join", "src/bits.c:urkel_bits_set", "src/store.c:urkel_store_retrieve", "src/tree.c:urkel_tree_prove"]}
{"id": "C74", "title": "Commits keep every answer, whatever directory was opened", "statement": "Open any directory, damaged or not, and make any calls. If urkel_tx_commit returns it returns success, and it returns whenever enough file numbers are left. After it the transaction and every other open transaction answer every lookup as before (values shorter than 256 bytes come back whole), the committed root hash is the root hash the transaction had, a transaction created or cleared afterwards answers like the committed one, and if the directory can be opened again and the last file ends on a record boundary, so does a transaction created then. A directory that could be opened before a commit can be opened after it.", "quantifier": "every environment, every contents of the directory (no more and no longer files than the library writes), every sequence of calls, every transaction, every key", "why_tests_cant": "it ranges over all damaged directories and histories; new data appended by a commit can turn a dangling pointer of an old record into a valid one", "anchors": ["src/tree.c:urkel_tx_commit", "src/tree.c:urkel_tree_write", "src/store.c:urkel_store_commit", "src/store.c:urkel_store_write_meta", "src/store.c:urkel_store_flush", "src/store.c:urkel_store_retrieve", "src/tree.c:urkel_tx_create", "src/tree.c:urkel_tx_clear", "src/tree.c:urkel_open"]}
{"id": "C75", "title": "Killed while several threads are at work", "statement": "Several threads make API calls on one open database at the same time, and the process is killed at any moment. The next urkel_open succeeds, and every commit whose call had returned is there: its root can be opened and shows exactly what was committed. The database is as after an execution of the calls one after the other, in an order that agrees with real time and contains every commit that had returned, plus at most one commit that was in progress.", "quantifier": "every environment, every earlier history of calls and kills, every set of concurrent calls, every interleaving of their steps, every moment of the kill", "why_tests_cant": "it ranges over all schedules and all crash points in them", "anchors": ["src/tree.c:urkel_tx_commit", "src/store.c:urkel_store_commit", "src/store.c:urkel_store_flush", "src/store.c:urkel_store_write", "src/tree.c:urkel_open", "src/io_posix.c:urkel_rwlock_wrlock"]}
{"id": "C76", "title": "The end of the data files is lost", "statement": "Of the bytes that a history of calls has written, only a first part remains: the last data file is shorter, or the last files are missing. urkel_open then succeeds and gives exactly the database after the calls whose bytes are all there: it reports the root of their last commit and its contents, every commit among them can be opened by its root, and no later one. In particular urkel__corrupt, called on a closed database, returns 1 and takes one byte from the last data file, changes nothing else, and so undoes exactly the last commit; when it returns 0 it has changed nothing.", "quantifier": "every environment, every history of calls, every length to which the files are cut, every file system, prefix and working directory", "why_tests_cant": "it ranges over all histories and all cuts; the tests of the library use urkel__corrupt on one small database", "anchors": ["src/tree.c:urkel__corrupt", "src/store.c:urkel_store__corrupt", "src/store.c:urkel_store_recover", "src/store.c:urkel_store_find_meta", "src/store.c:urkel_store_load_files", "src/tree.c:urkel_open", "src/io_posix.c:urkel_fs_truncate"]}
{"id": "C77", "title": "What a commit writes is bounded by the changes made", "statement": "A successful urkel_tx_commit appends at least one commit record (38 bytes) and at most 75 bytes plus, for each urkel_tx_insert and urkel_tx_remove made through the transaction since it was created (or since its last commit), 257 times the largest branch record (113 bytes), and for each insert the size of a leaf (40 bytes) and of the value. This does not depend on the number of keys in the database, on the other calls and transactions of the program, or on damage to the files. Committing a transaction through which nothing was changed appends between 38 and 75 bytes. urkel_insert and urkel_remove are bounded in the same way, and no call except commits, urkel_insert, urkel_remove and urkel_open changes the data files.", "quantifier": "every environment, every directory opened (damaged or not, within the size limits), every program and every sequence of calls between the creation of the transaction and its commit, every size of database", "why_tests_cant": "a test measures a few databases; the bound must hold for every tree shape, key set and interleaving, and a bug that rewrites unchanged records only shows as cost, not as a wrong answer", "anchors": ["src/tree.c: urkel_tree_insert, urkel_tree_remove, urkel_tree_write, urkel_tx_commit, urkel_insert, urkel_remove", "src/store.c: urkel_store_write_node, urkel_store_write_value, urkel_store_write_meta, urkel_store_commit", "src/nodes.c: urkel_node_write"]}
{"id": "C78", "title": "A call about one key depends on a bounded part of the files", "statement": "What urkel_tx_get, urkel_tx_has, urkel_tx_prove, urkel_tx_insert and urkel_tx_remove do with a key (their result, error or abort, and the transaction afterwards) depends on at most 257 node records of at most 113 bytes in the data files (258 for a removal), and urkel_tx_get and urkel_tx_prove on one stored value of at most 1023 bytes besides. Any damage elsewhere, however large the database, changes nothing in the call; and urkel_tx_has, urkel_tx_insert and urkel_tx_remove depend on no stored value at all. Creating a transaction on the current root, clearing or destroying it and reading root hashes do not depend on the data files.", "quantifier": "every state of the program whatsoever (any trees in memory, any files), every key and value, every change of the files outside the places the call depends on", "why_tests_cant": "the bound ranges over all tree shapes and all possible damage; a test can only flip some bytes of some databases", "anchors": ["src/tree.c: urkel_tree_get, urkel_tree_insert, urkel_tree_remove, urkel_tree_prove, urkel_tx_create, urkel_tx_clear, urkel_tx_root", "src/store.c: urkel_store_read_node, urkel_store_resolve, urkel_store_retrieve, urkel_store_read"]}
{"id": "C79", "title": "Exactly which commits survive a stop", "statement": "After any history of calls, with the process closing the database or being killed any number of times at any moment (in the middle of commits, of opens, or while several threads are at work), and also when the end of the data files is lost, the next urkel_open succeeds and the database is exactly as after the newest commit whose 38-byte record lies wholly in what is left of the files and ends at a multiple of 38 bytes in its file: it reports that root and contents, every older commit can be opened by its root, no newer one is known, and the files end on such a boundary again. A commit whose record is not on a boundary is therefore lost if, and only if, the process stops before a later commit whose record is; every commit is on a boundary while the data fits one file.", "quantifier": "all histories of calls, all rollovers of data files, all moments of all stops, all schedules of the threads", "why_tests_cant": "the accident needs a data file of two gigabytes that is full to the right byte; and which commits survive must be known for every crash point of every history, not only for those a test stops at", "anchors": ["src/store.c: urkel_store_write_meta, urkel_store_recover_state, urkel_store_find_meta, urkel_store_commit, urkel_store_open", "src/tree.c: urkel_open, urkel_close, urkel_tx_commit"]}
{"id": "C80", "title": "Opening while other processes open, use and close", "statement": "Any number of processes may open, use and close one database directory in any interleaving. At most one has it open; a process that has it open is not disturbed by the others' attempts, and a refused urkel_open changes nothing; an urkel_open that succeeds shows the last commit of whichever process made it, with every older commit of every process readable by its root, and nothing any process committed is lost.", "quantifier": "all numbers of processes, all interleavings of the steps of urkel_open (looking for the key file, reading or creating it, counting the data files, taking the lock and recovering) with the calls and closes of other processes", "why_tests_cant": "the accidents need another process to act between two system calls of urkel_open; a test does not control that schedule", "anchors": ["src/store.c: urkel_store_init, urkel_store_init_meta, urkel_store_find_index, urkel_store_init_lock, urkel_store_recover_state", "src/tree.c: urkel_open, urkel_close"]}
{"id": "C81", "title": "File access on Windows", "statement": "On Windows the file layer does what it does on POSIX. A positioned read, a sequential read and an append always return; success means exactly the requested bytes were read, or all bytes were appended at the end; a failure means the system reported one or the file is too short; several threads reading through one handle at the same time each get the bytes at the position they asked for; a file whose contents are mapped is never read outside the mapping, also after appending to it; files are created, truncated and opened under the same conditions as on POSIX; and urkel_open reads the key that is in the key file.", "quantifier": "all file contents, positions, buffers and sizes, all short reads and writes and failures of the system calls, all interleavings of the system calls of any number of concurrent reads of one handle", "why_tests_cant": "short reads, failing CloseHandle and the interleaving of system calls are not under a test's control, and every length and position must be right", "anchors": ["src/io_win.c: urkel_fs_open, urkel_fs_read, urkel_fs_write, urkel_fs_pread, urkel_file_open, urkel_file_pread, urkel_file_write, urkel_fs_mmap, urkel_fs_munmap", "src/io.c: urkel_fs_read_file, urkel_fs_write_file", "src/store.c: urkel_store_read_key, urkel_store_write_key"]}
{"id": "C82", "title": "The read-write lock on Windows", "statement": "The read-write lock that the library builds on Windows from a critical section and a semaphore is one: a thread that holds it for writing is the only holder; any number of readers may hold it together; no sequence of lock and matching unlock calls aborts; and if every thread inside a lock or unlock call waits, then either a thread holds the lock for writing, or all of them wait to write while a reader holds it (so the lock itself never deadlocks). It is not fair: a waiting writer can be passed by readers for ever.", "quantifier": "all numbers of threads, all interleavings of the individual system calls of lock and unlock, all histories of matching calls", "why_tests_cant": "exclusion must hold in every interleaving of the system calls of all threads", "anchors": ["src/io_win.c: urkel_rwlock_create, urkel_rwlock_wrlock, urkel_rwlock_wrunlock, urkel_rwlock_rdlock, urkel_rwlock_rdunlock"]}
{"id": "C83", "title": "One opener at a time on Windows", "statement": "On Windows at most one handle at a time, over all processes and within one process, has a database open, whatever the order in which processes open, close, fail to open and crash; and once nobody has it open, it can be opened.", "quantifier": "all numbers of processes and handles, all interleavings of their system calls on the lock file, all crashes", "why_tests_cant": "the accident needs another process to act between releasing and deleting the lock file", "anchors": ["src/io_win.c: urkel_fs_flock, urkel_fs_unlink, urkel_fs_open, urkel_fs_close", "src/io.c: urkel_fs_open_lock, urkel_fs_close_lock", "src/store.c: urkel_store_init_lock, urkel_store_close, urkel_store_destroy"]}
{"id": "C84", "title": "Other calls while an iterator is open", "statement": "While a thread has iterators open it and other threads may make any other calls. No two threads ever touch shared state at the same time with one of them changing it; what an open iterator goes over (its transaction and the database) is not changed by anybody until the iterator is destroyed; and every call returns unless it would change the transaction that the same thread iterates over.", "quantifier": "all numbers of threads, all programs of calls with iterators opened, advanced and closed at any points in between, all schedules", "why_tests_cant": "locks held across calls make the outcome depend on how the calls of all threads interleave; a test sees few schedules, and a deadlock only in the right one", "anchors": ["src/tree.c: urkel_iter_create, urkel_iter_next, urkel_iter_destroy, urkel_iterate, urkel_tx_create, urkel_tx_root, urkel_tx_prove, urkel_tx_commit", "src/io_posix.c: urkel_rwlock_rdlock, urkel_rwlock_wrlock"]}
{"id": "C85", "title": "An iteration shows one state, whatever others do meanwhile", "statement": "Threads make calls and run whole iterations (create an iterator, ask it for pairs any number of times, destroy it) at the same time, with other calls - also of the iterating thread - in the middle of an iteration. Once all are done, every call has returned what it returns when everything is done one after the other in some order that respects real time; every iteration has returned the pairs of its transaction in one single state, in order and then the end; and everything begun after urkel_iter_create returned comes after the iteration in that order.", "quantifier": "all numbers of threads, calls and iterations, all schedules, all reachable starting states", "why_tests_cant": "an iteration spans many calls, so the number of interleavings explodes and a test sees a handful of them", "anchors": ["src/tree.c: urkel_iter_create, urkel_iter_next, urkel_iter_destroy, urkel_iter_seek", "src/io_posix.c: urkel_rwlock_rdlock, urkel_rwlock_wrlock"]}
{"id": "C86", "title": "Sizes, positions and indices never wrap around", "statement": "Committing a transaction and reading from the data files give the results that the same arithmetic gives with unbounded numbers: no size, offset, position or file index wraps around and no copy goes beyond its block, with a 64-bit as with a 32-bit size_t, whichever system calls fail; also when the positions and sizes come from damaged files.", "quantifier": "all reachable states of the database, all transactions that fit into memory, all sequences of failing system calls, all positions and sizes that a file may contain, both widths of size_t", "why_tests_cant": "the sums that could wrap need gigabytes of pending data or positions near 2^64, which tests do not build up", "anchors": ["src/store.c: urkel_slab_write, urkel_store_write, urkel_store_flush, urkel_store_write_node, urkel_store_write_value, urkel_store_write_meta, urkel_store_read", "src/tree.c: urkel_tree_write, urkel_tx_commit", "src/io_posix.c: urkel_file_pread, urkel_file_write"]}
{"id": "C87", "title": "The data files are byte for byte of one format", "statement": "A successful commit appends to the data files exactly what the file format says: the values and records of the parts of the tree that are not in the files yet, children before parents and left before right, each in the last file or at the start of a new one if it does not fit, zeros up to a multiple of 38, and a commit record that refers to the previous one. So at every moment all commits can be found by following references from the end of the last file. Conversely any directory of this format, also one made by another program, can be opened without being changed, has the root of its newest commit and behaves as a database with that history.", "quantifier": "all reachable states, all commits (by a transaction or by a one-shot insert or remove), all directories of the format, all sequences of calls after opening", "why_tests_cant": "compatibility with files of other versions and programs concerns every tree shape, file size and history; tests compare a few files with themselves", "anchors": ["src/tree.c: urkel_tree_write, urkel_tx_commit, urkel_open", "src/nodes.c: urkel_node_write, urkel_pointer_write", "src/store.c: urkel_store_write_node, urkel_store_write_value, urkel_store_commit, urkel_meta_write, urkel_store_recover_state"]}
{"id": "C88", "title": "Proofs are byte for byte of one format, and exactly those are accepted", "statement": "The proof that urkel_tx_prove returns is, byte for byte, the one the proof format gives for the tree of the transaction's contents and the key, so it depends on nothing else. urkel_verify accepts a byte string for a key and a root exactly if it is the encoding of a proof (up to unneeded bits of its bitmap) whose branches the key leads through, whose hashes give the root and whose end is the key or shows that the key is not there, and it returns what this proof says. It reports URKEL_EINVAL exactly for byte strings that are no encoding of a proof.", "quantifier": "all reachable states and transactions, all keys, all byte strings, all roots, all hash functions", "why_tests_cant": "other implementations must produce and accept the same bytes for every tree shape; tests only check that the library accepts its own proofs", "anchors": ["src/proof.c: urkel_proof_write, urkel_proof_read, urkel_proof_is_sane, urkel_proof_verify", "src/tree.c: urkel_tree_prove, urkel_tx_prove, urkel_verify", "src/bits.c: urkel_bits_write, urkel_bits_read", "README.md"]}
{"id": "C89", "title": "Return values, output parameters and urkel_errno", "statement": "Every call returns 0 (or NULL) exactly if it failed, and then urkel_errno is the number of the error it failed with. On success the value, its size, the key, the root or the proof are in the caller's variables; nothing beyond their length in the buffers changes and no other variable does. On failure a get sets the size to 0 and a prove sets the proof to NULL and its length to 0, and nothing else changes but urkel_errno. A caller that iterates, asking for values or only for keys, finds the pairs one after the other in its buffers and then 0 and URKEL_EITEREND.", "quantifier": "all directories that can be opened, all sequences of calls, all failing writes, all contents of the caller's variables before the call, all byte strings given to urkel_verify", "why_tests_cant": "which of the many return paths set urkel_errno, and whether a stale value of it can be mistaken for a result, depends on the history of calls and on what the C library does to errno", "anchors": ["src/tree.c: urkel_errno, urkel_get, urkel_has, urkel_insert, urkel_remove, urkel_prove, urkel_verify, urkel_tx_get, urkel_tx_insert, urkel_tx_remove, urkel_tx_prove, urkel_tx_commit, urkel_iter_next, urkel_iter_seek", "include/urkel.h"]}
{"id": "C90", "title": "The errors of urkel_verify say what is wrong with a proof", "statement": "For every byte string, key and root urkel_verify has exactly one reason for its answer, and the error names it: EINVAL, no encoding of a proof; ESAMEKEY, the proof claims another key is there but names the key itself; ESAMEPATH, it claims the way ends at a branch that has the bits of the key; ENEGDEPTH and ETOODEEP, the branches have more or fewer bits than the depth; EPATHMISMATCH, the key does not lead through a branch; EHASHMISMATCH, all this is right but the hashes give another root. So a valid proof shown with another root is refused with EHASHMISMATCH and nothing else.", "quantifier": "all byte strings, keys, roots and hash functions", "why_tests_cant": "a proof can have several faults at once, at any of up to 256 branches; tests try single flipped bytes", "anchors": ["src/proof.c: urkel_proof_verify, urkel_proof_read, urkel_proof_is_sane", "src/tree.c: urkel_verify", "include/urkel.h"]}
{"id": "C91", "title": "Several processes on one directory, killed at any moment", "statement": "However processes that open, use and close one directory are interleaved, and whichever of them are killed at whatever moment (between calls, in the middle of a commit, in the middle of the recovery that urkel_open does), at most one has the database open; the next open of a process succeeds when nobody has it open; and the process that has it open sees every commit that returned success to any of the processes, in order, and each commit that was cut off as a whole or not at all.", "quantifier": "all numbers of processes, interleavings, call sequences and kill points, any number of kills", "why_tests_cant": "the combinations of kill points of several processes with each other's half-done opens cannot be enumerated, and a kill in the middle of another process's recovery leaves directories no test produces", "anchors": ["src/store.c: urkel_store_init, urkel_store_recover_state, urkel_store_commit", "src/tree.c: urkel_open, urkel_tx_commit", "src/io_posix.c: urkel_fs_open_lock"]}
{"id": "C92", "title": "Hashing is bounded by the changes made", "statement": "How often a call hashes does not grow with the database: get, has, remove and clear hash nothing; insert hashes twice; the root of a transaction, a proof and a commit hash at most 257 strings for each insertion or removal made through the transaction since it was created, cleared or committed, or its root was last computed (a proof one more); asking for the root twice or committing an unchanged transaction hashes nothing; urkel_open hashes at most two strings whatever is in the directory; finding an earlier root hashes at most two strings per commit; urkel_verify at most 2 + min(256, length/32) strings, none longer than 1023 bytes, whatever bytes it is given.", "quantifier": "all databases and directories, programs, transactions, keys, values, proofs and hash functions", "why_tests_cant": "tests time single databases; the bound concerns every history of changes, lookups and commits, and every forged proof", "anchors": ["src/nodes.c: urkel_node_hash", "src/tree.c: urkel_tree_insert, urkel_tree_remove, urkel_tree_prove, urkel_tree_write, urkel_tx_root", "src/store.c: urkel_store_read_root, urkel_store_read_history", "src/proof.c: urkel_proof_verify"]}
{"id": "C93", "title": "Processes that make, use and destroy one directory", "statement": "However any number of processes open, use, close and destroy one database directory: at most one has it open; urkel_destroy succeeds exactly if the directory is there and nobody has it open, and a refused urkel_destroy changes nothing; a process that has the database open is not disturbed by the others' attempts to open or destroy it; and whoever opens it sees everything that was committed since the directory was made or last destroyed, in order, and nothing from before: after urkel_destroy the next urkel_open makes a new, empty database with a new key.", "quantifier": "all numbers of processes, all interleavings of the steps of their opens, calls, closes and destroys", "why_tests_cant": "tests destroy databases nobody else uses; the claim concerns every moment another process can be in its open, and every number of times the directory is made again", "anchors": ["src/store.c: urkel_store_init, urkel_store_init_prefix, urkel_store_init_meta, urkel_store_destroy", "src/tree.c: urkel_open, urkel_close, urkel_destroy"]}
{"id": "C94", "title": "One directory made, used and destroyed, with processes killed at any moment", "statement": "However any number of processes open, use, close and destroy one database directory, and whichever of them are killed at whatever moment (between calls, in the middle of a commit, in the middle of the recovery that urkel_open does): at most one has the database open; urkel_destroy succeeds exactly if the directory is there and nobody has the database open, no matter in what state a killed process left it, and a refused one changes nothing; the next urkel_open succeeds when nobody has it open; and whoever has it open sees every commit that returned success since the directory was made or last destroyed, in order, each commit that was cut off since then as a whole or not at all, and nothing from before.", "quantifier": "all numbers of processes, interleavings, call sequences, numbers of destroys, and kill points, any number of kills", "why_tests_cant": "a test cannot kill processes at every byte of every commit and recovery while others open and destroy the same directory", "anchors": ["src/store.c: urkel_store_init, urkel_store_recover_state, urkel_store_commit, urkel_store_destroy", "src/tree.c: urkel_open, urkel_close, urkel_destroy, urkel_tx_commit", "src/io_posix.c: urkel_fs_open_lock"]}
{"id": "C95", "title": "urkel_destroy killed at any moment", "statement": "If a process is killed anywhere in urkel_destroy, nothing outside the database directory and no foreign file in it has changed, and of a database what is left is either all of it, or nothing that counts (its key file alone, or no key and no data file, both of which open as an empty database), or a directory that urkel_open refuses: never some of the data in a database that opens. Calling urkel_destroy again finishes the removal.", "quantifier": "all file systems, directories, database sizes, and kill points; all failures of the other system calls where stated", "why_tests_cant": "a test cannot kill the process between any two unlinks for directories of every size", "anchors": ["src/store.c: urkel_store_destroy, urkel_store_find_index", "src/io_posix.c: urkel_fs_scandir, urkel_fs_unlink, urkel_fs_rmdir"]}
{"id": "C96", "title": "How files are opened and created", "statement": "Whatever the kernel answers, the library opens its files in one way only: data files are written at their end only and never emptied, readers and recovery never create or empty a file, and only the key file and the lock file are emptied. What it creates can be read and written by the owner and read by the group as far as the umask allows (directories can be searched too) and is closed to everybody else. No program started by exec inherits a descriptor unless fcntl fails, an interrupted open is tried again, and a failing one leaves nothing open. Permission bits are translated one to one in both directions, and the kind of a file (regular, directory, link, ...) is reported as it is.", "quantifier": "all modes, umasks, places where a file is opened, and sequences of answers of the kernel (interruptions, unknown flags, errors)", "why_tests_cant": "a test runs on one kernel that knows O_CLOEXEC, is not interrupted, and sees a few modes under one umask", "anchors": ["src/io_posix.c: urkel_fs__flags_api_to_os, urkel_fs__mode_api_to_os, urkel_fs__mode_os_to_api, urkel_fs__open, urkel_fs_open, urkel_fs_mkdir", "src/io.c: urkel_fs_read_file, urkel_fs_write_file, urkel_fs_open_lock", "src/store.c: READ_FLAGS, WRITE_FLAGS, urkel_store_open_file, urkel_store_find_meta, urkel_store_init_prefix"]}
{"id": "C97", "title": "Listing a directory in WASI builds", "statement": "Where the names of directory entries cannot be read (WASI), the listing inferred from their lengths is the real one, up to names of lengths the library never uses, so that opening finds the same number of data files as on other systems and refuses the same directories.", "quantifier": "all directories, orders of entries, and names", "why_tests_cant": "the order and the names of directory entries are unbounded; a test lists a few directories on one host", "anchors": ["src/io_posix.c: urkel_fs_scandir (__wasi__)", "src/store.c: urkel_store_find_index, urkel_store_recover_state"]}
{"id": "C98", "title": "Writing the same again", "statement": "After a pair was inserted through a transaction, inserting it again through the same transaction, with any other calls in between that neither change this key nor commit or replace the transaction, succeeds and changes nothing at all: everything that follows, to the byte a commit appends, is as if the second call had not been made. An insertion or removal that reports a failure has changed nothing either. Every pair inserted since the transaction was created or committed, and neither overwritten nor removed since, is written by the next commit with its value and its record, even if the database has the very same pair already.", "quantifier": "all reachable states, transactions, keys, values, and sequences of calls in between", "why_tests_cant": "the calls in between can move the pair through any shape of the tree; that nothing changes is a statement about all later behaviour", "anchors": ["src/tree.c: urkel_tree_insert, urkel_tx_insert, urkel_tx_remove, urkel_tree_write", "src/nodes.c: urkel_node_value_equals"]}
