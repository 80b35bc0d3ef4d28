{
 "claims": [
  {
   "property": "C01",
   "status": "proved",
   "theorems": [
    "Urkel.C01_read_your_writes"
   ],
   "note": ""
  },
  {
   "property": "C02",
   "status": "proved",
   "theorems": [
    "Urkel.C02_remove"
   ],
   "note": ""
  },
  {
   "property": "C03",
   "status": "proved",
   "theorems": [
    "Urkel.C03_has_iff_get"
   ],
   "note": ""
  },
  {
   "property": "C04",
   "status": "proved",
   "theorems": [
    "Urkel.C04_oversized"
   ],
   "note": ""
  },
  {
   "property": "C05",
   "status": "proved",
   "theorems": [
    "Urkel.C05_finite_map"
   ],
   "note": ""
  },
  {
   "property": "C06",
   "status": "proved",
   "theorems": [
    "Urkel.C06_history_independence",
    "Urkel.C06_empty_root"
   ],
   "note": ""
  },
  {
   "property": "C07",
   "status": "proved",
   "theorems": [
    "Urkel.C07_root_binds"
   ],
   "note": ""
  },
  {
   "property": "C08",
   "status": "proved",
   "theorems": [
    "Urkel.C08_reinsert"
   ],
   "note": ""
  },
  {
   "property": "C09",
   "status": "proved",
   "theorems": [
    "Urkel.C09_insert_remove"
   ],
   "note": ""
  },
  {
   "property": "C10",
   "status": "proved",
   "theorems": [
    "Urkel.C10_proof_complete"
   ],
   "note": ""
  },
  {
   "property": "C11",
   "status": "proved",
   "theorems": [
    "Urkel.C11_proof_sound"
   ],
   "note": ""
  },
  {
   "property": "C12",
   "status": "proved",
   "theorems": [
    "Urkel.C12_no_equivocation"
   ],
   "note": ""
  },
  {
   "property": "C13",
   "status": "proved",
   "theorems": [
    "Urkel.C13_verify_total"
   ],
   "note": ""
  },
  {
   "property": "C14",
   "status": "proved",
   "theorems": [
    "Urkel.C14_proof_roundtrip"
   ],
   "note": ""
  },
  {
   "property": "C15",
   "status": "partial",
   "theorems": [
    "Urkel.C15_unique_encoding_partial",
    "Urkel.C15_unique_encoding_false"
   ],
   "note": "False as stated: unused bits of the bitmap are ignored (proved by a witness). Partial: encodings of the same proof agree outside those bits."
  },
  {
   "property": "C16",
   "status": "partial",
   "theorems": [
    "Urkel.C16_commit_preserves_partial",
    "Urkel.C16_commit_preserves_false"
   ],
   "note": "False for values of 256 bytes and more (urkel_node_save takes a uint8_t size): proved by a witness. Partial: holds when all values have at most 255 bytes."
  },
  {
   "property": "C17",
   "status": "proved",
   "theorems": [
    "Urkel.C17_commit_publishes",
    "Urkel.C74_root",
    "Urkel.C74_fresh"
   ],
   "note": "C17_commit_publishes is under the limits of CanCommit (values of at most 255 bytes, room in the files). C74_root and C74_fresh are about every program on any directory, with values of any length: the published root and what new transactions answer agree with the committed transaction."
  },
  {
   "property": "C18",
   "status": "proved",
   "theorems": [
    "Urkel.C18_isolation"
   ],
   "note": ""
  },
  {
   "property": "C19",
   "status": "proved",
   "theorems": [
    "Urkel.C19_snapshots"
   ],
   "note": ""
  },
  {
   "property": "C20",
   "status": "partial",
   "theorems": [
    "Urkel.C20_unknown_root_partial",
    "Urkel.C20_inject_unknown_false"
   ],
   "note": "False for urkel_inject: an unknown root makes urkel_store_has_history clear an uninitialised node (proved). Partial: urkel_tx_create and urkel_tx_inject."
  },
  {
   "property": "C21",
   "status": "proved",
   "theorems": [
    "Urkel.C21_inject"
   ],
   "note": ""
  },
  {
   "property": "C22",
   "status": "partial",
   "theorems": [
    "Urkel.C22_clear_partial",
    "Urkel.C22_clear_false"
   ],
   "note": "False after urkel_inject: urkel_tx_clear ignores the revert flag (proved). Partial: holds when the database was not injected."
  },
  {
   "property": "C23",
   "status": "partial",
   "theorems": [
    "Urkel.C23_reopen_partial",
    "Urkel.C23_reopen_false"
   ],
   "note": "False: when the padding before a commit record starts a new file, the record is misaligned and recovery deletes it (proved, for the real limits). Partial: holds whenever the files end at a multiple of the record size, always so while the data fits one file."
  },
  {
   "property": "C24",
   "status": "partial",
   "theorems": [
    "Urkel.C24_history_partial",
    "Urkel.C24_history_false"
   ],
   "note": "False for the same reason as C23 (proved). Partial as C23."
  },
  {
   "property": "C25",
   "status": "partial",
   "theorems": [
    "Urkel.C25_crash_atomic_partial",
    "Urkel.C25_faults_are_crashes"
   ],
   "note": "Every byte prefix of a commit, under the no-imitation hypothesis OnlyOwnRecord; missing: databases already misaligned (C23); C79 says what happens there."
  },
  {
   "property": "C26",
   "status": "proved",
   "theorems": [
    "Urkel.C26_recovery_idempotent"
   ],
   "note": ""
  },
  {
   "property": "C27",
   "status": "partial",
   "theorems": [
    "Urkel.C27_create_crash_partial",
    "Urkel.C27_create_crash_false"
   ],
   "note": "False: a partly written key file makes the directory unopenable (proved). Partial: every other crash point."
  },
  {
   "property": "C28",
   "status": "proved",
   "theorems": [
    "Urkel.C28_append_only"
   ],
   "note": ""
  },
  {
   "property": "C29",
   "status": "partial",
   "theorems": [
    "Urkel.C29_failed_commit_partial",
    "Urkel.C29_failed_commit_false",
    "Urkel.C29_retry_false"
   ],
   "note": "False: the transaction dangles, and a later commit after a partial write is corrupt (both proved). Partial: root, history and other transactions are unchanged."
  },
  {
   "property": "C30",
   "status": "partial",
   "theorems": [
    "Urkel.C30_iteration_partial"
   ],
   "note": "Missing: contents in which a key parts from the others at more than 127 positions; there iterating a snapshot aborts (C31)."
  },
  {
   "property": "C31",
   "status": "partial",
   "theorems": [
    "Urkel.C31_stack_limit",
    "Urkel.C31_no_abort_false"
   ],
   "note": "False (proved): 129 committed keys make the iterator's stack check abort. C31_stack_limit: exactly the snapshots with a key that parts from the others at more than 127 positions."
  },
  {
   "property": "C32",
   "status": "proved",
   "theorems": [
    "Urkel.C32_sticky"
   ],
   "note": ""
  },
  {
   "property": "C33",
   "status": "proved",
   "theorems": [
    "Urkel.C33_internal_roundtrip",
    "Urkel.C33_leaf_roundtrip",
    "Urkel.C33_paths",
    "Urkel.C33_internal_injective"
   ],
   "note": ""
  },
  {
   "property": "C34",
   "status": "proved",
   "theorems": [
    "Urkel.C34_pointer_roundtrip",
    "Urkel.C34_pointer_onto"
   ],
   "note": ""
  },
  {
   "property": "C35",
   "status": "partial",
   "theorems": [
    "Urkel.C35_node_read_partial",
    "Urkel.C35_abort_false",
    "Urkel.C35_out_of_bounds_false"
   ],
   "note": "False (both proved from a reachable database whose file bytes changed): a two-byte path size above 256 aborts urkel_tx_get, and stacked branches make it read bit 256 of the key. Partial: every record except those announcing a path longer than 256 bits is read as a node or rejected."
  },
  {
   "property": "C36",
   "status": "proved",
   "theorems": [
    "Urkel.C36_meta_roundtrip",
    "Urkel.C36_authentic",
    "Urkel.C36_unique"
   ],
   "note": ""
  },
  {
   "property": "C37",
   "status": "proved",
   "theorems": [
    "Urkel.C37_serialize",
    "Urkel.C37_parse",
    "Urkel.C37_roundtrip",
    "Urkel.C37_unique",
    "Urkel.C37_order"
   ],
   "note": ""
  },
  {
   "property": "C38",
   "status": "proved",
   "theorems": [
    "Urkel.C38_find_index"
   ],
   "note": ""
  },
  {
   "property": "C39",
   "status": "proved",
   "theorems": [
    "Urkel.C39_records"
   ],
   "note": "Also covers flushes that fail without writing part of the failed chunk; a chunk that is written in part and retried is C29_retry_false."
  },
  {
   "property": "C40",
   "status": "proved",
   "theorems": [
    "Urkel.C40_eviction",
    "Urkel.C40_handles",
    "Urkel.C40_limit",
    "Urkel.C40_example"
   ],
   "note": "Eviction ends, keeps the current file and at most 32 handles, for all tables and random streams; C40_handles over all sequences of reads, rollovers and commits. C40_limit: rolling over into file 0x7fff aborts. Reads never evict, so between commits the number of handles is not bounded."
  },
  {
   "property": "C41",
   "status": "partial",
   "theorems": [
    "Urkel.C41_false",
    "Urkel.C41_reads",
    "Urkel.C41_readers_partial",
    "Urkel.C41_one_file_partial",
    "Urkel.C41_example"
   ],
   "note": "False as stated (lookup and insertion are separate critical sections): C41_false gives the schedule. Proved for all schedules of any number of threads that share no unopened file, and for all databases still in their first file."
  },
  {
   "property": "C42",
   "status": "partial",
   "theorems": [
    "Urkel.C42_false",
    "Urkel.C42_no_deadlock_partial",
    "Urkel.C42_finish_partial",
    "Urkel.C42_example"
   ],
   "note": "False as stated: C42_false is the schedule of urkel_tx_prove beside urkel_tx_commit. Proved for all sets of threads, call sequences and schedules in which such a proof has its transaction for itself; also that all calls can be completed."
  },
  {
   "property": "C43",
   "status": "proved",
   "theorems": [
    "Urkel.C43_no_race",
    "Urkel.C43_example"
   ],
   "note": "Race freedom over all schedules of any number of threads performing any calls, from the lock and access traces of tree.c/store.c."
  },
  {
   "property": "C44",
   "status": "partial",
   "theorems": [
    "Urkel.C44_false",
    "Urkel.C44_no_unlink_partial",
    "Urkel.C44_serial_partial",
    "Urkel.C44_example"
   ],
   "note": "False as stated (lock file removed after release). Proved for all interleavings of system calls without orderly closing, and for all orders of opens, closes and crashes that do not overlap."
  },
  {
   "property": "C45",
   "status": "partial",
   "theorems": [
    "Urkel.C45_paths_partial",
    "Urkel.C45_paths_false",
    "Urkel.C45_accepted"
   ],
   "note": "False (proved): a prefix of 1014 bytes is accepted and every data file path then overflows the buffer by one byte. Partial: all prefixes up to 1013 bytes."
  },
  {
   "property": "C46",
   "status": "proved",
   "theorems": [
    "Urkel.C46_no_abort",
    "Urkel.C46_no_abort_tx",
    "Urkel.C74_returns"
   ],
   "note": ""
  },
  {
   "property": "C47",
   "status": "proved",
   "theorems": [
    "Urkel.C47_stream",
    "Urkel.C47_length",
    "Urkel.C47_internal",
    "Urkel.C47_leaf",
    "Urkel.C47_value",
    "Urkel.C47_raw",
    "Urkel.C47_checksum",
    "Urkel.C47_cut",
    "Urkel.blakeEnv_ok"
   ],
   "note": "blake2b.c (init, update, final, compress, counter with carry) against RFC 7693 for every digest length 1..64, key up to 64 bytes and every cutting of every input; the hashes and the checksum of util.c equal the model's over the concrete environment blakeEnv, which satisfies the assumptions of all other theorems. memcpy/buffer bounds are part of the result (no ub)."
  },
  {
   "property": "C48",
   "status": "proved",
   "theorems": [
    "Urkel.C48_pread",
    "Urkel.C48_read",
    "Urkel.C48_write",
    "Urkel.C48_pwrite",
    "Urkel.C48_write_ends",
    "Urkel.C48_pread_ends",
    "Urkel.C48_file_read",
    "Urkel.C48_file_write",
    "Urkel.C48_write_fails",
    "Urkel.C48_open",
    "Urkel.C48_open_write_read"
   ],
   "note": "All four loops of io_posix.c and the mapped file handle, for every sequence of system answers (interruptions, errors, short counts). C48_file_write shows that the write faults injected in Model/Store are what this layer can produce."
  },
  {
   "property": "C49",
   "status": "proved",
   "theorems": [
    "Urkel.C49_one_shot"
   ],
   "note": ""
  },
  {
   "property": "C50",
   "status": "proved",
   "theorems": [
    "Urkel.C50_refinement"
   ],
   "note": ""
  },
  {
   "property": "C51",
   "status": "proved",
   "theorems": [
    "Urkel.C51_cache"
   ],
   "note": ""
  },
  {
   "property": "C52",
   "status": "proved",
   "theorems": [
    "Urkel.C52_memcmp",
    "Urkel.C52_base16_decode",
    "Urkel.C52_base16_roundtrip",
    "Urkel.C52_base16_encode",
    "Urkel.C52_base16_decode32"
   ],
   "note": ""
  },
  {
   "property": "C53",
   "status": "partial",
   "theorems": [
    "Urkel.C53_false",
    "Urkel.C53_false_emfile",
    "Urkel.C53_false_key",
    "Urkel.C53_faults_partial",
    "Urkel.C53_scan",
    "Urkel.C53_no_faults"
   ],
   "note": "False as stated: C53_false_emfile (running out of descriptors during open deletes every data file, for every directory) and C53_false_key (a failing lstat of the key file). Proved: failures at any data file other than the one with the newest record, failing unlink/ftruncate, and failing to open the current file lose nothing. C53_scan: the block-wise scan equals the record-wise one."
  },
  {
   "property": "C54",
   "status": "proved",
   "theorems": [
    "Urkel.C54_normalize",
    "Urkel.C54_resolve",
    "Urkel.C54_components",
    "Urkel.C54_same",
    "Urkel.C54_shape"
   ],
   "note": "In-place normalisation on the buffer against a small lexical specification, for all strings; malloc/realloc assumed to succeed."
  },
  {
   "property": "C55",
   "status": "partial",
   "theorems": [
    "Urkel.C55_same_process_false",
    "Urkel.C55_lets_in_false"
   ],
   "note": "False; both parts refuted. With one handle per process see C44."
  },
  {
   "property": "C56",
   "status": "partial",
   "theorems": [
    "Urkel.C56_order",
    "Urkel.C56_opened",
    "Urkel.C56_synced_partial",
    "Urkel.C56_kept_partial",
    "Urkel.C56_false",
    "Urkel.C56_lost"
   ],
   "note": "False as stated (the README only promises consistency after kill -9): C56_false, with or without URKEL_FSYNC a power loss during a commit can leave a database that cannot be opened, because nodes and commit record are written without a sync between them; C56_lost, without URKEL_FSYNC (the default) a successful commit can vanish. Proved: in every build a file is synced before any byte goes to a later one, at every moment and under every fault (C56_order); with URKEL_FSYNC a power loss after a successful commit loses nothing (C56_synced_partial, C56_kept_partial). The key file is taken to be on stable storage. In-order persistence is C25."
  },
  {
   "property": "C57",
   "status": "partial",
   "theorems": [
    "Urkel.C57_interrupted_open",
    "Urkel.C57_crashes_partial",
    "Urkel.C57_opens_partial",
    "Urkel.C57_history_partial"
   ],
   "note": "C57_interrupted_open: for every directory and every moment of recovery, no exceptions. The history theorems cover any number of kills in commits, one-shot calls and opens; missing as in C25: misaligned databases (false there, C23_reopen_false), values imitating commit records, commits outside the limits, kills while the key file is created (C27)."
  },
  {
   "property": "C58",
   "status": "partial",
   "theorems": [
    "Urkel.C58_target",
    "Urkel.C58_untouched",
    "Urkel.C58_success",
    "Urkel.C58_locked",
    "Urkel.C58_outcome",
    "Urkel.C58_failure_false",
    "Urkel.C58_overflow",
    "Urkel.C58_reopen"
   ],
   "note": "False in one clause: with a foreign file in the directory the database is deleted and 0 is returned (C58_failure_false). Everything else is proved for every file system and every combination of failing system calls; for prefixes of 1014 bytes the call overflows its buffer (C58_overflow)."
  },
  {
   "property": "C59",
   "status": "proved",
   "theorems": [
    "Urkel.C59_calls",
    "Urkel.C59_two_phase",
    "Urkel.C59_locks",
    "Urkel.C59_acts",
    "Urkel.C59_footprint",
    "Urkel.C59_programs",
    "Urkel.C59_schedules",
    "Urkel.C59_finish",
    "Urkel.C59_finish_example"
   ],
   "note": "Strict serializability of every completed concurrent run of the calls of Model/Api.lean except reopen and the one-shot calls (each of which is several calls, see C60), for any programs that make the lock operations and accesses of Model/Locks.lean and compute the sequential operation; C59_programs shows that such programs exist for every operation and C59_footprint that the access lists agree with the data model. C59_schedules: every schedule the locks of Model/Locks.lean permit is such a run; C59_finish: calls not in each other's way as in C42 can be completed from every point of every run (urkel_tx_create included, with the lock of the transaction it makes). A run that deadlocks (C42_false) or in which a call aborts does not complete."
  },
  {
   "property": "C60",
   "status": "partial",
   "theorems": [
    "Urkel.C60_reads_partial",
    "Urkel.C60_writes_partial",
    "Urkel.C60_lost_update"
   ],
   "note": "False for writes: C60_lost_update, two concurrent urkel_insert of different keys can both succeed and one of the keys be missing afterwards, because each reads the root under a read lock and commits under a write lock taken later. Proved: reads take effect when their transaction is created, whatever other threads do; writes take effect at their commit if no other thread commits, injects or reopens meanwhile. Interleavings are of transaction calls, each atomic by C59."
  },
  {
   "property": "C61",
   "status": "proved",
   "theorems": [
    "Urkel.C61_line",
    "Urkel.C61_rejects",
    "Urkel.C61_runs"
   ],
   "note": "urkel_options_init and main against the grammar of Spec/Cli.lean, in both directions. Paths are compared as strings: two spellings of one directory count as different databases."
  },
  {
   "property": "C62",
   "status": "partial",
   "theorems": [
    "Urkel.C62_commands_partial",
    "Urkel.C62_cli_partial",
    "Urkel.C62_prove_verify",
    "Urkel.C62_verify_sound",
    "Urkel.C62_destroy",
    "Urkel.C62_commands_false"
   ],
   "note": "False for values of 256 to 1023 bytes: C62_commands_false, insert exits with 0 and get then prints another value (defect 1). Proved for every history of the directory (HoldsLog), every snapshot and every command within the limits of CmdOk: values of at most 255 or more than 1023 bytes, room in the data files, at most 127 parting positions for list and info (defect 7), last data file aligned (defect 6). destroy is a parameter here (C58)."
  },
  {
   "property": "C63",
   "status": "partial",
   "theorems": [
    "Urkel.C63_same",
    "Urkel.C63_programs",
    "Urkel.C63_false"
   ],
   "note": "False after a failed commit: C63_false, tx_destroy then uses a freed root (defect 4). Proved by a refinement between the functional model and a model with a heap of mutable blocks, malloc and free: for every directory, history, allocator and fault plan, if the functional calls return then so do the calls with memory, with the same results. Calls that fail because of damaged files or failing system calls are included."
  },
  {
   "property": "C64",
   "status": "partial",
   "theorems": [
    "Urkel.C64_no_leak",
    "Urkel.C64_verify",
    "Urkel.C64_verify_false",
    "Urkel.C64_open_false"
   ],
   "note": "False for urkel_verify: C64_verify_false, every proof followed by extra bytes leaves its nodes allocated; false for urkel_open: C64_open_false, a failing open leaves one block. Proved: any program covered by C46 that destroys its transactions leaves exactly the two blocks of urkel_open, which urkel_close frees (C63_same says it for any directory and any calls that return); urkel_verify on anything that parses leaves memory as it was."
  },
  {
   "property": "C65",
   "status": "proved",
   "theorems": [
    "Urkel.C65_bounded",
    "Urkel.C65_batches",
    "Urkel.C65_allocation"
   ],
   "note": "Memory bound under any faults; exact list of system calls of a commit that does not change file; the allocation behind the buffer for any sequence of writes and flushes. The memory bound is for a database without an earlier failed commit (a failed commit keeps its buffer, see C29)."
  },
  {
   "property": "C66",
   "status": "proved",
   "theorems": [
    "Urkel.C66_map",
    "Urkel.C66_clear",
    "Urkel.C66_cache"
   ],
   "note": "kh_get, kh_put, kh_resize with its kick-out rehash, the flag words, kroundup32, murmur3 and the cache functions, for any hash function. At most 1653562409 insertions (the load limit of 2^31 buckets, beyond which 32-bit bucket counts overflow). Running out of memory ends the process and is not modelled; the double multiplication by 0.77 is replaced by exact arithmetic, equal for powers of two up to 2^31."
  },
  {
   "property": "C67",
   "status": "proved",
   "theorems": [
    "Urkel.C67_safe",
    "Urkel.C67_iterate",
    "Urkel.C67_programs"
   ],
   "note": "Proved by refinement from the functional iterator: whenever its calls return, so do those with memory, with the same results (an iteration deeper than the stack aborts in both: C31). Any directory, damage and failing reads included; the iteration may stop anywhere. Blocks are counted: at most 770 for an iterator, 773 with urkel_iterate. The calls before it are those of C63."
  },
  {
   "property": "C68",
   "status": "proved",
   "theorems": [
    "Urkel.C68_store",
    "Urkel.C68_destroy",
    "Urkel.C68_session"
   ],
   "note": "Model/Resource reduces the store to what it acquires, uses and releases; every outcome of a system call, lookup or parse is an arbitrary answer, so the theorems cover more executions than the code has. realloc is modelled as free and malloc. munmap of a whole mapping and close are taken to release whatever they return. Blocks of nodes and transactions are the subject of C63, C64, C67. A failing urkel_open leaves exactly one block (C64_open_false)."
  },
  {
   "property": "C69",
   "status": "proved",
   "theorems": [
    "Urkel.C69_get",
    "Urkel.C69_has",
    "Urkel.C69_insert",
    "Urkel.C69_remove",
    "Urkel.C69_prove",
    "Urkel.C69_remove_aborts",
    "Urkel.C69_remove_joins",
    "Urkel.C69_insert_outside"
   ],
   "note": "Exact conditions, both directions, for every system that was opened from any directory and then used, damaged and subjected to failing system calls in any order (Worn). Data files keep their lengths when they are damaged from outside while the database is open. The conditions (Spec/Damage) are about the nodes met on the way of the key. Iteration is C70. The last three theorems are concrete damage that kills a process although the key it works on is intact."
  },
  {
   "property": "C70",
   "status": "proved",
   "theorems": [
    "Urkel.C70_iteration",
    "Urkel.C70_aborts",
    "Urkel.C70_defined",
    "Urkel.worn_iterate"
   ],
   "note": "Exact: the sequence of results of any number of calls equals the events of the tree in order (Spec/Walk: walk, played), for every Worn program (any directory opened, any change of the files, any failing system calls). C70_aborts characterises the aborts (defects 7 and 8) independently. The files do not change during the iteration."
  },
  {
   "property": "C71",
   "status": "proved",
   "theorems": [
    "Urkel.C71_open",
    "Urkel.C71_open_fails",
    "Urkel.C71_create",
    "Urkel.C71_create_known",
    "Urkel.C71_create_hangs"
   ],
   "note": "Exact characterisations in both directions. C71_open covers every directory (system calls of the opening itself do not fail; see C53 for those), C71_create every Worn program. The model of the loop in urkel_store_read_history has fuel for as many rounds as there are bytes in the files, and the theorem shows that running out of fuel happens exactly if there is an infinite chain of records (pigeonhole). C71_create_hangs is a concrete circle (defect 25)."
  },
  {
   "property": "C72",
   "status": "proved",
   "theorems": [
    "Urkel.C72_quiet",
    "Urkel.C72_trimmed",
    "Urkel.C72_records"
   ],
   "note": "For every Worn program (any directory opened, any change of the files, any failing writes). Observes (Spec/Quiet) is the list of answers and the final database, including aborts and undefined behaviour. C72_records shows that the calls do change the memory of the program. Reads of the files do not fail spontaneously in the model; a file that changes is an event."
  },
  {
   "property": "C73",
   "status": "partial",
   "theorems": [
    "Urkel.C73_get",
    "Urkel.C73_has",
    "Urkel.C73_prove",
    "Urkel.C73_insert",
    "Urkel.C73_insert_fails",
    "Urkel.C73_remove_fails",
    "Urkel.C73_remove_partial",
    "Urkel.C73_clean",
    "Urkel.C73_remove_loses"
   ],
   "note": "Exact for reading, testing, proving, inserting and for all failures. The clause for remove is false (defect 26): urkel_bits_join copies the unused bits after the left path and urkel_bits_set can only set bits, so one flipped bit that nothing ever looks at makes a successful remove lose other keys (C73_remove_loses, a concrete database). C73_remove_partial proves the clause when those bits are zero, which they are in every state reached without damage (C73_clean); a leaf that damage had put in the wrong place may become visible when its neighbour is removed."
  },
  {
   "property": "C74",
   "status": "partial",
   "theorems": [
    "Urkel.C74_commit_partial",
    "Urkel.C74_others_partial",
    "Urkel.C74_root",
    "Urkel.C74_fresh",
    "Urkel.C74_returns",
    "Urkel.C74_reopen_partial",
    "Urkel.C74_hides",
    "Urkel.C74_unopenable"
   ],
   "note": "For every FromDir program: any directory within the size limits, any calls, no failing system calls and no further damage while it runs. Exceptions that the code really has: new values are cut to their length modulo 256 (defect 1); a lookup that failed with URKEL_ECORRUPTION may answer something else afterwards, even a piece of another key's value (C74_hides, concrete); and a successful commit after removing the only readable neighbour makes the directory unopenable (C74_unopenable, concrete, defect 27). C74_reopen_partial assumes that the last file ends on a record boundary (defect 6) and that the directory opens again."
  },
  {
   "property": "C75",
   "status": "partial",
   "theorems": [
    "Urkel.C75_killed_partial",
    "Urkel.C75_commits_partial",
    "Urkel.C75_programs",
    "Urkel.C23_reopen_false"
   ],
   "note": "For all programs that follow the locking of the C code (Performs), compute the operation when alone (Implements) and append to the files gradually when alone (Gradual); every schedule; a kill between any two steps, where a write may be split into any number of steps. Missing, as in C23, C25 and C57: states in which the last file does not end on a record boundary (the claim is false there: C23_reopen_false, defect 6), values that imitate commit records, commits outside CanCommit. The process may also be killed while calls are deadlocked (defect 9): nothing is assumed about the calls still waiting for locks."
  },
  {
   "property": "C76",
   "status": "partial",
   "theorems": [
    "Urkel.C76_tail_partial",
    "Urkel.C76_all_gone",
    "Urkel.C76_corrupt_partial",
    "Urkel.C76_untouched",
    "Urkel.C76_cut",
    "Urkel.C76_overflow",
    "Urkel.C76_target",
    "Urkel.C23_reopen_false"
   ],
   "note": "The cut may be anywhere behind the files of any earlier logged state, so anywhere in the history. C76_untouched, C76_cut and C76_target are exact for urkel__corrupt on every file system with failing system calls; with a resolved prefix of 1014 bytes it overruns its buffer (C76_overflow, the same slip as defect 11). Missing, as in C23 and C25: histories with states in which the last file does not end on a record boundary (not even the whole files open as they were: C23_reopen_false, defect 6), values that imitate commit records, commits outside CanCommit."
  },
  {
   "property": "C77",
   "status": "proved",
   "theorems": [
    "Urkel.C77_commit",
    "Urkel.C77_next",
    "Urkel.C77_unchanged",
    "Urkel.C77_insert",
    "Urkel.C77_remove",
    "Urkel.C77_only"
   ],
   "note": "For every FromDir program: any directory within the size limits, any calls (allowed or not), no failing system calls and no further damage while it runs. Op.weight (Spec/Cost) counts only changes made through the transaction itself; clearing it or moving it to another root only lowers what is written."
  },
  {
   "property": "C78",
   "status": "proved",
   "theorems": [
    "Urkel.C78_local",
    "Urkel.C78_bytes",
    "Urkel.C78_free"
   ],
   "note": "No hypotheses on the state: the theorems hold for every Sys, reachable or not. SameCall (Spec/Local) compares results, errors, aborts and undefined behaviour, and the whole program afterwards. The example shows a byte on which the answer does depend and one on which it does not."
  },
  {
   "property": "C79",
   "status": "proved",
   "theorems": [
    "Urkel.C79_closed",
    "Urkel.C79_killed",
    "Urkel.C79_tail",
    "Urkel.C79_threads",
    "Urkel.C79_holds",
    "Urkel.C79_safe",
    "Urkel.C79_loses"
   ],
   "note": "Says what C23, C24, C25, C57, C75 and C76 leave open: no hypothesis about where the files end. NoImitation: no bytes that a user chose look like a keyed commit record (when nothing is safe yet, none starts with the magic number). Commits within the limits of CanCommit (values of at most 255 bytes, room in the files), no failing system calls."
  },
  {
   "property": "C80",
   "status": "partial",
   "theorems": [
    "Urkel.C80_one",
    "Urkel.C80_failed",
    "Urkel.C80_together_partial",
    "Urkel.C80_open_partial",
    "Urkel.C80_undisturbed_partial",
    "Urkel.C80_window_partial",
    "Urkel.C80_above_partial",
    "Urkel.C80_above_example",
    "Urkel.C80_count_false",
    "Urkel.C80_key_false",
    "Urkel.C80_example"
   ],
   "note": "False as stated: urkel_store_init reads or creates the key and counts the data files before it takes the lock. C80_count_false: overtaken after counting, a process opens an empty database and its commit hides the other's for good. C80_key_false: two first opens at once; the one that is refused has replaced the key, and the other's data is removed by the next open. Proved: mutual exclusion in every interleaving; and for every interleaving in which the directory had been created before and each count is still right when the lock is taken (C80_window_partial says when that is so), all of the claim. The lock is a plain mutex here (C44, C55 for how far the lock file is one); writing the key file and recovery are single steps; urkel_destroy is among the events in C93."
  },
  {
   "property": "C81",
   "status": "partial",
   "theorems": [
    "Urkel.C81_pread",
    "Urkel.C81_pread_ends",
    "Urkel.C81_read",
    "Urkel.C81_read_ends_partial",
    "Urkel.C81_read_hangs",
    "Urkel.C81_open_hangs",
    "Urkel.C81_key",
    "Urkel.C81_write",
    "Urkel.C81_new_key",
    "Urkel.C81_shared_handle",
    "Urkel.C81_shared_example",
    "Urkel.C81_file_open",
    "Urkel.C81_file_read",
    "Urkel.C81_file_write_partial",
    "Urkel.C81_dangling_false",
    "Urkel.C81_flags",
    "Urkel.C81_example"
   ],
   "note": "False in two places. C81_read_hangs/C81_open_hangs: ReadFile reports the end of a file as success with no bytes, and urkel_fs_read loops on that for ever, so urkel_open never returns on a key file that is too short (as a crash during creation leaves it). C81_dangling_false: if CloseHandle of the mapping fails, the unmapped view is still used by the next read. The rest is proved; Win32 calls by their documented contracts."
  },
  {
   "property": "C82",
   "status": "proved",
   "theorems": [
    "Urkel.C82_exclusion",
    "Urkel.C82_no_abort",
    "Urkel.C82_progress",
    "Urkel.C82_starvation",
    "Urkel.C82_example"
   ],
   "note": "C82_starvation is the negative fact of the statement: the lock is unfair. The readers counter is a natural number in the model (in C an unsigned int: 2^32 threads holding the lock at once do not exist)."
  },
  {
   "property": "C83",
   "status": "partial",
   "theorems": [
    "Urkel.C83_exclusive_partial",
    "Urkel.C83_free_partial",
    "Urkel.C83_posix_false",
    "Urkel.C83_example"
   ],
   "note": "Proved, also for several handles in one process (where the POSIX back end fails, C55), if deleting a file waits for its last handle, as Windows documents for DeleteFileA. False (C83_posix_false) with the POSIX delete semantics of newer Windows on NTFS: as in C44, the lock file is deleted after the lock is released."
  },
  {
   "property": "C84",
   "status": "partial",
   "theorems": [
    "Urkel.C84_no_race",
    "Urkel.C84_iterator_is_stable",
    "Urkel.C84_alone",
    "Urkel.C84_no_deadlock_partial",
    "Urkel.C84_false",
    "Urkel.C84_waiting_writer_false",
    "Urkel.C84_older_root_false",
    "Urkel.C84_example",
    "Urkel.C84_stable_example"
   ],
   "note": "Any programs that open, use and close iterators with other calls in between. False as stated: C84_older_root_false (a single thread that asks for a value under an older root while it has an iterator open never gets an answer), C84_false (iterating over one transaction and reading another that a second thread commits deadlocks), C84_waiting_writer_false (with locks that prefer writers even a lookup in the iterated transaction deadlocks). Proved: no races and a stable view for all programs; C84_alone: exactly which calls of a lone thread return; no deadlock for threads that keep away from what others change meanwhile (Apart)."
  },
  {
   "property": "C85",
   "status": "partial",
   "theorems": [
    "Urkel.C59_acts",
    "Urkel.C85_jobs",
    "Urkel.C85_scan_partial",
    "Urkel.C85_snapshot_partial",
    "Urkel.C85_programs",
    "Urkel.scan_overlap",
    "Urkel.scan_pairs"
   ],
   "note": "Linearizability of calls and whole iterations is proved in full (C85_jobs; C85_programs: there are programs that meet its hypotheses). Partial only because the pairs an iteration returns are characterised for trees of at most 127 branch levels: deeper ones abort (C31_no_abort_false). A job is an entity with its own locks, so an iteration overlapping with other calls of the same thread is covered; whether such overlapping calls get their locks at all is C84."
  },
  {
   "property": "C86",
   "status": "partial",
   "theorems": [
    "Urkel.C86_commit",
    "Urkel.C86_database",
    "Urkel.C86_read",
    "Urkel.C86_32_false"
   ],
   "note": "Proved for both widths of size_t for every database a program has open and every fault sequence within the next commit (C86_database), for reads of arbitrary positions and sizes (C86_read), and for sequences of commits with failing flushes as long as the buffer stays below a third of what size_t counts (C86_commit also gives the state for the next commit). False (C86_32_false) with a 32-bit size_t when flushes keep failing and the program keeps committing: at the latest when 2 GB are pending, the new size of the block has wrapped around."
  },
  {
   "property": "C87",
   "status": "proved",
   "theorems": [
    "Urkel.C87_commit",
    "Urkel.C87_history",
    "Urkel.C87_open",
    "Urkel.C87_close",
    "Urkel.C87_new",
    "Urkel.C87_made",
    "Urkel.C87_bytes",
    "Urkel.C87_foreign"
   ],
   "note": "For the commits of C46, i.e. values of at most 255 bytes (defect 1 makes longer ones unreadable; see C16 and C79). Reading covers values of up to 1023 bytes, which other programs may have written (C87_foreign). A directory whose newest commit record is not at a multiple of 38 is not conforming: the library can write one (defect 6) but does not find the commit again. Checksum and hash functions are parameters, instantiated with BLAKE2b in C47."
  },
  {
   "property": "C88",
   "status": "proved",
   "theorems": [
    "Urkel.C88_verify",
    "Urkel.C88_malformed",
    "Urkel.C88_prove",
    "Urkel.C88_canonical",
    "Urkel.C88_honest",
    "Urkel.C88_bytes",
    "Urkel.readme_data",
    "Urkel.readme_proof"
   ],
   "note": "readme_data and readme_proof are no general statements: they run the command line session of README.md in the model with BLAKE2b, and the model prints the roots and the proof that the real program printed there."
  },
  {
   "property": "C89",
   "status": "partial",
   "theorems": [
    "Urkel.C89_calls",
    "Urkel.C89_program",
    "Urkel.C89_reachable",
    "Urkel.C89_open",
    "Urkel.C89_verify",
    "Urkel.C89_next",
    "Urkel.C89_iteration_partial",
    "Urkel.C89_no_tls_false"
   ],
   "note": "C89_calls covers every directory that opens, every call sequence and all failing writes, in builds with URKEL_TLS. Iteration as a whole: trees of at most 127 branch levels, as in C30; single calls of urkel_iter_next on any database (C89_next). False (C89_no_tls_false) in builds without URKEL_TLS, where urkel_errno is the errno of the C library: what library calls leave in it between setting and reading decides whether inserting a pair that is there already succeeds."
  },
  {
   "property": "C90",
   "status": "proved",
   "theorems": [
    "Urkel.C90_error",
    "Urkel.C90_complete",
    "Urkel.C90_other_root",
    "Urkel.C90_each"
   ],
   "note": "The order in which several faults are reported (end of the way, then the branch farthest from the root, then the number of bits, then the hash) is part of the specification (Wrong in Spec/Reason)."
  },
  {
   "property": "C91",
   "status": "partial",
   "theorems": [
    "Urkel.C91_inside_partial",
    "Urkel.C91_open_partial",
    "Urkel.C91_example"
   ],
   "note": "Any number of processes, any interleaving, any number of kills: between calls, after any byte of a committing call (while other processes are anywhere in their opens), and at any state of the files on the way through a recovery. Missing, as in C23, C25 and C80: counts that are out of date when the lock is taken (false there: C80_count_false), misaligned files (C23_reopen_false), values imitating commit records, kills while the directory is first created (C27, C80_key_false)."
  },
  {
   "property": "C92",
   "status": "proved",
   "theorems": [
    "Urkel.C92_verify",
    "Urkel.C92_open",
    "Urkel.C92_none",
    "Urkel.C92_insert",
    "Urkel.C92_changes",
    "Urkel.C92_again",
    "Urkel.C92_history",
    "Urkel.C92_oneshot"
   ],
   "note": "Counted are the values of the hash function a call depends on (Asks in Spec/Work): a hash computed and thrown away has no observable effect. System calls do not fail (FromDir). Iterators take no hash function at all in the model."
  },
  {
   "property": "C93",
   "status": "partial",
   "theorems": [
    "Urkel.C93_inside_partial",
    "Urkel.C93_open_partial",
    "Urkel.C93_destroy",
    "Urkel.C93_destroy_fails",
    "Urkel.C93_undisturbed_partial",
    "Urkel.C93_stale_false",
    "Urkel.C93_example"
   ],
   "note": "False as stated: the key is read before the lock is taken. C93_stale_false: a process that has read the key when the database is destroyed and made again by others opens the new files with the old key, removes what the others have committed, and its own commits are removed by the next open; all calls succeed. Proved for every interleaving of any number of processes, from before the directory is first made and through any number of urkel_destroy calls at any time, in which key and count are still right when the lock is taken and no two processes create the key at once (Fair). urkel_destroy is one step (what its system calls can do is C58, its lock C44, C55)."
  },
  {
   "property": "C94",
   "status": "partial",
   "theorems": [
    "Urkel.C94_inside_partial",
    "Urkel.C94_open_partial",
    "Urkel.C94_destroy",
    "Urkel.C94_destroy_fails",
    "Urkel.C94_half_key",
    "Urkel.C94_example",
    "Urkel.C94_half_key_example"
   ],
   "note": "C91 and C93 in one: kills between calls, after any byte of a committing call, at any state on the way through a recovery, while the key file is written, and in the middle of urkel_destroy, with the directory made and destroyed any number of times. False as stated in one point: after a kill while the key file is written urkel_open fails until urkel_destroy is called (C94_half_key; nothing had been committed). Missing, as in C91 and C93: keys and counts that are out of date when the lock is taken (false there: C80_count_false, C93_stale_false), misaligned files (C23_reopen_false), values imitating commit records, and a half-destroyed database without its first data files, which no urkel_open accepts (C95)."
  },
  {
   "property": "C95",
   "status": "proved",
   "theorems": [
    "Urkel.C95_untouched",
    "Urkel.C95_order",
    "Urkel.C95_left",
    "Urkel.C95_empty",
    "Urkel.C95_again",
    "Urkel.C95_trace",
    "Urkel.C95_example"
   ],
   "note": "destroyTrace lists the file system after every call that changes it; C95_trace: it ends where urkel_destroy ends. It rests on the order of the names (scandir sorts them, Model/Util): the key file comes last, so no data file survives its key. C95_left needs unlink not to fail; the file system is a table of paths (as in C58) and unlinks survive in the order they were made (a kill, not a power failure). C95_again for prefixes of at most 1013 bytes (C58_overflow)."
  },
  {
   "property": "C96",
   "status": "partial",
   "theorems": [
    "Urkel.C96_open",
    "Urkel.C96_private",
    "Urkel.C96_one",
    "Urkel.C96_cloexec",
    "Urkel.C96_permissions",
    "Urkel.C96_permissions_only",
    "Urkel.C96_kind",
    "Urkel.C96_kind_false",
    "Urkel.C96_example"
   ],
   "note": "False in the last clause (C96_kind_false): the kind of a file is a number, but it is translated as if it were a set of bits, so urkel_fs_stat reports the right kind for FIFOs only (C96_kind: exactly); nothing in the library asks for it yet. Everything else is proved; the numbers are those of Linux."
  },
  {
   "property": "C97",
   "status": "partial",
   "theorems": [
    "Urkel.C97_same_partial",
    "Urkel.C97_listing",
    "Urkel.C97_index",
    "Urkel.C97_false",
    "Urkel.C97_refused",
    "Urkel.C97_example"
   ],
   "note": "False as stated (C97_false): every name of ten letters counts as a data file, so gaps are not refused, and a foreign file with such a name makes urkel_open fail for good (C97_refused). Proved: exactly for which directories the listing is right (C97_listing), what opening takes the number of files to be for every directory (C97_index), and that it is right for the directory of a database (C97_same_partial). Allocation and readdir errors are left out here."
  },
  {
   "property": "C98",
   "status": "proved",
   "theorems": [
    "Urkel.C98_again",
    "Urkel.C98_failed",
    "Urkel.C98_written",
    "Urkel.C98_example"
   ],
   "note": "States reachable by the calls of C50 (Reachable), the calls in between within its limits (Run, Allowed). C98_failed holds in every state. C98_written needs more than one data file to be allowed, which the library's constant is. The last clause is a property of the code rather than a wish (defect 38)."
  }
 ]
}