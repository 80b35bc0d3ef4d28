c("C23","partial",["C23_reopen_partial","C23_reopen_false"],"False: when the padding before a commit record starts a new file, the record is misaligned and recovery deletes it (proved, for the real limits). Partial: holds whenever the files end at a multiple of the record size, always so while the data fits one file.")
c("C24","partial",["C24_history_partial","C24_history_false"],"False for the same reason as C23 (proved). Partial as C23.")
c("C25","partial",["C25_crash_atomic_partial","C25_faults_are_crashes"],"Every byte prefix of a commit, under the no-imitation hypothesis OnlyOwnRecord; missing: databases already misaligned (C23); C79 says what happens there.")
c("C26","proved",["C26_recovery_idempotent"])
c("C27","partial",["C27_create_crash_partial","C27_create_crash_false"],"False: a partly written key file makes the directory unopenable (proved). Partial: every other crash point.")
c("C28","proved",["C28_append_only"])
c("C29","partial",["C29_failed_commit_partial","C29_failed_commit_false","C29_retry_false"],"False: the transaction dangles, and a later commit after a partial write is corrupt (both proved). Partial: root, history and other transactions are unchanged.")
c("C46","proved",["C46_no_abort","C46_no_abort_tx","C74_returns"])
c("C49","proved",["C49_one_shot"])
c("C50","proved",["C50_refinement"])
c("C30","partial",["C30_iteration_partial"],"Missing: contents in which a key parts from the others at more than 127 positions; there iterating a snapshot aborts (C31).")
c("C31","partial",["C31_stack_limit","C31_no_abort_false"],"False (proved): 129 committed keys make the iterator's stack check abort. C31_stack_limit: exactly the snapshots with a key that parts from the others at more than 127 positions.")
c("C32","proved",["C32_sticky"])
c("C33","proved",["C33_internal_roundtrip","C33_leaf_roundtrip","C33_paths","C33_internal_injective"])
c("C34","proved",["C34_pointer_roundtrip","C34_pointer_onto"])
c("C35","partial",["C35_node_read_partial","C35_abort_false","C35_out_of_bounds_false"],"False (both proved from a reachable database whose file bytes changed): a two-byte path size above 256 aborts urkel_tx_get, and stacked branches make it read bit 256 of the key. Partial: every record except those announcing a path longer than 256 bits is read as a node or rejected.")
c("C36","proved",["C36_meta_roundtrip","C36_authentic","C36_unique"])
c("C37","proved",["C37_serialize","C37_parse","C37_roundtrip","C37_unique","C37_order"])
c("C38","proved",["C38_find_index"])
c("C45","partial",["C45_paths_partial","C45_paths_false","C45_accepted"],"False (proved): a prefix of 1014 bytes is accepted and every data file path then overflows the buffer by one byte. Partial: all prefixes up to 1013 bytes.")
c("C52","proved",["C52_memcmp","C52_base16_decode","C52_base16_roundtrip","C52_base16_encode","C52_base16_decode32"])
c("C39","proved",["C39_records"],"Also covers flushes that fail without writing part of the failed chunk; a chunk that is written in part and retried is C29_retry_false.")
c("C40","proved",["C40_eviction","C40_handles","C40_limit","C40_example"],"Eviction ends, keeps the current file and at most 32 handles, for all tables and random streams; C40_handles over all sequences of reads, rollovers and commits. C40_limit: rolling over into file 0x7fff aborts. Reads never evict, so between commits the number of handles is not bounded.")
c("C41","partial",["C41_false","C41_reads","C41_readers_partial","C41_one_file_partial","C41_example"],"False as stated (lookup and insertion are separate critical sections): C41_false gives the schedule. Proved for all schedules of any number of threads that share no unopened file, and for all databases still in their first file.")
c("C42","partial",["C42_false","C42_no_deadlock_partial","C42_finish_partial","C42_example"],"False as stated: C42_false is the schedule of urkel_tx_prove beside urkel_tx_commit. Proved for all sets of threads, call sequences and schedules in which such a proof has its transaction for itself; also that all calls can be completed.")
c("C43","proved",["C43_no_race","C43_example"],"Race freedom over all schedules of any number of threads performing any calls, from the lock and access traces of tree.c/store.c.")
c("C44","partial",["C44_false","C44_no_unlink_partial","C44_serial_partial","C44_example"],"False as stated (lock file removed after release). Proved for all interleavings of system calls without orderly closing, and for all orders of opens, closes and crashes that do not overlap.")
c("C55","partial",["C55_same_process_false","C55_lets_in_false"],"False; both parts refuted. With one handle per process see C44.")
c("C47","proved",["C47_stream","C47_length","C47_internal","C47_leaf","C47_value","C47_raw","C47_checksum","C47_cut","blakeEnv_ok"],
 "blake2b.c (init, update, final, compress, counter with carry) against RFC 7693 for every digest length 1..64, key up to 64 bytes and every cutting of every input; the hashes and the checksum of util.c equal the model's over the concrete environment blakeEnv, which satisfies the assumptions of all other theorems. memcpy/buffer bounds are part of the result (no ub).")
c("C48","proved",["C48_pread","C48_read","C48_write","C48_pwrite","C48_write_ends","C48_pread_ends","C48_file_read","C48_file_write","C48_write_fails","C48_open","C48_open_write_read"],
 "All four loops of io_posix.c and the mapped file handle, for every sequence of system answers (interruptions, errors, short counts). C48_file_write shows that the write faults injected in Model/Store are what this layer can produce.")
c("C53","partial",["C53_false","C53_false_emfile","C53_false_key","C53_faults_partial","C53_scan","C53_no_faults"],
 "False as stated: C53_false_emfile (running out of descriptors during open deletes every data file, for every directory) and C53_false_key (a failing lstat of the key file). Proved: failures at any data file other than the one with the newest record, failing unlink/ftruncate, and failing to open the current file lose nothing. C53_scan: the block-wise scan equals the record-wise one.")
c("C54","proved",["C54_normalize","C54_resolve","C54_components","C54_same","C54_shape"],
 "In-place normalisation on the buffer against a small lexical specification, for all strings; malloc/realloc assumed to succeed.")
c("C56","partial",["C56_order","C56_opened","C56_synced_partial","C56_kept_partial","C56_false","C56_lost"],
 "False as stated (the README only promises consistency after kill -9): C56_false, with or without URKEL_FSYNC a power loss during a commit can leave a database that cannot be opened, because nodes and commit record are written without a sync between them; C56_lost, without URKEL_FSYNC (the default) a successful commit can vanish. Proved: in every build a file is synced before any byte goes to a later one, at every moment and under every fault (C56_order); with URKEL_FSYNC a power loss after a successful commit loses nothing (C56_synced_partial, C56_kept_partial). The key file is taken to be on stable storage. In-order persistence is C25.")
c("C57","partial",["C57_interrupted_open","C57_crashes_partial","C57_opens_partial","C57_history_partial"],
 "C57_interrupted_open: for every directory and every moment of recovery, no exceptions. The history theorems cover any number of kills in commits, one-shot calls and opens; missing as in C25: misaligned databases (false there, C23_reopen_false), values imitating commit records, commits outside the limits, kills while the key file is created (C27).")
c("C58","partial",["C58_target","C58_untouched","C58_success","C58_locked","C58_outcome","C58_failure_false","C58_overflow","C58_reopen"],
 "False in one clause: with a foreign file in the directory the database is deleted and 0 is returned (C58_failure_false). Everything else is proved for every file system and every combination of failing system calls; for prefixes of 1014 bytes the call overflows its buffer (C58_overflow).")

c("C59","proved",["C59_calls","C59_two_phase","C59_locks","C59_acts","C59_footprint","C59_programs","C59_schedules","C59_finish","C59_finish_example"],
 "Strict serializability of every completed concurrent run of the calls of Model/Api.lean except reopen and the one-shot calls (each of which is several calls, see C60), for any programs that make the lock operations and accesses of Model/Locks.lean and compute the sequential operation; C59_programs shows that such programs exist for every operation and C59_footprint that the access lists agree with the data model. C59_schedules: every schedule the locks of Model/Locks.lean permit is such a run; C59_finish: calls not in each other's way as in C42 can be completed from every point of every run (urkel_tx_create included, with the lock of the transaction it makes). A run that deadlocks (C42_false) or in which a call aborts does not complete.")
c("C60","partial",["C60_reads_partial","C60_writes_partial","C60_lost_update"],
 "False for writes: C60_lost_update, two concurrent urkel_insert of different keys can both succeed and one of the keys be missing afterwards, because each reads the root under a read lock and commits under a write lock taken later. Proved: reads take effect when their transaction is created, whatever other threads do; writes take effect at their commit if no other thread commits, injects or reopens meanwhile. Interleavings are of transaction calls, each atomic by C59.")

c("C61","proved",["C61_line","C61_rejects","C61_runs"],
 "urkel_options_init and main against the grammar of Spec/Cli.lean, in both directions. Paths are compared as strings: two spellings of one directory count as different databases.")
c("C62","partial",["C62_commands_partial","C62_cli_partial","C62_prove_verify","C62_verify_sound","C62_destroy","C62_commands_false"],
 "False for values of 256 to 1023 bytes: C62_commands_false, insert exits with 0 and get then prints another value (defect 1). Proved for every history of the directory (HoldsLog), every snapshot and every command within the limits of CmdOk: values of at most 255 or more than 1023 bytes, room in the data files, at most 127 parting positions for list and info (defect 7), last data file aligned (defect 6). destroy is a parameter here (C58).")

c("C63","partial",["C63_same","C63_programs","C63_false"],
 "False after a failed commit: C63_false, tx_destroy then uses a freed root (defect 4). Proved by a refinement between the functional model and a model with a heap of mutable blocks, malloc and free: for every directory, history, allocator and fault plan, if the functional calls return then so do the calls with memory, with the same results. Calls that fail because of damaged files or failing system calls are included.")
c("C64","partial",["C64_no_leak","C64_verify","C64_verify_false","C64_open_false"],
 "False for urkel_verify: C64_verify_false, every proof followed by extra bytes leaves its nodes allocated; false for urkel_open: C64_open_false, a failing open leaves one block. Proved: any program covered by C46 that destroys its transactions leaves exactly the two blocks of urkel_open, which urkel_close frees (C63_same says it for any directory and any calls that return); urkel_verify on anything that parses leaves memory as it was.")

c("C65","proved",["C65_bounded","C65_batches","C65_allocation"],
 "Memory bound under any faults; exact list of system calls of a commit that does not change file; the allocation behind the buffer for any sequence of writes and flushes. The memory bound is for a database without an earlier failed commit (a failed commit keeps its buffer, see C29).")

c("C66","proved",["C66_map","C66_clear","C66_cache"],
 "kh_get, kh_put, kh_resize with its kick-out rehash, the flag words, kroundup32, murmur3 and the cache functions, for any hash function. At most 1653562409 insertions (the load limit of 2^31 buckets, beyond which 32-bit bucket counts overflow). Running out of memory ends the process and is not modelled; the double multiplication by 0.77 is replaced by exact arithmetic, equal for powers of two up to 2^31.")

c("C67","proved",["C67_safe","C67_iterate","C67_programs"],
 "Proved by refinement from the functional iterator: whenever its calls return, so do those with memory, with the same results (an iteration deeper than the stack aborts in both: C31). Any directory, damage and failing reads included; the iteration may stop anywhere. Blocks are counted: at most 770 for an iterator, 773 with urkel_iterate. The calls before it are those of C63.")

c("C68","proved",["C68_store","C68_destroy","C68_session"],
 "Model/Resource reduces the store to what it acquires, uses and releases; every outcome of a system call, lookup or parse is an arbitrary answer, so the theorems cover more executions than the code has. realloc is modelled as free and malloc. munmap of a whole mapping and close are taken to release whatever they return. Blocks of nodes and transactions are the subject of C63, C64, C67. A failing urkel_open leaves exactly one block (C64_open_false).")

c("C69","proved",["C69_get","C69_has","C69_insert","C69_remove","C69_prove","C69_remove_aborts","C69_remove_joins","C69_insert_outside"],
 "Exact conditions, both directions, for every system that was opened from any directory and then used, damaged and subjected to failing system calls in any order (Worn). Data files keep their lengths when they are damaged from outside while the database is open. The conditions (Spec/Damage) are about the nodes met on the way of the key. Iteration is C70. The last three theorems are concrete damage that kills a process although the key it works on is intact.")

c("C70","proved",["C70_iteration","C70_aborts","C70_defined","worn_iterate"],
  "Exact: the sequence of results of any number of calls equals the events of the tree in order (Spec/Walk: walk, played), for every Worn program (any directory opened, any change of the files, any failing system calls). C70_aborts characterises the aborts (defects 7 and 8) independently. The files do not change during the iteration.")

c("C71","proved",["C71_open","C71_open_fails","C71_create","C71_create_known","C71_create_hangs"],
  "Exact characterisations in both directions. C71_open covers every directory (system calls of the opening itself do not fail; see C53 for those), C71_create every Worn program. The model of the loop in urkel_store_read_history has fuel for as many rounds as there are bytes in the files, and the theorem shows that running out of fuel happens exactly if there is an infinite chain of records (pigeonhole). C71_create_hangs is a concrete circle (defect 25).")

c("C72","proved",["C72_quiet","C72_trimmed","C72_records"],
  "For every Worn program (any directory opened, any change of the files, any failing writes). Observes (Spec/Quiet) is the list of answers and the final database, including aborts and undefined behaviour. C72_records shows that the calls do change the memory of the program. Reads of the files do not fail spontaneously in the model; a file that changes is an event.")

c("C73","partial",["C73_get","C73_has","C73_prove","C73_insert","C73_insert_fails","C73_remove_fails","C73_remove_partial","C73_clean","C73_remove_loses"],
  "Exact for reading, testing, proving, inserting and for all failures. The clause for remove is false (defect 26): urkel_bits_join copies the unused bits after the left path and urkel_bits_set can only set bits, so one flipped bit that nothing ever looks at makes a successful remove lose other keys (C73_remove_loses, a concrete database). C73_remove_partial proves the clause when those bits are zero, which they are in every state reached without damage (C73_clean); a leaf that damage had put in the wrong place may become visible when its neighbour is removed.")

c("C74","partial",["C74_commit_partial","C74_others_partial","C74_root","C74_fresh","C74_returns","C74_reopen_partial","C74_hides","C74_unopenable"],
  "For every FromDir program: any directory within the size limits, any calls, no failing system calls and no further damage while it runs. Exceptions that the code really has: new values are cut to their length modulo 256 (defect 1); a lookup that failed with URKEL_ECORRUPTION may answer something else afterwards, even a piece of another key's value (C74_hides, concrete); and a successful commit after removing the only readable neighbour makes the directory unopenable (C74_unopenable, concrete, defect 27). C74_reopen_partial assumes that the last file ends on a record boundary (defect 6) and that the directory opens again.")

c("C75","partial",["C75_killed_partial","C75_commits_partial","C75_programs","C23_reopen_false"],
  "For all programs that follow the locking of the C code (Performs), compute the operation when alone (Implements) and append to the files gradually when alone (Gradual); every schedule; a kill between any two steps, where a write may be split into any number of steps. Missing, as in C23, C25 and C57: states in which the last file does not end on a record boundary (the claim is false there: C23_reopen_false, defect 6), values that imitate commit records, commits outside CanCommit. The process may also be killed while calls are deadlocked (defect 9): nothing is assumed about the calls still waiting for locks.")

c("C76","partial",["C76_tail_partial","C76_all_gone","C76_corrupt_partial","C76_untouched","C76_cut","C76_overflow","C76_target","C23_reopen_false"],
  "The cut may be anywhere behind the files of any earlier logged state, so anywhere in the history. C76_untouched, C76_cut and C76_target are exact for urkel__corrupt on every file system with failing system calls; with a resolved prefix of 1014 bytes it overruns its buffer (C76_overflow, the same slip as defect 11). Missing, as in C23 and C25: histories with states in which the last file does not end on a record boundary (not even the whole files open as they were: C23_reopen_false, defect 6), values that imitate commit records, commits outside CanCommit.")

c("C77","proved",["C77_commit","C77_next","C77_unchanged","C77_insert","C77_remove","C77_only"],
  "For every FromDir program: any directory within the size limits, any calls (allowed or not), no failing system calls and no further damage while it runs. Op.weight (Spec/Cost) counts only changes made through the transaction itself; clearing it or moving it to another root only lowers what is written.")

c("C78","proved",["C78_local","C78_bytes","C78_free"],
  "No hypotheses on the state: the theorems hold for every Sys, reachable or not. SameCall (Spec/Local) compares results, errors, aborts and undefined behaviour, and the whole program afterwards. The example shows a byte on which the answer does depend and one on which it does not.")

c("C79","proved",["C79_closed","C79_killed","C79_tail","C79_threads","C79_holds","C79_safe","C79_loses"],
  "Says what C23, C24, C25, C57, C75 and C76 leave open: no hypothesis about where the files end. NoImitation: no bytes that a user chose look like a keyed commit record (when nothing is safe yet, none starts with the magic number). Commits within the limits of CanCommit (values of at most 255 bytes, room in the files), no failing system calls.")

c("C80","partial",["C80_one","C80_failed","C80_together_partial","C80_open_partial","C80_undisturbed_partial","C80_window_partial","C80_above_partial","C80_above_example","C80_count_false","C80_key_false","C80_example"],
  "False as stated: urkel_store_init reads or creates the key and counts the data files before it takes the lock. C80_count_false: overtaken after counting, a process opens an empty database and its commit hides the other's for good. C80_key_false: two first opens at once; the one that is refused has replaced the key, and the other's data is removed by the next open. Proved: mutual exclusion in every interleaving; and for every interleaving in which the directory had been created before and each count is still right when the lock is taken (C80_window_partial says when that is so), all of the claim. The lock is a plain mutex here (C44, C55 for how far the lock file is one); writing the key file and recovery are single steps; urkel_destroy is among the events in C93.")
c("C81","partial",["C81_pread","C81_pread_ends","C81_read","C81_read_ends_partial","C81_read_hangs","C81_open_hangs","C81_key","C81_write","C81_new_key","C81_shared_handle","C81_shared_example","C81_file_open","C81_file_read","C81_file_write_partial","C81_dangling_false","C81_flags","C81_example"],
  "False in two places. C81_read_hangs/C81_open_hangs: ReadFile reports the end of a file as success with no bytes, and urkel_fs_read loops on that for ever, so urkel_open never returns on a key file that is too short (as a crash during creation leaves it). C81_dangling_false: if CloseHandle of the mapping fails, the unmapped view is still used by the next read. The rest is proved; Win32 calls by their documented contracts.")
c("C82","proved",["C82_exclusion","C82_no_abort","C82_progress","C82_starvation","C82_example"],
  "C82_starvation is the negative fact of the statement: the lock is unfair. The readers counter is a natural number in the model (in C an unsigned int: 2^32 threads holding the lock at once do not exist).")
c("C83","partial",["C83_exclusive_partial","C83_free_partial","C83_posix_false","C83_example"],
  "Proved, also for several handles in one process (where the POSIX back end fails, C55), if deleting a file waits for its last handle, as Windows documents for DeleteFileA. False (C83_posix_false) with the POSIX delete semantics of newer Windows on NTFS: as in C44, the lock file is deleted after the lock is released.")
c("C84","partial",["C84_no_race","C84_iterator_is_stable","C84_alone","C84_no_deadlock_partial","C84_false","C84_waiting_writer_false","C84_older_root_false","C84_example","C84_stable_example"],
  "Any programs that open, use and close iterators with other calls in between. False as stated: C84_older_root_false (a single thread that asks for a value under an older root while it has an iterator open never gets an answer), C84_false (iterating over one transaction and reading another that a second thread commits deadlocks), C84_waiting_writer_false (with locks that prefer writers even a lookup in the iterated transaction deadlocks). Proved: no races and a stable view for all programs; C84_alone: exactly which calls of a lone thread return; no deadlock for threads that keep away from what others change meanwhile (Apart).")
c("C85","partial",["C59_acts","C85_jobs","C85_scan_partial","C85_snapshot_partial","C85_programs","scan_overlap","scan_pairs"],
  "Linearizability of calls and whole iterations is proved in full (C85_jobs; C85_programs: there are programs that meet its hypotheses). Partial only because the pairs an iteration returns are characterised for trees of at most 127 branch levels: deeper ones abort (C31_no_abort_false). A job is an entity with its own locks, so an iteration overlapping with other calls of the same thread is covered; whether such overlapping calls get their locks at all is C84.")
c("C86","partial",["C86_commit","C86_database","C86_read","C86_32_false"],
  "Proved for both widths of size_t for every database a program has open and every fault sequence within the next commit (C86_database), for reads of arbitrary positions and sizes (C86_read), and for sequences of commits with failing flushes as long as the buffer stays below a third of what size_t counts (C86_commit also gives the state for the next commit). False (C86_32_false) with a 32-bit size_t when flushes keep failing and the program keeps committing: at the latest when 2 GB are pending, the new size of the block has wrapped around.")
c("C87","proved",["C87_commit","C87_history","C87_open","C87_close","C87_new","C87_made","C87_bytes","C87_foreign"],
  "For the commits of C46, i.e. values of at most 255 bytes (defect 1 makes longer ones unreadable; see C16 and C79). Reading covers values of up to 1023 bytes, which other programs may have written (C87_foreign). A directory whose newest commit record is not at a multiple of 38 is not conforming: the library can write one (defect 6) but does not find the commit again. Checksum and hash functions are parameters, instantiated with BLAKE2b in C47.")
c("C88","proved",["C88_verify","C88_malformed","C88_prove","C88_canonical","C88_honest","C88_bytes","readme_data","readme_proof"],
  "readme_data and readme_proof are no general statements: they run the command line session of README.md in the model with BLAKE2b, and the model prints the roots and the proof that the real program printed there.")
c("C89","partial",["C89_calls","C89_program","C89_reachable","C89_open","C89_verify","C89_next","C89_iteration_partial","C89_no_tls_false"],
  "C89_calls covers every directory that opens, every call sequence and all failing writes, in builds with URKEL_TLS. Iteration as a whole: trees of at most 127 branch levels, as in C30; single calls of urkel_iter_next on any database (C89_next). False (C89_no_tls_false) in builds without URKEL_TLS, where urkel_errno is the errno of the C library: what library calls leave in it between setting and reading decides whether inserting a pair that is there already succeeds.")
c("C90","proved",["C90_error","C90_complete","C90_other_root","C90_each"],
  "The order in which several faults are reported (end of the way, then the branch farthest from the root, then the number of bits, then the hash) is part of the specification (Wrong in Spec/Reason).")
c("C91","partial",["C91_inside_partial","C91_open_partial","C91_example"],
  "Any number of processes, any interleaving, any number of kills: between calls, after any byte of a committing call (while other processes are anywhere in their opens), and at any state of the files on the way through a recovery. Missing, as in C23, C25 and C80: counts that are out of date when the lock is taken (false there: C80_count_false), misaligned files (C23_reopen_false), values imitating commit records, kills while the directory is first created (C27, C80_key_false).")
c("C92","proved",["C92_verify","C92_open","C92_none","C92_insert","C92_changes","C92_again","C92_history","C92_oneshot"],
  "Counted are the values of the hash function a call depends on (Asks in Spec/Work): a hash computed and thrown away has no observable effect. System calls do not fail (FromDir). Iterators take no hash function at all in the model.")
c("C93","partial",["C93_inside_partial","C93_open_partial","C93_destroy","C93_destroy_fails","C93_undisturbed_partial","C93_stale_false","C93_example"],
  "False as stated: the key is read before the lock is taken. C93_stale_false: a process that has read the key when the database is destroyed and made again by others opens the new files with the old key, removes what the others have committed, and its own commits are removed by the next open; all calls succeed. Proved for every interleaving of any number of processes, from before the directory is first made and through any number of urkel_destroy calls at any time, in which key and count are still right when the lock is taken and no two processes create the key at once (Fair). urkel_destroy is one step (what its system calls can do is C58, its lock C44, C55).")
c("C94","partial",["C94_inside_partial","C94_open_partial","C94_destroy","C94_destroy_fails","C94_half_key","C94_example","C94_half_key_example"],
  "C91 and C93 in one: kills between calls, after any byte of a committing call, at any state on the way through a recovery, while the key file is written, and in the middle of urkel_destroy, with the directory made and destroyed any number of times. False as stated in one point: after a kill while the key file is written urkel_open fails until urkel_destroy is called (C94_half_key; nothing had been committed). Missing, as in C91 and C93: keys and counts that are out of date when the lock is taken (false there: C80_count_false, C93_stale_false), misaligned files (C23_reopen_false), values imitating commit records, and a half-destroyed database without its first data files, which no urkel_open accepts (C95).")
c("C95","proved",["C95_untouched","C95_order","C95_left","C95_empty","C95_again","C95_trace","C95_example"],
  "destroyTrace lists the file system after every call that changes it; C95_trace: it ends where urkel_destroy ends. It rests on the order of the names (scandir sorts them, Model/Util): the key file comes last, so no data file survives its key. C95_left needs unlink not to fail; the file system is a table of paths (as in C58) and unlinks survive in the order they were made (a kill, not a power failure). C95_again for prefixes of at most 1013 bytes (C58_overflow).")
c("C96","partial",["C96_open","C96_private","C96_one","C96_cloexec","C96_permissions","C96_permissions_only","C96_kind","C96_kind_false","C96_example"],
  "False in the last clause (C96_kind_false): the kind of a file is a number, but it is translated as if it were a set of bits, so urkel_fs_stat reports the right kind for FIFOs only (C96_kind: exactly); nothing in the library asks for it yet. Everything else is proved; the numbers are those of Linux.")
c("C97","partial",["C97_same_partial","C97_listing","C97_index","C97_false","C97_refused","C97_example"],
  "False as stated (C97_false): every name of ten letters counts as a data file, so gaps are not refused, and a foreign file with such a name makes urkel_open fail for good (C97_refused). Proved: exactly for which directories the listing is right (C97_listing), what opening takes the number of files to be for every directory (C97_index), and that it is right for the directory of a database (C97_same_partial). Allocation and readdir errors are left out here.")
c("C98","proved",["C98_again","C98_failed","C98_written","C98_example"],
  "States reachable by the calls of C50 (Reachable), the calls in between within its limits (Run, Allowed). C98_failed holds in every state. C98_written needs more than one data file to be allowed, which the library's constant is. The last clause is a property of the code rather than a wish (defect 38).")
