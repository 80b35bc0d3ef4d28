# Formal model of liburkel in Lean 4 — design

## Approach

The model is a set of total, computable Lean functions that follow the C source
function by function (`/verif/lean/Verif/Model/*`), a small independent
specification (finite maps, lists of commits, bit strings; `Verif/Spec/*`),
helper lemmas (`Verif/Lemmas/*`), and property theorems in their own files
(`Verif/Props/*`).  Every model definition cites the C file and lines.

Every C outcome is explicit: `Res α = ok a | err e | abort | ub`, where `err`
carries the `urkel_errno` code, `abort` is a failed `CHECK`/`urkel_abort`, and
`ub` is undefined behaviour (uninitialised read, out-of-bounds access, dangling
pointer).  Loops become structural recursion, or recursion on a fuel argument
together with a proof that the fuel is never exhausted.

## Layers

| module | C code | content |
|---|---|---|
| Model/Base | internal.h, urkel.h | bytes, 32-byte strings, errors, `Res` |
| Model/Bits | bits.c/.h | bit vectors with byte-level get/set, count, slice, split, collide, join, read, write |
| Model/Codec | nodes.c, util.h | little-endian codecs, pointers, node records |
| Model/Hash | util.c | leaf/internal hashing over an arbitrary hash `H : Bytes → B32` |
| Model/Node | nodes.c | in-memory nodes with HASHED/WRITTEN/SAVED/VALUE state |
| Model/Store | store.c | slab, flush, files, metas, cache, history, recovery |
| Model/Tree | tree.c | get/insert/remove/prove/write/commit and the API |
| Model/Proof | proof.c | proof type, size, write, read, verify |
| Model/Iter | tree.c | the iterator stack machine |
| Model/Api | tree.c, urkel.h | the public calls as one step function over database and open transactions |
| Model/Util | util.c, internal.c, urkel.c, store.c | number names, comparison, hexadecimal, path lengths, index scan |
| Model/Blake2b | blake2b.c, util.c | BLAKE2b streaming state, `urkel_hash`, `urkel_checksum` |
| Model/Io | io_posix.c | read/write/pread loops against an arbitrary kernel |
| Model/Path | io.c, io_posix.c | lexical path resolution on the buffer |
| Model/Scan, Interrupt | store.c | recovery block by block with failing system calls; recovery killed at any moment |
| Model/FileMap, Readers | store.c | table of open files with eviction; reader handles and their counts |
| Model/Locks, Conc | tree.c, store.c | lock operations and shared accesses of every call; threads stepping through them |
| Model/Corrupt | store.c, tree.c | `urkel__corrupt`, which truncates the last data file |
| Model/Procs | store.c | `urkel_store_init` in steps, several processes on one directory |
| Model/Life | store.c | `urkel_store_init_prefix`, `urkel_store_destroy` (as one step), several processes on one directory |
| Model/Win, WinLock, WinLockFile | io_win.c | reading, writing, mapping and opening files, the read-write lock and the lock file on Windows |
| Model/Words | store.c, tree.c, io_posix.c | the commit path and reading once more in machine integers (size_t of 32 or 64 bits, uint64_t, uint32_t) |
| Model/Nested | tree.c, io_posix.c | iterators kept open across other calls: locks a thread holds several times |
| Model/Modes | io_posix.c, io.c, store.c | translation of flags and modes, `urkel_fs_open` against any kernel, the flags and modes at every place |
| Model/Wasi | io_posix.c (`__wasi__`) | directory listing inferred from the lengths of names |
| Model/LockFile, Destroy, DestroyCut | store.c, io.c | lock file across processes; `urkel_destroy` over a table of paths |
| Model/Cli | urkel.c | argument parsing and actions of the command line tool |
| Model/Errno | tree.c | the public calls once more with the caller's variables and buffers, `urkel_errno` set and read where the code does |
| Model/Heap | nodes.c, tree.c, proof.c | the same calls with malloc, free, pointers and in-place changes |
| Model/Khash | khash.h, store.c, util.c | the hash table of the root cache: flag words, probing, in-place rehash, murmur3 |
| Model/HeapIter | tree.c | iterators with the blocks they own and the ones they borrow from the transaction |
| Model/Resource | store.c, io.c, io_posix.c, khash.h, tree.c | the descriptors, mappings, directory streams and blocks that the store acquires and releases, with every branch decided by an arbitrary environment |

Specification files: Spec/Db (database as list of committed maps), Map (contents), Tree
(radix trees), BitSeq, Inputs (hash inputs and collisions), Env (what is assumed of the hash
and the limits), Log (executions with the list of commits), Crash (crash images, forged
records), Power (which writes are synced), Histories (kills and reopens), Iter, Buffer,
Blake2b (RFC 7693), Format (data files), ProofFormat (proofs), Errno (what a caller finds in its
variables), Reason (why a proof is refused), Killed (processes that are killed), Work (how often calls
hash), Life (directories that are made and destroyed), Mortal (the same with kills), DestroyCut (what a half-destroyed directory holds), Modes (what flags and modes mean to the kernel), Again (the calls that end what a transaction knows), Path, Destroy, Conc and ConcApi (serial executions, two-phase locking).

## Specification objects

* contents of a snapshot: `B32 → Option Bytes`;
* Merkle/radix trees over key bits (`PTree`) with a shape-independent `find`;
* the canonical-form theorem (same contents ⇒ same tree) gives history
  independence; the hash of a tree is injective up to an explicit collision;
* a database: list of committed maps, newest last.

## Trusted base

* Lean 4.33.0's kernel and the axioms `propext`, `Quot.sound`,
  `Classical.choice` (nothing else; no axioms are added).
* The reading of the C code into the model (the code is not run here). As a check of it, Props/Readme runs
  the session documented in README.md in the model, with BLAKE2b, and gets the documented roots and proof.
* Modelled: see the table; integer truncations that matter (8/16/32-bit fields
  in pointers and node marks) are modelled by explicit `%`. Other integers are natural numbers in most of
  the model; C86 proves that those of commits and reads do not wrap around.
* The hash and the checksum are parameters of the model (`Env.H`, `Env.mac`). Theorems need
  only `EnvOk` (file limits that fit the pointer format and a value, 20-byte checksums; no
  property of the hash); soundness theorems return an explicit collision. `blakeEnv`
  (Props/Blake2b.lean) is the environment with the modelled BLAKE2b; C47 proves the
  streaming code equal to a specification of RFC 7693.
* Every system call of the data path may fail: writes by the fault plan (`Store.faults`),
  the recovery scan by arbitrary failures (Model/Scan), the syscall loops by an arbitrary
  kernel (Model/Io), unlink/rmdir/lstat by an arbitrary outcome (Model/Destroy).
* Durability: a kill leaves the bytes already given to the kernel (C25, C57); a power loss
  leaves, per file, at least what was synced and otherwise any prefix of what was written
  (C56). Renames do not occur in the code. Directory entries are taken to be durable.
* Concurrency: an interleaving semantics with read-write locks, one access at a time;
  accesses are race free by C43, which is what makes interleaving semantics adequate for
  C11 programs. Thread-local `urkel_errno` (URKEL_TLS) is assumed; without it, it is a shared
  global and two failing calls can exchange their codes.
* Memory: Model/Heap has a block per node, value, transaction, lock and proof node;
  Model/Resource has those of the store (write buffer, file table, cache, files) and its
  descriptors and mappings. The two are separate models, and block sizes are not
  modelled (buffer overruns are covered by bounds in C13, C35, C39, C54).
* Not modelled: `malloc` failure (the code aborts or reports it), the WASI back
  end and of the Windows back end directories, stat, random numbers and time (files, the
  read-write lock and the lock file are, by the documented contracts of ReadFile, WriteFile,
  SetFilePointerEx, MapViewOfFile, LockFileEx, DeleteFileA and semaphores: C81-C83), contents of memory after free, quality of random numbers, BLAKE2b's strength.
* Axioms per theorem: `#print axioms` reports a subset of `propext`, `Quot.sound`,
  `Classical.choice` for every theorem named in MANIFEST.json.

## Defects found in the code (the properties that are false as stated)

Each is proved in the model as a negation with a concrete witness where stated
in MANIFEST.json, beside a `_partial` theorem on the part that holds.

1. `urkel_node_save(…, uint8_t size)` (nodes.c:200-214): value sizes are
   truncated mod 256 at commit, so values of 256 bytes or more are read back truncated.
2. `urkel_store_has_history` (store.c:864-874) clears an uninitialised node
   when the lookup fails: `urkel_inject` with an unknown root is UB.
3. `urkel_tx_clear` (tree.c:883-894) ignores `tree->revert`.
4. A failed commit frees the transaction's root without replacing it
   (tree.c:556-575): the transaction dangles.
5. A partial append followed by a retry shifts every later record
   (io_posix.c:1154ff, O_APPEND vs. logical size).
6. `urkel_store_write_meta` (store.c:747-775) pads *before* knowing whether the
   padding rolls over to a new file: the meta is then not 38-aligned, recovery
   does not see it and deletes the file.
7. The iterator stack (256) is one short for the deepest trees and half of
   what is needed for unloaded trees (tree.c:1134-1247).
8. `urkel_node_read` (nodes.c:618-656) aborts on prefix sizes over 256.
9. `urkel_tx_prove` (tree.c:1022-1066) takes the transaction lock while holding
   the tree lock, the reverse of every other call: deadlock.
10. `urkel_store_open_file` (store.c:461-491): lookup/insert race → abort.
11. `urkel_store_init_prefix` (store.c:902): length 1014 passes, needs 1026 bytes.
    `urkel_store__corrupt` (store.c:1230) has the same slip (`C76_overflow`).
12. A crash while the key file is being created makes the directory
    unopenable (store.c:919-931).
13. The lock file is unlinked after being released (store.c:1128-1129): two
    processes can hold "the" lock.
14. Unused bits of a proof's bitmap are ignored: encodings are not unique.
15. An I/O error or EMFILE while recovery scans (store.c:1018-1066) is taken for "no record
    here": good data files are unlinked; a failing `lstat` of the key file (store.c:911-931)
    makes open write a new key over it.
16. A corrupt database can stack branches deeper than 256 bits: `urkel_get_bit(key, 256)`
    reads past the key (tree.c:102ff).
17. `fcntl` locks are per process: the same process can open a database twice (C55).
18. A rollover into file 0x7fff aborts instead of failing (C40).
19. No barrier between nodes and the commit record: power loss can leave a record whose
    nodes are missing, and then the database does not open (C56).
20. `urkel_destroy` returns 0 after having deleted the data if the directory holds any
    foreign file (C58).
21. Concurrent `urkel_insert`/`urkel_remove` can lose updates (tree.c:706-746, C60).
22. `urkel_verify` (tree.c:771-793) does not free the partly read proof when parsing fails (C64).
23. `urkel_open` (tree.c:588-592) does not free `tree` when the store cannot be opened (C64, C68).
24. `urkel_tree_remove` ends with `CHECK(side != NULL)` (tree.c:310): if the record beside the removed
    key cannot be read, the process is aborted instead of reporting ECORRUPTION (C69). On damaged files
    `urkel_tree_insert` can also read bit 256 of the key (tree.c:176, 239) (C69).
25. `urkel_store_read_history` (store.c:839-859) follows the chain of commit records without checking that
    it goes backwards: if a commit record is overwritten with a copy of its successor (both records are
    valid), `urkel_tx_create` or `urkel_inject` with an unknown root never returns (C71).
26. `urkel_bits_join` (bits.c:103-119) copies the last byte of the left path with its unused bits, and
    `urkel_bits_set` only ors: if an unused bit of a branch record is flipped on disk (no lookup looks at it, and
    nothing checks it), a successful `urkel_tx_remove` gives the joined branch a wrong path and the other keys
    below it are lost (C73).
27. On a directory with one unreadable value, removing the key beside it and committing succeeds, but
    the unreadable leaf is now the root, and `urkel_store_recover_state` (store.c) reads the root at every
    open: the directory cannot be opened again (`C74_unopenable`). A commit can also turn a dangling value
    pointer into a valid one, so that a damaged key reads as a piece of another value (`C74_hides`).
28. `urkel_store_init` (store.c:1069-1116) reads or creates the key file and counts the data files *before* it
    takes the lock. A process that is overtaken by another one between counting and locking recovers with the old
    count: in a new directory it gets an empty database on top of the other's commits, which its own first commit
    then hides for good (`C80_count_false`). Two first opens at once can leave the key of the one that is
    refused on disk: everything the other commits is removed by the next open (`C80_key_false`).
29. Windows: `urkel_fs_read` (io_win.c) treats the end of the file (`ReadFile` succeeds with no bytes) as a short
    read and tries again for ever: `urkel_open` never returns on a key file that is too short, which is what a
    crash during the first open leaves (`C81_read_hangs`, `C81_open_hangs`).
30. Windows: `urkel_file_write` keeps the old view as the base if `CloseHandle` of the mapping fails after the view
    was unmapped; the next read uses it (`C81_dangling_false`).
31. Windows: with POSIX delete semantics defect 13 is there too (`C83_posix_false`); and the read-write lock lets
    readers pass a waiting writer for ever (`C82_starvation`).
32. An open iterator keeps its transaction and the database locked for reading. The thread that has it open waits for
    itself for ever if it asks for anything under an older root, computes the root or a proof of a dirty transaction it
    iterates over, inserts into that one or commits any (`C84_alone`, `C84_older_root_false`); and reading a second
    transaction while iterating over a first one deadlocks with a commit of the second (`C84_false`).
33. With a 32-bit `size_t`: failed flushes keep the pending data, and each commit that is tried again adds to it. Once the block
    has 1.43 GB its new size `(data_size * 3) / 2` wraps around, and the next copy goes far beyond it (`C86_32_false`).
34. Without URKEL_TLS (only CMake's check sets it) `urkel_errno` is `errno` itself (tree.c:58-72), and the code reads it again after
    calls of the C library: inserting a pair that is there already can return 0, and a failed call can report a number that is no
    urkel error (`C89_no_tls_false`). With it, `urkel_errno` is still 10 after such an insert, which returns 1 (the header does not
    say that it is only meaningful after a failure).
35. `urkel_open` reads the key before it takes the lock (store.c:1075-1082): if the database is destroyed and made again by other
    processes in between, it opens the new files with the old key, recovery removes what the others have committed, and what it then
    commits itself is removed by the next open (`C93_stale_false`).
36. `urkel_fs__mode_os_to_api` (io_posix.c:299-331) treats the kind of a file, which is a number, as a set of bits: `urkel_fs_stat`
    reports every regular file and every directory as kind 016, so `URKEL_S_ISREG` and `URKEL_S_ISDIR` are false for all of them
    (`C96_kind`); nothing in the library uses the field yet. The translation in the other direction has the same slip.
37. WASI builds infer names from their lengths (io_posix.c:594-718): gaps between data files are not seen, and a foreign file with
    a name of ten letters makes `urkel_open` fail for good (`C97_false`, `C97_refused`).
38. The check for unchanged pairs (tree.c:219-222, nodes.c:443-461) sees values in memory only: inserting a pair that the database has
    already, in a new transaction or with `urkel_insert`, writes value, leaf and the whole path again (`C98_written`).

## Plan per property

| id | model | proof |
|---|---|---|
| C01–C05, C08, C09, C46 | Tree ops over Node + Store | refinement to `PTree.find`, induction on the represented tree |
| C06 | same | canonical-form theorem |
| C07 | `thash` | induction on two trees, collision extraction |
| C10, C14 | prove/write/read/verify | induction on the tree; codec round trips |
| C11, C12 | verify | induction on the proof path, collision extraction |
| C13 | proof read/verify over `Res` | case analysis: never abort/ub |
| C15 | proof read | witness for the negation; partial: equality up to padding bits |
| C16, C17 | tree write/commit | representation invariant over files, `≤255` byte values; witness at 256 |
| C18, C28 | files prefix order | monotonicity of the representation relation |
| C19–C22, C51 | read_history, cache | invariant of the meta chain |
| C23–C27 | recovery | scan lemma; crash = prefix of appended bytes; no-forgery hypothesis explicit |
| C29 | fault plan | witness + partial |
| C30–C32 | iterator machine | in-order flattening, stack bound; witnesses |
| C33–C38 | codecs | round trips by arithmetic |
| C39, C40 | slab, file map | invariants, termination measure |
| C41–C44 | lock traces | small-step interleavings, invariants; witnesses |
| C45 | path lengths | arithmetic; witness |
| C47 | blake2b streaming | induction on chunks |
| C48 | syscall loops | induction on kernel responses |
| C49, C50 | API step machine | refinement |
| C52 | util | induction |
| C53 | block-wise recovery scan with failing system calls | equality with the record-wise scan; witnesses for the losses |
| C54 | path normalisation on a buffer | loop invariant against a stack of components |
| C55 | lock table of one process | witness; partial: different processes |
| C56 | io events of a commit with and without URKEL_FSYNC | invariant on the event trace; power-loss images; witnesses |
| C57 | histories with kills at any point, interrupted recovery | idempotence of recovery, induction on the history |
| C58 | `urkel_destroy` over a table of paths | case analysis of every outcome of the system calls |
| C59 | programs made of lock operations and accesses | two-phase locking ⇒ linearization at the last acquisition; footprints of the operations; every schedule the locks permit is an execution, and C42 then says which can be completed |
| C60 | interleavings of the transaction calls of one-shot calls | simulation; witness of a lost update |
| C61 | `urkel_options_init`, `main` of the tool | induction over the arguments; equivalence with a grammar |
| C62 | `urkel_main`: every command on a directory with any history | reopen theorem, simulation, iterator invariant; witness for long values by kernel evaluation |
| C63 | the whole transaction API on a heap of mutable blocks (`Model/Heap`) | separation logic; refinement of the functional model call by call; witness after a failed commit |
| C64 | the same, `urkel_open`/`urkel_close`, `urkel_verify` | ownership of the whole heap as an invariant; exact count of what leaks |
| C65 | `urkel_store_needs_flush`, `urkel_store_flush`, `urkel_slab_write`, `urkel_tree_write`, `urkel_store_commit` | induction over the tree: the buffer is below WRITE_BUFFER between nodes, and grows by at most a value and a leaf record before the next test; list of system calls |
| C66 | `kh_get`, `kh_put`, `kh_resize` and the cache functions on arrays with bounds and initialisation checks | triangular probing visits every bucket; invariant "every entry is reachable past full buckets"; loop invariant of the kick-out with the entries in hand; counting argument for termination |
| C67 | iterators over the heap model, each frame of the stack either borrowing a node or owning it | stack invariant "a frame not resolved points into the memory of the frames below it"; the frame rule with an exact memory for what is not touched |
| C68 | open, close, destroy and every function of the store in between, reduced to what they acquire, use and release (`Model/Resource`) | separation logic with an oracle for all outcomes: the store's resources as an invariant of every function; emptiness at the end |
| C69 | get, has, insert, remove, prove on arbitrary data files (`Spec/Damage`: the way of a key, the damage met on it) | what nodes in memory satisfy whatever the files contain is an invariant of all calls; induction on the recursion gives the exact outcome of each function |
| C70 | iteration over damaged files: `walk` lists the events of the (possibly infinite) tree cut off at 256 frames, and `played` turns events into results | the invariant `Left` says which events are still to come |
| C71 | opening any directory, and the search for old roots in damaged files: `Newest`, `seen` and `Hunt` (Spec/Search) describe the commit records and the search on the bytes of the files | the scan finds the newest record (induction over files and slots); the search is a relation, its end is unique, and if it does not end within as many rounds as there are bytes the records form a circle (pigeonhole) |
| C72 | calls that only look, in any program and on any files: `Observes` (Spec/Quiet) is everything that can be seen afterwards | a bisimulation: trees that differ only in recorded hashes give the same answers and write the same bytes |
| C73 | lookups, proofs, insertions and removals on any files (`Finds`, `Lost`, `Ends` … in Spec/Answers are read off the records) | inductions over the way of the key; every other key follows the same way before and after, by cases on where the ways part; a concrete refutation for unclean unused bits |
| C74 | programs on any opened directory (`FromDir`, Spec/Keep): what lookups answer before and after a commit, after re-creation and after reopening | an invariant of all such programs (pointers in memory are within the files or dangle harmlessly); appending files only turns failed reads into others; induction over the written tree; two concrete refutations |
| C75 | the concurrent runs of C59 stopped after any prefix of the schedule, the files of the shared memory opened again; histories with kills as in C57 (Spec/ConcCrash) | beside the invariant of C59, an invariant that places the only call holding the tree lock for writing between two calls of the serial order; then C57 for the serial history with one commit cut short |
| C76 | histories of logged calls, any first part of the bytes they wrote, `urkel_open` on it; `urkel__corrupt` over the file system of Model/Destroy (Model/Corrupt) | induction over the history: the first call whose bytes are not all there is a commit cut short (C25, C57); the buffer of urkel__corrupt traced through the loop |
| C77 | bytes appended by a commit against the calls made through the transaction (Spec/Cost: Op.weight) in FromDir programs | a bound on the tree in memory that every call keeps (new nodes only, at most 257 branches a change), and that treeWrite and the commit record do not exceed |
| C78 | one call on the same program with other contents of the data files (Spec/Local: SameCall) | every model function of the store reads at most so many places (a small calculus of such functions), by induction over the fuel, with the key bits as the bound |
| C79 | histories with stops anywhere, the log flagged with whether each record is on a boundary (Spec/Boundary: Stopped, survivors) | the newest state on a boundary is carried along as an anchor (Lemmas/Boundary): nothing between it and the present looks like a record, so recovery (C25's `recover_image`) finds exactly it; threads by the simulation of C75 |
| C80 | processes as step machines over one directory and a lock: the four steps of an open, calls, closes (Model/Procs) | invariant: the directory is that of one logged single-process execution, which the process inside continues (Spec/Procs: Together, Timely); two counterexamples evaluated by the kernel |
| C81 | the loops of io_win.c over arbitrary answers of the system, the shared file pointer as a step machine (Model/Win) | induction over the answers; for concurrent reads an invariant of every interleaving; refutations for every schedule of answers |
| C82 | every system call of the rwlock as one step of a thread (Model/WinLock; Spec/WinLock) | counting invariant: semaphore = owners, readers = registered; starvation by a loop of the state machine |
| C83 | handles, files pending deletion and the lock file's name (Model/WinLockFile) | inductive invariant over all interleavings; counterexample evaluated by the kernel |
| C84 | calls as sequences of lock operations, with iterators opened and closed anywhere (Model/Nested; Spec/Nested says which calls change or read what) | invariant on what each thread holds given its open iterators; waiting threads are ordered tx < tree < files; refutations evaluated by the kernel |
| C85 | calls and whole iterations as programs over the shared variables (Spec/ConcIter: `Job`, `jobStep`; the accesses are those of Model/Locks) | C59's invariant (an iteration is two-phase in the tree and transaction locks); an iteration only looks; C30 for what it returns in one state |
| C86 | the commit path and reads in machine integers with the widths of the C types (Model/Words); Spec/Words: the numbers they stand for, buffers and files in order | refinement, function by function, of the model in unbounded numbers; 32 bits with failing flushes refuted: every block has less than 2 GB |
| C87 | no new code model; Spec/Format: the file format byte by byte, written without the model's readers and writers (records, references, files, commits, chain of commits, conforming directories) | writes: induction over the tree, each record is the bytes of the format at the position its parent refers to (Lemmas/Layout); reads: every conforming directory satisfies the store invariant, so the refinement of the model (C46) applies from there |
| C88 | no new code model; Spec/ProofFormat: the encoding of proofs, when a proof proves something, the proof of a key in a tree | parser and verifier are proved equivalent to the format (proofRead_iff, proofVerify_iff); Props/Readme runs the session of README.md in the model with the real hash function and gets the documented roots and proof |
| C89 | Model/Errno | the calls with the caller's variables are proved to follow those without (cStep_follows), for every store whose current file has what the store counts; that holds in every state a program reaches (IoRel of Lemmas/Trace) |
| C90 | no new code model; Spec/Reason: the faults of a proof, in terms of Spec/ProofFormat | the verifier's loop, from the last branch to the first, ends in one of three ways (verifyLoop_why); the faults exclude each other (Wrong.unique) |
| C91 | Model/Procs with kills: Spec/Killed adds kills inside a committing call (CrashImage) and inside recovery (recoverTrace) | invariant: there is one logged execution without kills; whoever is inside continues it, and while nobody is, the files are an image of its files after any number of cut recoveries, which opens as they do (open_after_cuts) |
| C92 | the calls of Model/Tree and Model/Api as functions of the hash function (Spec/Work) | the nodes without a hash: at most 257 more per change, none below a node that has one; each call depends on at most that many values |
| C93 | Model/Life: Model/Procs with a directory that may be missing and `urkel_destroy` as an event; Spec/Life: Lived, Fair | invariant: nobody has used the directory yet, or it is that of one logged execution since it was last made, which the process inside continues; a counterexample evaluated by the kernel |
| C94 | Model/Life with kills: Spec/Mortal joins Spec/Life and Spec/Killed | the invariant of C91 on the processes that have the database open (World.bare), or there is no key file yet |
| C95 | Model/DestroyCut: the file systems on the way through `urkel_store_destroy` | every state is that of the loop on the first k of the sorted names; the order of the names gives what can be missing |
| C96 | Model/Modes: the translations as rows, `urkel_fs_open` against a list of answers of the kernel | the translations bit by bit; every call in the trace by induction on the answers |
| C97 | Model/Wasi: the loop over the entries, seeing lengths only | what it infers, up to order, by induction on the entries; sorted lists with the same members are equal; C38 for the number of files |
| C98 | states of the program as in C50; Spec/Again: the calls after which the transaction may not know the pair any more | the leaf with its value stays in the memory of the transaction through every other call (induction on the tree operations); inserting finds it (the leaf is where its key points) and only it; a lower bound for what a commit appends |
