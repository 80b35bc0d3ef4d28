/-
tree.c, store.c: which locks each API call takes, in which order, and which shared
state it reads or writes in between. The data itself is in the other model files; here
a call is the list of its lock operations and accesses to shared state.

Not modelled: memory that no other thread can reach yet or any more (a transaction
during `urkel_tx_create`, nodes read from disk during one call), the life time of the
objects (using a transaction after destroying it), and `urkel_errno`, which is
thread-local (tree.c:58-71, given compiler support).
-/
namespace Urkel

/-- A reader-writer lock or mutex: `tx->lock` of transaction `n` (tree.c:32),
`tree->lock` (tree.c:24), `iter->lock` of iterator `n` (tree.c:45), `fm->lock` of the
table of file handles (store.c:61). A mutex is only ever taken in mode `wr`. -/
inductive Lock where
  | tx (n : Nat)
  | tree
  | iter (n : Nat)
  | files
deriving DecidableEq

/-- Mode in which a lock is held. -/
inductive Mode where
  | rd
  | wr
deriving DecidableEq

/-- Shared state: `head` is `tree->hash` and `tree->revert` (tree.c:25-26); `state` is
`store->state`; `history` is the root cache and `store->last_meta`; `out` is what
appending changes: the slab, `store->index`, `store->current`, the size and mapping of
the current file, the random number generator (store.c:79-92); `table` is the table of
file handles (store.c:60-65); `tx n` the root and the nodes in memory of a
transaction (and `tx->tree`); `iter n` the state of an iterator. -/
inductive Var where
  | head
  | state
  | history
  | out
  | table
  | tx (n : Nat)
  | iter (n : Nat)
deriving DecidableEq

/-- One step of a call. -/
inductive Act where
  | acq (l : Lock) (m : Mode)
  | rel (l : Lock)
  | rd (v : Var)
  | wr (v : Var)
deriving DecidableEq

open Act

/-- `urkel_store_read` (store.c:508-520) through `urkel_store_open_file`
(store.c:461-491): the file number is compared with `store->index`, the table is
looked up, and extended if the file is not open (`miss`); then the file is read. -/
def readActs (miss : Bool) : List Act :=
  [rd .out, acq .files .rd, rd .table, rel .files] ++ (if miss then [acq .files .wr, wr .table, rel .files] else []) ++ [rd .out]

/-- Several reads. -/
def readsActs (misses : List Bool) : List Act := misses.flatMap readActs

/-- `urkel_store_read_history` (store.c:815-862); it is called for
`urkel_store_has_history` and `urkel_store_get_history`. Reading a root inserts it in
the cache (store.c:600), and the walk advances `store->last_meta` (store.c:851). -/
def historyActs (misses : List Bool) : List Act :=
  [rd .state, rd .history] ++ misses.flatMap fun miss => readActs miss ++ [wr .history]

/-- Events while a commit appends: a write to the current file (`false`), or a
rollover (store.c:535-548) to a new file before it (`true`), which looks the new file
up, evicts (store.c:436-459, reading the table without its lock), inserts the new file
and removes the old one. -/
def appendActs (roll : Bool) : List Act :=
  (if roll then [rd .out, acq .files .rd, rd .table, rel .files, rd .table, acq .files .wr, wr .table, rel .files,
    acq .files .wr, wr .table, rel .files] else []) ++ [wr .out]

/-- The API calls; `x` is a transaction, `n` an iterator, `misses` say for each file
read whether the file has to be opened first. -/
inductive Call where
  | root
  | inject (misses : List Bool)
  | txCreate (x : Nat) (write : Bool) (misses : List Bool)
  | txDestroy (x : Nat)
  | txClear (x : Nat)
  | txRoot (x : Nat) (write : Bool)
  | txInject (x : Nat) (misses : List Bool)
  | txGet (x : Nat) (misses : List Bool)
  | txHas (x : Nat) (misses : List Bool)
  | txInsert (x : Nat) (misses : List Bool)
  | txRemove (x : Nat) (misses : List Bool)
  | txProve (x : Nat) (write : Bool) (misses : List Bool)
  | txCommit (x : Nat) (rolls : List Bool) (evicted : Nat)
  | iterate (x n : Nat) (nexts : List (List Bool)) (transient : Bool)

/-- The steps of each call: `urkel_root` (tree.c:637-644), `urkel_inject`
(tree.c:646-665), `urkel_tx_create` (tree.c:831-871; `write` is `write_lock`),
`urkel_tx_destroy` (tree.c:873-881), `urkel_tx_clear` (tree.c:883-894),
`urkel_tx_root` (tree.c:896-917), `urkel_tx_inject` (tree.c:919-940), `urkel_tx_get`
(tree.c:942-961), `urkel_tx_has` (tree.c:963-976), `urkel_tx_insert` (tree.c:978-1002),
`urkel_tx_remove` (tree.c:1004-1020), `urkel_tx_prove` (tree.c:1022-1066),
`urkel_tx_commit` (tree.c:1068-1084, 557-575; store.c:776-800); `iterate` is
`urkel_iter_create` (tree.c:1090-1107), calls of `urkel_iter_next` (tree.c:1249-1284)
and `urkel_iter_destroy` (tree.c:1109-1132), by one thread with no other call in
between. -/
def Call.acts : Call → List Act
  | .root => [acq .tree .rd, rd .head, rel .tree]
  | .inject misses => acq .tree .wr :: historyActs misses ++ [wr .head, rel .tree]
  | .txCreate _ write misses =>
    [acq .tree .rd, rd .head] ++
      (if write then rel .tree :: acq .tree .wr :: rd .head :: historyActs misses else [rd .head, rd .state]) ++ [rel .tree]
  | .txDestroy x => [acq (.tx x) .wr, wr (.tx x), rel (.tx x)]
  | .txClear x => [acq (.tx x) .wr, acq .tree .rd, wr (.tx x), rd .state, wr (.tx x), rel .tree, rel (.tx x)]
  | .txRoot x write =>
    [acq (.tx x) .rd, rd (.tx x)] ++ (if write then [rel (.tx x), acq (.tx x) .wr, wr (.tx x)] else [rd (.tx x)]) ++ [rel (.tx x)]
  | .txInject x misses =>
    acq (.tx x) .wr :: acq .tree .wr :: rd (.tx x) :: historyActs misses ++ [wr (.tx x), rel .tree, rel (.tx x)]
  | .txGet x misses => acq (.tx x) .rd :: acq .tree .rd :: rd (.tx x) :: readsActs misses ++ [rel .tree, rel (.tx x)]
  | .txHas x misses => acq (.tx x) .rd :: acq .tree .rd :: rd (.tx x) :: readsActs misses ++ [rel .tree, rel (.tx x)]
  | .txInsert x misses =>
    acq (.tx x) .wr :: acq .tree .rd :: rd (.tx x) :: readsActs misses ++ [wr (.tx x), rel .tree, rel (.tx x)]
  | .txRemove x misses =>
    acq (.tx x) .wr :: acq .tree .rd :: rd (.tx x) :: readsActs misses ++ [wr (.tx x), rel .tree, rel (.tx x)]
  | .txProve x write misses =>
    [acq (.tx x) .rd, acq .tree .rd, rd (.tx x)] ++
      (if write then [rel (.tx x), acq (.tx x) .wr, wr (.tx x)] ++ readsActs misses ++ [wr (.tx x)] else rd (.tx x) :: readsActs misses) ++
      [rel .tree, rel (.tx x)]
  | .txCommit x rolls evicted =>
    acq (.tx x) .wr :: acq .tree .wr :: wr (.tx x) :: wr .out :: rd .state :: rolls.flatMap appendActs ++
      [wr .state, wr .history, rd .table] ++
      (List.replicate evicted [rd .table, acq .files .wr, wr .table, rel .files]).flatten ++
      [wr .head, wr (.tx x), rel .tree, rel (.tx x)]
  | .iterate x n nexts transient =>
    acq (.tx x) .rd :: acq .tree .rd :: rd (.tx x) ::
      (nexts.flatMap fun misses => acq (.iter n) .wr :: wr (.iter n) :: rd (.tx x) :: readsActs misses ++ [rel (.iter n)]) ++
      [acq (.iter n) .wr, wr (.iter n), rel .tree, rel (.tx x)] ++
      (if transient then [acq (.tx x) .wr, wr (.tx x), rel (.tx x)] else []) ++ [rel (.iter n)]

/-- A thread: the locks it holds and what it has yet to do. -/
structure Thread where
  held : List (Lock × Mode)
  prog : List Act
deriving DecidableEq

/-- Does the thread hold the lock, in any mode? -/
def Thread.holds (th : Thread) (l : Lock) : Bool := th.held.any fun h => h.1 = l

/-- Does the thread hold the lock for writing? -/
def Thread.holdsWr (th : Thread) (l : Lock) : Bool := th.held.any fun h => h.1 = l && h.2 = .wr

/-- Is the thread waiting to write-lock `l`? -/
def Thread.waitsWr (th : Thread) (l : Lock) : Bool := th.prog.head? = some (acq l .wr)

/-- May the lock be taken now? (`pthread_rwlock_rdlock`, `pthread_rwlock_wrlock`,
io_posix.c:1468-1530.) POSIX leaves open whether a waiting writer holds up readers:
`pref` says so. -/
def lockFree (pref : Bool) (ths : List Thread) (l : Lock) : Mode → Bool
  | .wr => !ths.any fun th => th.holds l
  | .rd => !(ths.any fun th => th.holdsWr l) && !(pref && ths.any fun th => th.waitsWr l)

/-- One step of thread `t`; `none` if it has nothing to do or has to wait. -/
def lockStep (pref : Bool) (ths : List Thread) (t : Nat) : Option (List Thread) :=
  match ths[t]? with
  | none => none
  | some th =>
    match th.prog with
    | [] => none
    | .acq l m :: p => if lockFree pref ths l m then some (ths.set t ⟨(l, m) :: th.held, p⟩) else none
    | .rel l :: p => some (ths.set t ⟨th.held.filter fun h => h.1 ≠ l, p⟩)
    | .rd _ :: p => some (ths.set t ⟨th.held, p⟩)
    | .wr _ :: p => some (ths.set t ⟨th.held, p⟩)

/-- Threads taking steps in the order of the schedule. A reader is never held up by a
writer that is about to ask for the lock: this allows every run that any lock
implementation allows. -/
def lockRun : List Thread → List Nat → Option (List Thread)
  | ths, [] => some ths
  | ths, t :: sched => (lockStep false ths t).bind fun ths => lockRun ths sched

/-- Threads that will perform the given calls, one after the other. -/
def startCalls (calls : List (List Call)) : List Thread := calls.map fun cs => ⟨[], cs.flatMap Call.acts⟩

end Urkel
