import Verif.Model.Heap
/-
What `urkel_open`, `urkel_close`, `urkel_destroy` and the functions of the store in between
acquire and release: blocks of memory, file descriptors, mappings and directory streams,
all kept in the heap of Model/Heap.lean as cells of different kinds. What the functions
compute is not modelled here: whatever decides their course (results of system calls, what
is read from files, table lookups) is taken from a list of answers that may be anything.
-/
namespace Urkel

/-- A computation that also takes answers from its environment. -/
def RM (α : Type) : Type := List Nat → HM (α × List Nat)

instance : Monad RM where
  pure a := fun w => pure (a, w)
  bind m k := fun w => m w >>= fun x => k x.1 x.2

def RM.of {α : Type} (m : HM α) : RM α := fun w => m >>= fun a => pure (a, w)

/-- The next answer. -/
def answer : RM Nat := fun w => pure (w.headD 0, w.tail)

/-- The next answer as yes or no. -/
def ask : RM Bool := answer >>= fun n => pure (n != 0)

/-- Acquiring a resource of a kind. -/
def acquire (A : Alloc) (c : Cell) : RM Nat := RM.of (malloc A c)

/-- Using a resource, which has to be of the right kind. -/
def use (c : Cell) (a : Nat) : RM Unit := RM.of (load a >>= fun d => if d = c then pure () else HM.ub)

/-- Releasing a resource, which has to be of the right kind. -/
def release (c : Cell) (a : Nat) : RM Unit := use c a >>= fun _ => RM.of (free a)

/-- `free(ptr)` after `ptr != NULL`. -/
def releaseOpt (c : Cell) : Option Nat → RM Unit
  | none => pure ()
  | some a => release c a

/-! ### io_posix.c -/

/-- `urkel_fs_open` (io_posix.c:464-516). -/
def rOpen (A : Alloc) : RM (Option Nat) := do
  if ← ask then do
    let fd ← acquire A .fd
    pure (some fd)
  else pure none

/-- A system call on a descriptor: read, write, pread, fstat, ftruncate, fdatasync, fcntl
(io_posix.c:856-865, 894-1072). -/
def rCall (fd : Nat) : RM Bool := do
  use .fd fd
  ask

/-- `urkel_fs_close` (io_posix.c:1069-1072): `close` releases the descriptor whatever it
returns. -/
def rClose (fd : Nat) : RM Unit := release .fd fd

/-- `urkel_fs_read_file`, `urkel_fs_write_file` (io.c:18-53). -/
def rFileOnce (A : Alloc) : RM Bool := do
  match ← rOpen A with
  | none => pure false
  | some fd => do
    let ok ← rCall fd
    rClose fd
    pure ok

/-- `urkel_fs_open_lock` (io.c:55-70). -/
def rOpenLock (A : Alloc) : RM (Option Nat) := do
  match ← rOpen A with
  | none => pure none
  | some fd => do
    if ← rCall fd then pure (some fd)
    else do
      rClose fd
      pure none

/-- `urkel_fs_close_lock` (io.c:72-76). -/
def rCloseLock (fd : Nat) : RM Unit := do
  let _ ← rCall fd
  rClose fd

/-- The loop of `urkel_fs_scandir` (io_posix.c:745-832): `n` entries to go, `size` is the
capacity of the list. `none` is a failure: the entries so far are in the second
component, with the list. -/
def rScanLoop (A : Alloc) : Nat → Nat → Nat → List Nat → RM (Bool × Nat × List Nat)
  | 0, _, list, items => do
    -- readdir returns NULL: the end, or an error
    let ok ← ask
    pure (ok, list, items)
  | n + 1, size, list, items => do
    -- "." and ".."
    if ← ask then rScanLoop A n size list items
    else do
      let item ← acquire A .raw
      -- a name that is too long
      if ← ask then do
        release .raw item
        pure (false, list, items)
      else if items.length = size then do
        release .raw list
        let list ← acquire A .raw
        use .raw item
        rScanLoop A n ((size * 3) / 2) list (item :: items)
      else do
        use .raw item
        rScanLoop A n size list (item :: items)

/-- Freeing the entries of a list. -/
def rFreeAll : List Nat → RM Unit
  | [] => pure ()
  | a :: as => do
    release .raw a
    rFreeAll as

/-- `urkel_fs_scandir` (io_posix.c:719-853). The item of a failing round is freed there
(above) and not at the end, and entries are freed in the opposite order. -/
def rScandir (A : Alloc) : RM (Option (Nat × List Nat)) := do
  let list ← acquire A .raw
  if ← ask then do
    let dir ← acquire A .dir
    let n ← answer
    let (ok, list, items) ← rScanLoop A n 8 list []
    use .dir dir
    if ok then do
      release .dir dir
      pure (some (list, items))
    else do
      rFreeAll items
      release .raw list
      release .dir dir
      pure none
  else do
    release .raw list
    pure none

/-- `urkel_file_t` (io.h:124-131): the block, the descriptor unless it is -1, the mapping
unless `base` is NULL, and `mapped`. -/
structure RFile where
  blk : Nat
  fd : Option Nat
  base : Option Nat
  mapped : Bool

/-- `urkel_file_close` (io_posix.c:1197-1213). Unmapping a whole mapping does not fail. -/
def rFileClose (f : RFile) : RM Unit := do
  releaseOpt .mapping f.base
  releaseOpt .fd f.fd
  release .raw f.blk

/-- `urkel_file_open` (io_posix.c:1078-1130) with URKEL_O_MMAP; `ro` is URKEL_O_RDONLY. -/
def rFileOpen (A : Alloc) (ro : Bool) : RM (Option RFile) := do
  match ← rOpen A with
  | none => pure none
  | some fd => do
    if ← rCall fd then do
      let blk ← acquire A .raw
      -- an empty file is not mapped
      if ← ask then do
        if ← ask then do
          let base ← acquire A .mapping
          if ro then do
            rClose fd
            pure (some ⟨blk, none, some base, true⟩)
          else pure (some ⟨blk, some fd, some base, true⟩)
        else do
          rFileClose ⟨blk, some fd, none, false⟩
          pure none
      else pure (some ⟨blk, some fd, none, true⟩)
    else do
      rClose fd
      pure none

/-- A call on a descriptor that may be -1, which the kernel refuses. -/
def rCallOpt : Option Nat → RM Bool
  | none => pure false
  | some fd => rCall fd

/-- `urkel_file_pread` (io_posix.c:1132-1152). -/
def rFilePread (f : RFile) : RM Bool := do
  use .raw f.blk
  -- refused by the tests on position and length
  if ← ask then pure false
  else match f.base with
    | some b => do
      use .mapping b
      pure true
    | none => rCallOpt f.fd

/-- The end of `urkel_file_write`: writing and mapping again (io_posix.c:1167-1183). -/
def rFileAppend (A : Alloc) (f : RFile) : RM (Bool × RFile) := do
  if ← rCallOpt f.fd then do
    if f.mapped then do
      if ← ask then do
        let base ← acquire A .mapping
        pure (true, { f with base := some base })
      else pure (false, f)
    else pure (true, f)
  else pure (false, f)

/-- `urkel_file_write` (io_posix.c:1154-1185). -/
def rFileWrite (A : Alloc) (f : RFile) : RM (Bool × RFile) := do
  use .raw f.blk
  match f.base with
  | some b => do
    if ← ask then do
      release .mapping b
      rFileAppend A { f with base := none }
    else pure (false, f)
  | none => rFileAppend A f

/-- `urkel_path_resolve` (io_posix.c:1312-1350): the block of the result. -/
def rPathResolve (A : Alloc) : RM (Option Nat) := do
  let out ← acquire A .raw
  if ← ask then do
    -- realloc
    release .raw out
    let out ← acquire A .raw
    pure (some out)
  else do
    release .raw out
    pure none

/-- `urkel_sys_random` (io_posix.c:1361-1413) called by `urkel_random_bytes`
(util.c:150-168), which always succeeds. -/
def rRandom (A : Alloc) : RM Unit := do
  match ← rOpen A with
  | some fd => do
    let _ ← rCall fd
    rClose fd
  | none =>
    match ← rOpen A with
    | some fd => do
      let _ ← rCall fd
      rClose fd
    | none => pure ()

/-! ### store.c -/

/-- `data_store_t` (store.c:77-91) with its slab (store.c:40-51), file table
(store.c:53-58) and cache (store.c:60-62): the blocks they hold. `items` is the file
table; the file `store->current` is the one at `store->index` (C40). The table of the
cache is three arrays, allocated together. -/
structure RStore where
  blk : Nat
  lock : Nat
  data : Option Nat
  offsets : Option Nat
  table : Option Nat
  items : List (Option RFile)
  fmLock : Nat
  map : Nat
  arrays : Option (Nat × Nat × Nat)
  nodes : List Nat
  index : Nat

/-- `urkel_filemap_lookup` (store.c:245-260). -/
def RStore.file (s : RStore) (i : Nat) : Option RFile := s.items.getD i none

/-- `urkel_filemap_insert` (store.c:262-284); the limit on the number of files is C40's
subject. -/
def rInsert (A : Alloc) (s : RStore) (i : Nat) (f : RFile) : RM RStore := do
  use .raw s.fmLock
  if i ≥ s.items.length then do
    releaseOpt .raw s.table
    let t ← acquire A .raw
    pure { s with table := some t, items := (s.items ++ List.replicate (i + 1 - s.items.length) none).set i (some f) }
  else do
    if (s.file i).isSome then RM.of (HM.lift .abort)
    else pure { s with items := s.items.set i (some f) }

/-- `urkel_store_close_file` (store.c:494-508) with `urkel_filemap_remove`
(store.c:286-304). -/
def rCloseFile (s : RStore) (i : Nat) : RM RStore := do
  use .raw s.fmLock
  match s.file i with
  | none => pure s
  | some f => do
    rFileClose f
    pure { s with items := s.items.set i none, index := if i = s.index then 0 else s.index }

/-- The files that `urkel_store_evict` may close: all that are open except the current
one (store.c:442-447). -/
def RStore.victims (s : RStore) : List Nat :=
  (List.range s.items.length).filter fun i => decide (1 ≤ i ∧ i ≠ s.index) && (s.file i).isSome

/-- `urkel_store_evict` (store.c:434-459): the random choice is an answer. It ends after
at most as many rounds as there are files (C40). -/
def rEvict : Nat → RStore → RM RStore
  | 0, s => pure s
  | n + 1, s =>
    if (s.items.filter Option.isSome).length > 32 then do
      let k ← answer
      match s.victims[k % s.victims.length]? with
      | none => pure s
      | some i => do
        let s ← rCloseFile s i
        rEvict n s
    else pure s

/-- Eviction if the write lock is held (store.c:483-486). -/
def rEvictIf (ro : Bool) (s : RStore) : RM RStore := if ro then pure s else rEvict s.items.length s

/-- `urkel_store_open_file` (store.c:461-491): `ro` is READ_FLAGS. -/
def rOpenFile (A : Alloc) (s : RStore) (i : Nat) (ro : Bool) : RM (RStore × Option RFile) := do
  if i = 0 ∨ i > s.index + 1 then pure (s, none)
  else match s.file i with
    | some f => pure (s, some f)
    | none => do
      match ← rFileOpen A ro with
      | none => pure (s, none)
      | some f => do
        let s ← rEvictIf ro s
        let s ← rInsert A s i f
        pure (s, some f)

/-- `urkel_store_read` (store.c:510-523). -/
def rRead (A : Alloc) (s : RStore) (i : Nat) : RM (RStore × Bool) := do
  let (s, f) ← rOpenFile A s i true
  match f with
  | none => pure (s, false)
  | some f => do
    let ok ← rFilePread f
    pure (s, ok)

/-- `urkel_file_write` on `store->current`, which is `urkel_null_file` (descriptor -1)
when there is none. -/
def rAppend (A : Alloc) (s : RStore) : RM (RStore × Bool) := do
  match s.file s.index with
  | none => pure (s, false)
  | some f => do
    let (ok, f) ← rFileWrite A f
    pure ({ s with items := s.items.set s.index (some f) }, ok)

/-- `urkel_store_write` (store.c:531-554): `full` says that the current file is. -/
def rWrite (A : Alloc) (s : RStore) : RM (RStore × Bool) := do
  if ← ask then do
    let (s, f) ← rOpenFile A s (s.index + 1) false
    match f with
    | none => pure (s, false)
    | some _ => do
      let ok ← rCallOpt ((s.file s.index).bind RFile.fd)
      if ok then do
        let i := s.index
        let s ← rCloseFile s i
        rAppend A { s with index := i + 1 }
      else pure (s, false)
  else rAppend A s

/-- `urkel_slab_write` (store.c:175-188): the offsets. -/
def rSlabOffsets (A : Alloc) (s : RStore) : RM RStore :=
  match s.offsets with
  | none => do
    let o ← acquire A .raw
    pure { s with offsets := some o }
  | some o => do
    if ← ask then do
      release .raw o
      let o ← acquire A .raw
      pure { s with offsets := some o }
    else pure s

/-- `urkel_slab_write` (store.c:169-211): the allocations. -/
def rSlab (A : Alloc) (s : RStore) : RM RStore := do
  let s ← rSlabOffsets A s
  if ← ask then do
    releaseOpt .raw s.data
    let d ← acquire A .raw
    pure { s with data := some d }
  else pure s

/-- The arrays of the hash table, if there are any (khash.h:239-247). -/
def rFreeArrays : Option (Nat × Nat × Nat) → RM Unit
  | none => pure ()
  | some (a, b, c) => do
    release .raw a
    release .raw b
    release .raw c

/-- `kh_resize` (khash.h:266-341). -/
def rCacheGrow (A : Alloc) (s : RStore) : RM RStore := do
  if ← ask then do
    rFreeArrays s.arrays
    let a ← acquire A .raw
    let b ← acquire A .raw
    let c ← acquire A .raw
    pure { s with arrays := some (a, b, c) }
  else pure s

/-- `urkel_cache_insert` (store.c:356-380): `kh_put` may allocate the arrays anew. -/
def rCacheInsert (A : Alloc) (s : RStore) : RM RStore := do
  let val ← acquire A .raw
  use .raw s.map
  let s ← rCacheGrow A s
  if ← ask then pure { s with nodes := val :: s.nodes }
  else do
    release .raw val
    pure s

/-- `urkel_store_read_root` (store.c:572-607): the record is read from file `i`. An
internal node has two children in memory, which `urkel_node_clear` frees; so it does with
the value of a leaf. -/
def rReadRoot (A : Alloc) (s : RStore) : RM (RStore × Bool) := do
  if ← ask then pure (s, true)
  else do
    let i ← answer
    let (s, ok) ← rRead A s i
    if !ok then pure (s, false)
    -- urkel_node_read
    else if ← ask then pure (s, false)
    else if ← ask then do
      let l ← acquire A .raw
      let r ← acquire A .raw
      release .raw l
      release .raw r
      let s ← rCacheInsert A s
      pure (s, true)
    else do
      let j ← answer
      let (s, ok) ← rRead A s j
      if !ok then pure (s, false)
      else do
        let v ← acquire A .raw
        release .raw v
        let s ← rCacheInsert A s
        pure (s, true)

/-- The loop of `urkel_store_read_history` (store.c:829-858). -/
def rHistoryLoop (A : Alloc) : Nat → RStore → RM (RStore × Bool)
  | 0, s => pure (s, false)
  | n + 1, s => do
    let i ← answer
    let (s, ok) ← rRead A s i
    if !ok then pure (s, false)
    else do
      let (s, ok) ← rReadRoot A s
      if !ok then pure (s, false)
      else if ← ask then pure (s, true)
      else rHistoryLoop A n s

/-- `urkel_store_flush` (store.c:719-751): one write for each piece. -/
def rFlush (A : Alloc) : Nat → RStore → RM (RStore × Bool)
  | 0, s => pure (s, true)
  | n + 1, s => do
    let (s, ok) ← rWrite A s
    if ok then rFlush A n s else pure (s, false)

/-- The end of `urkel_store_commit` (store.c:797-804). -/
def rCommitEnd (A : Alloc) (s : RStore) : RM RStore := do
  if ← ask then do
    let s ← rCacheInsert A s
    rEvict s.items.length s
  else rEvict s.items.length s

/-- `urkel_store_commit` (store.c:782-805) built with URKEL_FSYNC. -/
def rCommit (A : Alloc) (s : RStore) : RM (RStore × Bool) := do
  let s ← rSlab A s
  let s ← rSlab A s
  let n ← answer
  let (s, ok) ← rFlush A n s
  if !ok then pure (s, false)
  else do
    let ok ← rCallOpt ((s.file s.index).bind RFile.fd)
    if !ok then pure (s, false)
    else do
      let s ← rCommitEnd A s
      pure (s, true)

/-! ### Opening and closing -/

/-- `urkel_store_init_prefix` (store.c:892-917). -/
def rInitPrefix (A : Alloc) : RM Bool := do
  match ← rPathResolve A with
  | none => pure false
  | some p => do
    if ← ask then do
      release .raw p
      pure false
    else do
      release .raw p
      ask

/-- `urkel_store_init_meta` (store.c:919-932). -/
def rInitMeta (A : Alloc) : RM Bool := do
  if ← ask then rFileOnce A
  else do
    rRandom A
    rFileOnce A

/-- `urkel_store_find_index` (store.c:934-962): the answer is the number of files. -/
def rFindIndex (A : Alloc) : RM (Option Nat) := do
  match ← rScandir A with
  | none => pure none
  | some (list, items) => do
    rFreeAll items
    release .raw list
    if ← ask then do
      let i ← answer
      pure (some i)
    else pure none

/-- The loop of `urkel_store_find_meta` (store.c:998-1021), reading `n` blocks. -/
def rMetaLoop (fd slab : Nat) : Nat → RM Bool
  | 0 => pure false
  | n + 1 => do
    use .raw slab
    if ← rCall fd then do
      if ← ask then do
        let _ ← rCall fd
        pure true
      else rMetaLoop fd slab n
    else pure false

/-- `urkel_store_find_meta` on an open file (store.c:993-1021). -/
def rMetaRead (fd slab : Nat) : RM Bool := do
  if ← rCall fd then do
    let n ← answer
    rMetaLoop fd slab n
  else pure false

/-- `urkel_store_find_meta` (store.c:980-1026). -/
def rFindMeta (A : Alloc) (slab : Nat) : RM Bool := do
  match ← rOpen A with
  | none => pure false
  | some fd => do
    let ret ← rMetaRead fd slab
    rClose fd
    pure ret

/-- The loop of `urkel_store_recover_state` (store.c:1041-1057): the index found, or a
failure. -/
def rRecoverLoop (A : Alloc) (slab : Nat) : Nat → RM (Option Nat)
  | 0 => pure (some 1)
  | i + 1 => do
    if ← rFindMeta A slab then pure (some (i + 1))
    else if ← ask then rRecoverLoop A slab i
    else pure none

/-- `urkel_store_recover_state` (store.c:1028-1064). -/
def rRecover (A : Alloc) (index : Nat) : RM (Option Nat) := do
  let slab ← acquire A .raw
  let r ← rRecoverLoop A slab index
  release .raw slab
  pure r

/-- `urkel_filemap_clear` (store.c:224-243): the files. -/
def rClearFiles : List (Option RFile) → RM Unit
  | [] => pure ()
  | none :: fs => rClearFiles fs
  | some f :: fs => do
    rFileClose f
    rClearFiles fs

/-- `urkel_store_clear` (store.c:1118-1133) with `urkel_slab_clear` (store.c:158-167),
`urkel_filemap_clear` (store.c:224-243), `urkel_cache_clear` (store.c:316-333) and
`kh_destroy` (khash.h:239-247). -/
def rClear (s : RStore) : RM Unit := do
  releaseOpt .raw s.data
  releaseOpt .raw s.offsets
  use .raw s.fmLock
  rClearFiles s.items
  releaseOpt .raw s.table
  release .raw s.fmLock
  rFreeAll s.nodes
  rFreeArrays s.arrays
  release .raw s.map
  rCloseLock s.lock

/-- The end of `urkel_store_init`, with everything set up (store.c:1098-1115). -/
def rInitEnd (A : Alloc) (s : RStore) : RM (Option RStore) := do
  let (s, f) ← rOpenFile A s s.index false
  match f with
  | none => do
    rClear s
    pure none
  | some _ => do
    let (s, ok) ← rReadRoot A s
    if ok then pure (some s)
    else do
      rClear s
      pure none

/-- `urkel_store_init` (store.c:1069-1116). -/
def rInit (A : Alloc) (blk : Nat) : RM (Option RStore) := do
  use .raw blk
  if !(← rInitPrefix A) then pure none
  else if !(← rInitMeta A) then pure none
  else match ← rFindIndex A with
    | none => pure none
    | some index => do
      match ← rOpenLock A with
      | none => pure none
      | some lock => do
        match ← rRecover A index with
        | none => do
          rCloseLock lock
          pure none
        | some index => do
          let fmLock ← acquire A .raw
          let map ← acquire A .raw
          rRandom A
          rInitEnd A ⟨blk, lock, none, none, none, [], fmLock, map, none, [], index⟩

/-- `urkel_store_open` (store.c:1134-1144). -/
def rStoreOpen (A : Alloc) : RM (Option RStore) := do
  let blk ← acquire A .raw
  match ← rInit A blk with
  | none => do
    release .raw blk
    pure none
  | some s => pure (some s)

/-- `urkel_store_close` (store.c:1146-1150). -/
def rStoreClose (s : RStore) : RM Unit := do
  rClear s
  release .raw s.blk

/-- `urkel_store_destroy` (store.c:1152-1213). -/
def rStoreDestroy (A : Alloc) : RM Bool := do
  match ← rPathResolve A with
  | none => pure false
  | some p => do
    if ← ask then do
      release .raw p
      pure false
    else match ← rOpenLock A with
      | none => do
        release .raw p
        pure false
      | some fd => do
        match ← rScandir A with
        | none => do
          rCloseLock fd
          release .raw p
          pure false
        | some (list, items) => do
          rFreeAll items
          release .raw list
          rCloseLock fd
          let ok ← ask
          release .raw p
          pure ok

/-! ### The database -/

/-- `urkel_t` (tree.c:22-27). -/
structure RDb where
  blk : Nat
  lock : Nat
  store : RStore

/-- `urkel_open` (tree.c:581-602). -/
def rDbOpen (A : Alloc) : RM (Option RDb) := do
  let blk ← acquire A .raw
  match ← rStoreOpen A with
  | none => pure none
  | some s => do
    let lock ← acquire A .raw
    pure (some ⟨blk, lock, s⟩)

/-- `urkel_close` (tree.c:604-612). -/
def rDbClose (d : RDb) : RM Unit := do
  use .raw d.lock
  rStoreClose d.store
  release .raw d.lock
  release .raw d.blk

/-- What the functions of tree.c do with the store: read from a file (nodes and values),
append to the buffer, flush it, commit, look up an old root. -/
inductive RAct where
  | read (i : Nat)
  | buffer
  | flush (n : Nat)
  | commit
  | history (n : Nat)

def rAct (A : Alloc) (s : RStore) : RAct → RM RStore
  | .read i => do
    let (s, _) ← rRead A s i
    pure s
  | .buffer => rSlab A s
  | .flush n => do
    let (s, _) ← rFlush A n s
    pure s
  | .commit => do
    let (s, _) ← rCommit A s
    pure s
  | .history n => do
    let (s, _) ← rHistoryLoop A n s
    pure s

def rActs (A : Alloc) : RStore → List RAct → RM RStore
  | s, [] => pure s
  | s, a :: as => do
    let s ← rAct A s a
    rActs A s as

end Urkel
