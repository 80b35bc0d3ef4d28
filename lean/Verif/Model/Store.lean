import Verif.Model.Node
/-
store.c: write buffer (slab), data files, commit records (metas), root cache,
history lookup, recovery.
-/
namespace Urkel

/-- Build-time limits (store.c:22-30). Theorems are generic in them unless they
mention `realCfg`. -/
structure Cfg where
  maxFile : Nat    -- MAX_FILE_SIZE
  maxFiles : Nat   -- MAX_FILES
  writeBuf : Nat   -- WRITE_BUFFER
  fsync : Bool     -- URKEL_FSYNC is defined (store.c:787)

/-- The values in store.c:23-28; the build files do not define URKEL_FSYNC. -/
def realCfg : Cfg := ⟨0x7ffff000, 0x7fff, 67108864, false⟩

/-- The functions and limits the code depends on: the hash (blake2b, 32 bytes),
the keyed checksum (`urkel_checksum`, util.c:170-180, 20 bytes) and the limits. -/
structure Env where
  H : HashFn
  mac : B32 → Bytes → Bytes
  cfg : Cfg

/-- META_SIZE = 4 + 2*7 + 20 (store.c:26). -/
def metaSize : Nat := 38
/-- META_MAGIC (store.c:27). -/
def metaMagic : Nat := 0x6d726b6c

/-- `urkel_meta_t` (store.c:41-45). -/
structure Meta where
  metaPtr : Ptr
  rootPtr : Ptr
  rootNode : Node
deriving DecidableEq

/-- `urkel_meta_init` (store.c:104-109). -/
def Meta.init : Meta := ⟨Ptr.zero, Ptr.zero, .null⟩

/-- `urkel_meta_write` (store.c:111-123). -/
def metaWrite (E : Env) (key : B32) (m : Meta) : Bytes :=
  let body := leBytes 4 metaMagic ++ ptrWrite m.metaPtr ++ ptrWrite m.rootPtr
  body ++ E.mac key body

/-- `urkel_meta_read` (store.c:125-147). The output `meta` is overwritten as
soon as the magic matches, even if the checksum then fails. -/
def metaRead (E : Env) (key : B32) (m : Meta) (d : Bytes) : Res (Bool × Meta) := do
  let start := d
  let (mg, d) ← takeN 4 d
  if leNat mg != metaMagic then pure (false, m)
  else do
    let (mp, d) ← ptrRead d
    let (rp, d) ← ptrRead d
    let (sum, _) ← takeN 20 d
    pure (sum == E.mac key (start.take 18), { m with metaPtr := mp, rootPtr := rp })

/-- `urkel_slab_t` (store.c:47-58). `data` is the written part
(`data_len = data.length`), `offsets` the recorded ones (`steps = offsets.length`),
`offsetsLen` the allocated length minus one (0 = not allocated). Growth of the data
buffer (store.c:195-202) is modelled in `Props/WriteBuf.lean`. -/
structure Slab where
  data : Bytes
  dataOff : Nat
  offsets : List Nat
  offsetsLen : Nat
  start : Nat
  filePos : Nat
  fileIndex : Nat
deriving DecidableEq

/-- `urkel_slab_init` (store.c:153-156). -/
def Slab.init : Slab := ⟨[], 0, [], 0, 0, 0, 0⟩

/-- `urkel_slab_write` (store.c:169-210). Writing an offset beyond the
allocation would be undefined behaviour. -/
def slabWrite (E : Env) (s : Slab) (d : Bytes) : Res Slab := do
  check (d.length ≤ E.cfg.maxFile)
  let s := if s.offsetsLen == 0 then { s with offsetsLen := 1 } else s
  let s ←
    if s.filePos + d.length > E.cfg.maxFile then
      let ol := if s.offsets.length == s.offsetsLen then s.offsetsLen + 1 else s.offsetsLen
      if s.offsets.length ≤ ol then
        pure { s with offsets := s.offsets ++ [s.dataOff], offsetsLen := ol, dataOff := 0,
                      filePos := 0, fileIndex := s.fileIndex + 1 }
      else .ub
    else pure s
  pure { s with data := s.data ++ d, dataOff := s.dataOff + d.length,
                filePos := s.filePos + d.length }

/-- A failure injected into one `urkel_store_write` call, or into the final
`urkel_store_sync` of a commit: the next file cannot
be opened (store.c:538), `fdatasync` fails (541, 788), `write` fails after `k` bytes
reached the file (io_posix.c:1168), or the final `mmap` fails after the write
(io_posix.c:1177). -/
inductive Fault where
  | openFail | syncFail | writeFail (k : Nat) | mapFail
deriving DecidableEq

/-- System calls that change the data files while the database is open: creating file
`j` (store.c:536), appending to it, `fdatasync` of it (store.c:522-526). -/
inductive IoEv where
  | create (j : Nat)
  | append (j : Nat) (d : Bytes)
  | sync (j : Nat)
deriving DecidableEq

/-- `urkel_store_t` (store.c:79-92) together with the data files.
`files[i-1]` is the file with index `i`; `curSize` is `current->size`, the
logical size of the file being appended to. The cache maps root hashes to the
HASH node's pointer. File handles and mmap are modelled in `Model/FileMap.lean`;
here reading a file reads its bytes. `faults` is the environment: what the
operating system will do to the next writes (`none` or end of list = succeed). `io` records the system calls made since the
database was opened, newest first; the code never looks at it. -/
structure Store where
  key : B32
  files : List Bytes
  index : Nat
  curSize : Nat
  slab : Slab
  cache : List (B32 × Ptr)
  state : Meta
  lastMeta : Meta
  faults : List (Option Fault)
  io : List IoEv
deriving DecidableEq

/-- `urkel_store_read` + `urkel_store_open_file` + `urkel_file_pread`
(store.c:461-520, io_posix.c:1132-1152). -/
def storeRead (s : Store) (size index pos : Nat) : Option Bytes :=
  if index = 0 ∨ index > s.index + 1 then none
  else match s.files[index - 1]? with
    | none => none
    | some f =>
      let fsize := if index = s.index then s.curSize else f.length
      if size = 0 then some []
      else if pos + size > fsize then none
      else some ((f.drop pos).take size)

/-- Append bytes to the last file that `index` designates (O_APPEND). -/
def appendFile (files : List Bytes) (index : Nat) (d : Bytes) : List Bytes :=
  files.modify (index - 1) (· ++ d)

/-- `urkel_store_write` (store.c:528-551) with `urkel_file_write`
(io_posix.c:1154-1185). Opening file number MAX_FILES or above fails the `CHECK`
in `urkel_filemap_insert` (store.c:268). -/
def storeWrite (E : Env) (s : Store) (d : Bytes) : Res (Store × Bool) :=
  let fault := s.faults.head?.join
  let s := { s with faults := s.faults.tail }
  let wr (s : Store) : Res (Store × Bool) :=
    if d.length = 0 then .ok (s, true)
    else match fault with
      | some (.writeFail k) => .ok ({ s with files := appendFile s.files s.index (d.take k), io := .append s.index (d.take k) :: s.io }, false)
      | some .mapFail =>
        .ok ({ s with files := appendFile s.files s.index d, curSize := s.curSize + d.length, io := .append s.index d :: s.io }, false)
      | _ =>
        .ok ({ s with files := appendFile s.files s.index d, curSize := s.curSize + d.length, io := .append s.index d :: s.io }, true)
  if s.curSize + d.length > E.cfg.maxFile then
    if fault = some .openFail then .ok (s, false)
    else if s.index + 1 ≥ E.cfg.maxFiles then .abort
    else
      let s := if s.files.length ≤ s.index then { s with files := s.files ++ [[]], io := .create (s.index + 1) :: s.io } else s
      if fault = some .syncFail then .ok (s, false)
      else wr { s with index := s.index + 1, curSize := (s.files.getD s.index []).length, io := .sync s.index :: s.io }
  else wr s

/-- The write loop of `urkel_store_flush` (store.c:727-737): chunks still to
write, their data, and the number of chunks done. Returns the chunk index at
which it failed, if it did. -/
def flushLoop (E : Env) : List Nat → Bytes → Nat → Store → Res (Store × Option Nat)
  | [], _, _, s => .ok (s, none)
  | len :: rest, data, i, s => do
    let (s, ok) ← storeWrite E s (data.take len)
    if ok then flushLoop E rest (data.drop len) (i + 1) s
    else pure (s, some i)

/-- `urkel_store_flush` (store.c:715-745). -/
def storeFlush (E : Env) (s : Store) : Res (Store × Bool) := do
  let slab := s.slab
  -- slab->offsets[slab->steps++]: allocated capacity is offsets_len + 1
  if slab.offsetsLen = 0 ∨ slab.offsets.length > slab.offsetsLen then .ub
  else
    let offs := slab.offsets ++ [slab.dataOff]
    let skip := (offs.take slab.start).sum
    let (s, r) ← flushLoop E (offs.drop slab.start) (slab.data.drop skip) slab.start s
    match r with
    | some i => pure ({ s with slab := { s.slab with start := i } }, false)
    | none =>
      pure ({ s with slab := { s.slab with data := [], dataOff := 0, offsets := [], start := 0 } }, true)

/-- `urkel_store_needs_flush` (store.c:709-713). -/
def needsFlush (E : Env) (s : Store) : Bool := s.slab.data.length ≥ E.cfg.writeBuf

/-- `urkel_store_write_node` (store.c:673-690): the node becomes WRITTEN. -/
def storeWriteNode (E : Env) (s : Store) (n : Node) : Res (Store × Node) := do
  let raw ← nodeWrite n
  match n with
  | .internal h none pre l r => do
    let slab ← slabWrite E s.slab raw
    let p := markPtr slab.fileIndex (slab.filePos - raw.length) raw.length
    pure ({ s with slab := slab }, .internal h (some p) pre l r)
  | .leaf h none k v vp => do
    let slab ← slabWrite E s.slab raw
    let p := markPtr slab.fileIndex (slab.filePos - raw.length) raw.length
    pure ({ s with slab := slab }, .leaf h (some p) k v vp)
  | _ => .abort

/-- `urkel_store_write_value` (store.c:692-707): the leaf becomes SAVED. -/
def storeWriteValue (E : Env) (s : Store) (n : Node) : Res (Store × Node) :=
  match n with
  | .leaf h p k (some v) none => do
    let slab ← slabWrite E s.slab v
    let vp := savePtr slab.fileIndex (slab.filePos - v.length) v.length
    pure ({ s with slab := slab }, .leaf h p k (some v) (some vp))
  | _ => .abort

/-- `urkel_store_read` into a buffer of `cap` bytes: reading more is undefined. -/
def storeReadInto (cap : Nat) (s : Store) (size index pos : Nat) : Res (Option Bytes) :=
  if size > cap then .ub else .ok (storeRead s size index pos)

theorem storeReadInto_ok {cap : Nat} {s : Store} {size index pos : Nat} (h : ¬ size > cap) :
    storeReadInto cap s size index pos = .ok (storeRead s size index pos) := if_neg h

/-- `urkel_store_read_node` (store.c:553-572); `none` is return value 0. The buffer has
URKEL_NODE_SIZE bytes. -/
def storeReadNode (s : Store) (p : Ptr) : Res (Option Node) :=
  if p.size = 0 ∨ p.size > 113 then .ok none
  else do
    let x ← storeReadInto 113 s p.size p.index p.pos
    match x with
    | none => .ok none
    | some d => do
      let r ← nodeRead d
      match r with
      | some (.internal h _ pre l r) => pure (some (.internal h (some p) pre l r))
      | some (.leaf h _ k v vp) => pure (some (.leaf h (some p) k v vp))
      | _ => pure none

/-- `urkel_store_retrieve` (store.c:623-655) on a leaf. The caller's buffer has
URKEL_VALUE_SIZE bytes. -/
def storeRetrieve (s : Store) (val : Option Bytes) (vptr : Option Ptr) : Res (Option Bytes) :=
  match val, vptr with
  | some v, _ => do
    check (v.length ≤ valueSize)
    pure (some v)
  | none, none => .abort
  | none, some p =>
    if p.size > valueSize then .ok none
    else storeReadInto valueSize s p.size p.index p.pos

/-- `urkel_store_resolve` (store.c:657-671). -/
def storeResolve (s : Store) (h : B32) (p : Ptr) : Res (Option Node) := do
  let r ← storeReadNode s p
  match r with
  | some (.internal _ p pre l r) => pure (some (.internal (some h) p pre l r))
  | some (.leaf _ p k v vp) => pure (some (.leaf (some h) p k v vp))
  | _ => pure none

/-- `urkel_cache_lookup` / `urkel_cache_insert` (store.c:335-379), the hash
table as an association list; an existing entry is kept. That the table behaves like this
list is C66_cache (Model/Khash.lean). -/
def cacheLookup (c : List (B32 × Ptr)) (h : B32) : Option Ptr := c.lookup h
def cacheInsert (c : List (B32 × Ptr)) (h : B32) (p : Ptr) : List (B32 × Ptr) :=
  match c.lookup h with
  | some _ => c
  | none => (h, p) :: c

/-- `urkel_store_read_root` (store.c:574-607). -/
def storeReadRoot (E : Env) (s : Store) (p : Ptr) : Res (Store × Option Node) :=
  if p.index = 0 then .ok (s, some .null)
  else do
    let r ← storeReadNode s p
    match r with
    | none => pure (s, none)
    | some n => do
      let n ← match n with
        | .leaf h wp k v vp => do
          let x ← storeRetrieve s v vp
          match x with
          | none => pure none
          | some x => do
            check v.isNone
            pure (some (.leaf h wp k (some x) vp))
        | n => pure (some n)
      match n with
      | none => pure (s, none)
      | some n => do
        let (_, n) ← nodeHash E.H n
        let o ← toHash n
        match o with
        | .hash h p => pure ({ s with cache := cacheInsert s.cache h p }, some o)
        | _ => .abort

/-- `root->ptr`, demanding WRITTEN (store.c:752-754). -/
def rootPtrOf : Node → Res Ptr
  | .null => .ok Ptr.zero
  | .hash _ p => .ok p
  | .internal _ p _ _ _ => match p with | some p => .ok p | none => .abort
  | .leaf _ p _ _ _ => match p with | some p => .ok p | none => .abort

/-- Zero bytes up to the next multiple of META_SIZE (store.c:759-764). -/
def padSlab (E : Env) (slab : Slab) : Res Slab :=
  if slab.filePos % metaSize ≠ 0 then
    slabWrite E slab (List.replicate (metaSize - slab.filePos % metaSize) 0)
  else .ok slab

/-- `urkel_store_write_meta` (store.c:747-775). The padding is written first and
may itself start a new file. -/
def storeWriteMeta (E : Env) (s : Store) (root : Node) : Res (Store × Meta) := do
  let rptr ← rootPtrOf root
  let rn ← toHash root
  let st : Meta := { s.state with rootPtr := rptr, rootNode := rn }
  let slab ← padSlab E s.slab
  let slab ← slabWrite E slab (metaWrite E s.key st)
  pure ({ s with slab := slab },
    { st with metaPtr := { st.metaPtr with index := slab.fileIndex, pos := slab.filePos - metaSize } })

/-- Cache the committed root unless it is the empty tree (store.c:792-797). -/
def cacheRoot (c : List (B32 × Ptr)) : Node → List (B32 × Ptr)
  | .hash h p => cacheInsert c h p
  | _ => c

/-- `urkel_store_sync` (store.c:522-526) at the end of a commit, if URKEL_FSYNC is
defined (store.c:787-790). -/
def commitSync (E : Env) (s : Store) : Store × Bool :=
  if E.cfg.fsync then
    if s.faults.head?.join = some .syncFail then ({ s with faults := s.faults.tail }, false)
    else ({ s with faults := s.faults.tail, io := .sync s.index :: s.io }, true)
  else (s, true)

/-- `urkel_store_flush` and then the sync (store.c:784-790). -/
def flushSync (E : Env) (s : Store) : Res (Store × Bool) := do
  let (s, ok) ← storeFlush E s
  pure (if ok then commitSync E s else (s, false))

/-- `urkel_store_commit` (store.c:777-800).
Eviction of file handles is in `Model/FileMap.lean`. -/
def storeCommit (E : Env) (s : Store) (root : Node) : Res (Store × Bool) := do
  let (s, st) ← storeWriteMeta E s root
  let (s, ok) ← flushSync E s
  if ok then
    pure ({ s with state := st, cache := cacheRoot s.cache st.rootNode }, true)
  else pure (s, false)

/-- `urkel_store_read_meta` (store.c:802-812) for the local `meta` of
`urkel_store_read_history`; `none` is return value 0. -/
def storeReadMeta (E : Env) (s : Store) (p : Ptr) : Res (Option Meta) :=
  match storeRead s metaSize p.index p.pos with
  | none => .ok none
  | some d => do
    let (ok, m) ← metaRead E s.key Meta.init d
    pure (if ok then some m else none)

/-- `node->hash` of a root node as the store keeps it (a NULL or HASH node;
nodes.c:66-77, 216-231). -/
def rootNodeHash : Node → B32
  | .hash h _ => h
  | _ => B32.zero

/-- The loop of `urkel_store_read_history` (store.c:839-859). `fuel` bounds the
number of commit records visited; running out of it stands for a loop that does
not end (`ub`), which is proved not to happen on reachable databases. -/
def historyLoop (E : Env) (h : B32) : Nat → Store → Res (Store × Option Node)
  | 0, _ => .ub
  | fuel + 1, s =>
    if s.lastMeta.metaPtr.index = 0 then .ok (s, none)
    else do
      let r ← storeReadMeta E s s.lastMeta.metaPtr
      match r with
      | none => pure (s, none)
      | some m => do
        let (s, rn) ← storeReadRoot E s m.rootPtr
        match rn with
        | none => pure (s, none)
        | some n =>
          let s := { s with lastMeta := m }
          if rootNodeHash n = h then pure (s, some n) else historyLoop E h fuel s

/-- Number of bytes in all files; bounds the number of commit records. -/
def totalBytes (files : List Bytes) : Nat := (files.map List.length).sum

/-- `urkel_store_read_history` (store.c:814-862). -/
def readHistory (E : Env) (s : Store) (h : B32) : Res (Store × Option Node) :=
  if h = B32.zero then .ok (s, some .null)
  else
    if h = rootNodeHash s.state.rootNode then .ok (s, some s.state.rootNode)
    else match cacheLookup s.cache h with
      | some p => .ok (s, some (.hash h p))
      | none => historyLoop E h (totalBytes s.files + 2) s

/-- `urkel_store_has_history` (store.c:864-874): when the lookup fails it clears
an uninitialised node, which is undefined behaviour. -/
def hasHistory (E : Env) (s : Store) (h : B32) : Res (Store × Bool) := do
  let (s, r) ← readHistory E s h
  match r with
  | some _ => pure (s, true)
  | none => .ub

/-- Root hash kept by the store: `urkel_store_root_hash` (store.c:618-621). -/
def rootHash (s : Store) : B32 := rootNodeHash s.state.rootNode

/-! ### Opening and recovery -/

/-- A database directory: the key file `meta` (absent before creation) and the
data files. -/
structure Dir where
  keyFile : Option Bytes
  files : List Bytes
deriving DecidableEq

/-- `urkel_store_find_meta` (store.c:979-1026): scan the 38-byte records of a
file from the end. `n` records are left to try. The C code reads the file in
blocks of SLAB_SIZE, a multiple of 38; `Model/Scan.lean` models the blocks, and
`C53_scan` (Props/Scan.lean) proves the two scans equal. The result is the offset of the record found. -/
def findMeta (E : Env) (key : B32) (f : Bytes) : Nat → Meta → Res (Option Nat × Meta)
  | 0, m => .ok (none, m)
  | n + 1, m => do
    let (ok, m) ← metaRead E key m ((f.drop (metaSize * n)).take metaSize)
    if ok then pure (some (metaSize * n), m) else findMeta E key f n m

/-- `urkel_store_recover_state` (store.c:1028-1064): from the last file
backwards, unlink files without a valid record, truncate the file after its last
valid record. Argument: `*index`. Result: state, last_meta, files, index. -/
def recoverState (E : Env) (key : B32) (files : List Bytes) :
    Nat → Meta → Res (Meta × Meta × List Bytes × Nat)
  | 0, m => .ok (Meta.init, m, [], 1)
  | n + 1, m => do
    let f := files.getD n []
    let (r, m) ← findMeta E key f (f.length / metaSize) m
    match r with
    | some off =>
      pure ({ m with metaPtr := { m.metaPtr with index := n + 1, pos := off } }, m,
        files.take n ++ [f.take (off + metaSize)], n + 1)
    | none => recoverState E key files n m

/-- `urkel_store_init_meta` (store.c:919-931) with `urkel_fs_read_file`
(io.c:17-32): the key of the directory, the fresh key `rand` if it has none; a
key file shorter than 32 bytes is an error. -/
def Dir.key (d : Dir) (rand : B32) : Option B32 :=
  match d.keyFile with
  | none => some rand
  | some b => if h : 32 ≤ b.length then some ⟨b.take 32, by simp; omega⟩ else none

/-- `urkel_store_init` (store.c:1069-1116) after the lock is held; `rand` is the
fresh key used when the directory has none (store.c:919-931). Returns the
directory afterwards and the store, or `none` (EBADOPEN). Failing system calls
are not modelled here. -/
def openStore (E : Env) (d : Dir) (rand : B32) : Res (Dir × Option Store) :=
  match d.key rand with
  | none => .ok (d, none)
  | some key => do
    let keyFile := match d.keyFile with | none => some rand.bytes | some b => some b
    let (st, lm, files, index) ← recoverState E key d.files d.files.length Meta.init
    let files := if files.length < index then files ++ [[]] else files
    let cur := files.getD (index - 1) []
    let s : Store :=
      { key := key, files := files, index := index, curSize := cur.length,
        slab := { Slab.init with filePos := cur.length, fileIndex := index },
        cache := [], state := st, lastMeta := lm, faults := [], io := [] }
    let (s, r) ← storeReadRoot E s st.rootPtr
    match r with
    | none => pure (⟨keyFile, s.files⟩, none)
    | some n => pure (⟨keyFile, s.files⟩, some { s with state := { s.state with rootNode := n } })

end Urkel
