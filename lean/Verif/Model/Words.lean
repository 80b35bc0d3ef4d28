import Verif.Model.Tree
/-
The commit path once more, in machine integers: every size, offset, position and index has the width that its C type has, and
arithmetic wraps around as it does in C. `w` is the number of bits of `size_t`. Memory is given whenever it is asked for.
-/
namespace Urkel

/-- `urkel_slab_t` (store.c:47-58). `data` is what has been put into the block of `data_size` bytes, from its beginning; `offsets`
has `steps` elements in a block with room for `offRoom`. -/
structure MSlab (w : Nat) where
  data : Bytes
  dataSize : BitVec w
  dataLen : BitVec w
  dataOff : BitVec w
  offsets : List (BitVec w)
  offRoom : Nat
  offsetsLen : BitVec w
  start : BitVec w
  filePos : BitVec 64
  fileIndex : BitVec 32

/-- `urkel_slab_init` (store.c:153-156). -/
def MSlab.init (w : Nat) : MSlab w := ⟨[], 0, 0, 0, [], 0, 0, 0, 0, 0⟩

/-- `urkel_slab_write` (store.c:195-202): the new `data_size`. -/
def mGrow {w : Nat} (size needs : BitVec w) : BitVec w :=
  if size < needs then
    let size := size * 3#w / 2#w
    if size < needs then needs * 3#w / 2#w else size
  else size

/-- `urkel_slab_write` (store.c:175-178): the block for the offsets. -/
def mFirst {w : Nat} (s : MSlab w) : MSlab w := if s.offsetsLen == 0#w then { s with offRoom := 2, offsetsLen := 1#w } else s

/-- `urkel_slab_write` (store.c:181-186): room for one more offset. -/
def mRoom {w : Nat} (s : MSlab w) : MSlab w :=
  if BitVec.ofNat w s.offsets.length == s.offsetsLen then
    { s with offRoom := ((s.offsetsLen + 2#w) * BitVec.ofNat w (w / 8)).toNat / (w / 8), offsetsLen := s.offsetsLen + 1#w } else s

/-- `urkel_slab_write` (store.c:180-193): a new file if `len` bytes do not fit. Writing beyond a block is undefined behaviour. -/
def mRoll {w : Nat} (E : Env) (s : MSlab w) (len : BitVec w) : Res (MSlab w) :=
  if (s.filePos + len.setWidth 64).toNat > E.cfg.maxFile then
    let s := mRoom s
    if s.offsets.length < s.offRoom then
      .ok { s with offsets := s.offsets ++ [s.dataOff], dataOff := 0#w, filePos := 0#64, fileIndex := s.fileIndex + 1#32 }
    else .ub
  else .ok s

/-- `urkel_slab_write` (store.c:169-210). Writing beyond a block is undefined behaviour. -/
def mSlabWrite {w : Nat} (E : Env) (s : MSlab w) (d : Bytes) : Res (MSlab w) := do
  let len := BitVec.ofNat w d.length
  let needs := s.dataLen + len
  check (len.toNat ≤ E.cfg.maxFile)
  let s ← mRoll E (mFirst s) len
  let s := { s with dataSize := mGrow s.dataSize needs }
  if s.dataLen.toNat + d.length > s.dataSize.toNat then .ub
  else pure { s with data := s.data.take s.dataLen.toNat ++ d, dataLen := s.dataLen + len, dataOff := s.dataOff + len, filePos := s.filePos + len.setWidth 64 }

/-- `data_store_t` (store.c:79-92) and the data files; `curSize` is `current->size` (io.h:130-137). -/
structure MStore (w : Nat) where
  key : B32
  files : List Bytes
  index : BitVec 32
  curSize : BitVec 64
  slab : MSlab w
  cache : List (B32 × Ptr)
  state : Meta
  lastMeta : Meta
  faults : List (Option Fault)
  io : List IoEv

/-- `urkel_store_write` (store.c:528-551) with `urkel_file_write` (io_posix.c:1154-1185). -/
def mStoreWrite {w : Nat} (E : Env) (s : MStore w) (d : Bytes) : Res (MStore w × Bool) :=
  let fault := s.faults.head?.join
  let s := { s with faults := s.faults.tail }
  let size : BitVec w := BitVec.ofNat w d.length
  let wr (s : MStore w) : Res (MStore w × Bool) :=
    if size == 0#w then .ok (s, true)
    else match fault with
      | some (.writeFail k) => .ok ({ s with files := appendFile s.files s.index.toNat (d.take k), io := .append s.index.toNat (d.take k) :: s.io }, false)
      | some .mapFail =>
        .ok ({ s with files := appendFile s.files s.index.toNat d, curSize := s.curSize + size.setWidth 64, io := .append s.index.toNat d :: s.io }, false)
      | _ =>
        .ok ({ s with files := appendFile s.files s.index.toNat d, curSize := s.curSize + size.setWidth 64, io := .append s.index.toNat d :: s.io }, true)
  if (s.curSize + size.setWidth 64).toNat > E.cfg.maxFile then
    if fault = some .openFail then .ok (s, false)
    else if (s.index + 1#32).toNat ≥ E.cfg.maxFiles then .abort
    else
      let s := if s.files.length ≤ s.index.toNat then { s with files := s.files ++ [[]], io := .create (s.index + 1#32).toNat :: s.io } else s
      if fault = some .syncFail then .ok (s, false)
      else wr { s with index := s.index + 1#32, curSize := BitVec.ofNat 64 (s.files.getD s.index.toNat []).length, io := .sync s.index.toNat :: s.io }
  else wr s

/-- The write loop of `urkel_store_flush` (store.c:727-737). -/
def mFlushLoop {w : Nat} (E : Env) : List (BitVec w) → Bytes → BitVec w → MStore w → Res (MStore w × Option (BitVec w))
  | [], _, _, s => .ok (s, none)
  | len :: rest, data, i, s => do
    if len.toNat > data.length then .ub
    else
      let (s, ok) ← mStoreWrite E s (data.take len.toNat)
      if ok then mFlushLoop E rest (data.drop len.toNat) (i + 1#w) s
      else pure (s, some i)

/-- `urkel_store_flush` (store.c:715-745). -/
def mStoreFlush {w : Nat} (E : Env) (s : MStore w) : Res (MStore w × Bool) := do
  let slab := s.slab
  if slab.offsets.length ≥ slab.offRoom then .ub
  else
    let offs := slab.offsets ++ [slab.dataOff]
    let skip := ((offs.take slab.start.toNat).map BitVec.toNat).sum
    let (s, r) ← mFlushLoop E (offs.drop slab.start.toNat) (slab.data.drop skip) slab.start s
    match r with
    | some i => pure ({ s with slab := { s.slab with start := i } }, false)
    | none =>
      pure ({ s with slab := { s.slab with data := [], dataLen := 0#w, dataOff := 0#w, offsets := [], start := 0#w } }, true)

/-- `urkel_store_needs_flush` (store.c:709-713). -/
def mNeedsFlush {w : Nat} (E : Env) (s : MStore w) : Bool := s.slab.dataLen.toNat ≥ E.cfg.writeBuf

/-- `urkel_store_write_node` (store.c:673-690); the position goes through `urkel_node_mark(…, uint16_t, uint32_t, uint8_t)`. -/
def mWriteNode {w : Nat} (E : Env) (s : MStore w) (n : Node) : Res (MStore w × Node) := do
  let raw ← nodeWrite n
  let size := BitVec.ofNat w raw.length
  match n with
  | .internal h none pre l r => do
    let slab ← mSlabWrite E s.slab raw
    let p := markPtr slab.fileIndex.toNat (slab.filePos - size.setWidth 64).toNat size.toNat
    pure ({ s with slab := slab }, .internal h (some p) pre l r)
  | .leaf h none k v vp => do
    let slab ← mSlabWrite E s.slab raw
    let p := markPtr slab.fileIndex.toNat (slab.filePos - size.setWidth 64).toNat size.toNat
    pure ({ s with slab := slab }, .leaf h (some p) k v vp)
  | _ => .abort

/-- `urkel_store_write_value` (store.c:692-707). -/
def mWriteValue {w : Nat} (E : Env) (s : MStore w) (n : Node) : Res (MStore w × Node) :=
  match n with
  | .leaf h p k (some v) none => do
    let size := BitVec.ofNat w v.length
    let slab ← mSlabWrite E s.slab v
    let vp := savePtr slab.fileIndex.toNat (slab.filePos - size.setWidth 64).toNat size.toNat
    pure ({ s with slab := slab }, .leaf h p k (some v) (some vp))
  | _ => .abort

/-- Zero bytes up to the next multiple of META_SIZE (store.c:759-764). `META_SIZE - …` is a `size_t`. -/
def mPadSlab {w : Nat} (E : Env) (slab : MSlab w) : Res (MSlab w) :=
  if (slab.filePos % 38#64).toNat ≠ 0 then
    mSlabWrite E slab (List.replicate ((38#64 - slab.filePos % 38#64).setWidth w).toNat 0)
  else .ok slab

/-- `urkel_store_write_meta` (store.c:747-775). -/
def mWriteMeta {w : Nat} (E : Env) (s : MStore w) (root : Node) : Res (MStore w × Meta) := do
  let rptr ← rootPtrOf root
  let rn ← toHash root
  let st : Meta := { s.state with rootPtr := rptr, rootNode := rn }
  let slab ← mPadSlab E s.slab
  let slab ← mSlabWrite E slab (metaWrite E s.key st)
  pure ({ s with slab := slab },
    { st with metaPtr := { st.metaPtr with index := slab.fileIndex.toNat, pos := (slab.filePos - 38#64).toNat } })

/-- `urkel_store_sync` (store.c:522-526, 787-790). -/
def mCommitSync {w : Nat} (E : Env) (s : MStore w) : MStore w × Bool :=
  if E.cfg.fsync then
    if s.faults.head?.join = some .syncFail then ({ s with faults := s.faults.tail }, false)
    else ({ s with faults := s.faults.tail, io := .sync s.index.toNat :: s.io }, true)
  else (s, true)

/-- `urkel_store_commit` (store.c:777-800). -/
def mStoreCommit {w : Nat} (E : Env) (s : MStore w) (root : Node) : Res (MStore w × Bool) := do
  let (s, st) ← mWriteMeta E s root
  let (s, ok) ← mStoreFlush E s
  let (s, ok) := if ok then mCommitSync E s else (s, false)
  if ok then pure ({ s with state := st, cache := cacheRoot s.cache st.rootNode }, true)
  else pure (s, false)

/-- The end of both writing cases of `urkel_tree_write` (tree.c:507-519, 529-541). -/
def mFlushAndHash {w : Nat} (E : Env) (s : MStore w) (n : Node) (wrote : Bool) : Res (MStore w × Option Node) := do
  let (s, ok) ← if wrote && mNeedsFlush E s then mStoreFlush E s else pure (s, true)
  if !ok then pure (s, none)
  else do
    let (_, n) ← nodeHash E.H n
    let o ← toHash n
    pure (s, some o)

/-- `urkel_tree_write` (tree.c:479-554). -/
def mTreeWrite {w : Nat} (E : Env) : Node → MStore w → Res (MStore w × Option Node)
  | .null, s => .ok (s, some .null)
  | .hash h p, s => .ok (s, some (.hash h p))
  | .internal h p pre l r, s => do
    let (s, l') ← mTreeWrite E l s
    match l' with
    | none => pure (s, none)
    | some l' => do
      let (s, r') ← mTreeWrite E r s
      match r' with
      | none => pure (s, none)
      | some r' =>
        match p with
        | some p => mFlushAndHash E s (.internal h (some p) pre l' r') false
        | none => do
          let (s, n) ← mWriteNode E s (.internal h none pre l' r')
          mFlushAndHash E s n true
  | .leaf h p k v vp, s =>
    match p with
    | some p => mFlushAndHash E s (.leaf h (some p) k v vp) false
    | none => do
      let (s, n) ← mWriteValue E s (.leaf h none k v vp)
      let (s, n) ← mWriteNode E s n
      mFlushAndHash E s n true

/-- `urkel_t` (tree.c:22-27) without its lock. -/
structure MDb (w : Nat) where
  store : MStore w
  hash : B32
  revert : Bool

/-- `urkel_tx_commit` with `urkel_tree_commit` (tree.c:556-575, 1068-1084). -/
def mTxCommit {w : Nat} (E : Env) (db : MDb w) (t : Tx) : Res (MDb w × Tx × Except Err Unit) := do
  let n ← t.node
  let (s, r) ← mTreeWrite E n db.store
  match r with
  | none => pure ({ db with store := s }, ⟨none⟩, .error .EBADWRITE)
  | some root => do
    let (s, ok) ← mStoreCommit E s root
    if !ok then pure ({ db with store := s }, ⟨none⟩, .error .EBADWRITE)
    else
      pure ({ db with store := s, hash := rootNodeHash root }, ⟨some root⟩, .ok ())

/-- `urkel_store_read` + `urkel_store_open_file` + `urkel_file_pread` (store.c:461-520, io_posix.c:1132-1152): `pos` and the size of the
file are `uint64_t`, `size` is a `size_t`, `index` and `store->index` are `uint32_t`. -/
def mStoreRead {w : Nat} (s : MStore w) (size : BitVec w) (index : BitVec 32) (pos : BitVec 64) : Option Bytes :=
  if index == 0#32 ∨ index > s.index + 1#32 then none
  else match s.files[index.toNat - 1]? with
    | none => none
    | some f =>
      let fsize := if index = s.index then s.curSize else BitVec.ofNat 64 f.length
      if size == 0#w then some []
      else if pos + size.setWidth 64 < pos then none
      else if pos + size.setWidth 64 > fsize then none
      else some ((f.drop pos.toNat).take size.toNat)

end Urkel
