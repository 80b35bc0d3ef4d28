import Verif.Model.Store
/-
store.c:919-1116: opening a database when system calls can fail, with the scan for
commit records block by block as the code does it.
-/
namespace Urkel

/-- SLAB_SIZE (store.c:30-31): the largest multiple of META_SIZE in READ_BUFFER. -/
def slabSize : Nat := 1048576 - 1048576 % metaSize

/-- A failure while one data file is scanned: `open`, `fstat`, or the `pread` of a
block (blocks are counted from the end of the file). -/
inductive ScanFault where
  | openFail | statFail | readFail (k : Nat)
deriving DecidableEq

/-- What fails at one data file. -/
structure FileFault where
  scan : Option ScanFault
  trunc : Bool
  unlink : Bool
deriving DecidableEq

/-- What fails while opening: `lstat` of the key file (`urkel_fs_exists`,
io_posix.c:542-546, takes any error for "does not exist"), and at each data file
(number counted from 0), and opening the current file. -/
structure OpenFaults where
  exists' : Bool
  file : Nat → FileFault
  current : Bool

/-- Nothing fails. -/
def OpenFaults.none : OpenFaults := ⟨false, fun _ => ⟨.none, false, false⟩, false⟩

/-- The inner loop of `urkel_store_find_meta` (store.c:1011-1020) on a block: `size`
bytes of `slab` are left, `off` is their end in the file. Result: the record's offset
if found, `*off`, the meta. -/
def scanSlab (E : Env) (key : B32) (slab : Bytes) (size off : Nat) (m : Meta) : Res (Option Nat × Nat × Meta) :=
  if _h : size ≥ metaSize then do
    let size := size - metaSize
    let off := off - metaSize
    let (ok, m) ← metaRead E key m ((slab.drop size).take metaSize)
    if ok then pure (some off, off, m) else scanSlab E key slab size off m
  else pure (none, off, m)
termination_by size
decreasing_by
  have : metaSize = 38 := rfl
  omega

/-- The outer loop of `urkel_store_find_meta` (store.c:999-1021); `fault` is the number
of the block whose `pread` fails. A pass that makes no progress would loop for ever
(`ub`). -/
def scanFile (E : Env) (key : B32) (f : Bytes) (fault : Option Nat) (off : Nat) (m : Meta) : Res (Option Nat × Meta) :=
  if off ≥ metaSize then
    let pos := if off ≥ slabSize then off - slabSize else 0
    let size := if off ≥ slabSize then slabSize else off
    if fault = some 0 then .ok (none, m)
    else match scanSlab E key ((f.drop pos).take size) size off m with
      | .ok (some o, _, m) => .ok (some o, m)
      | .ok (none, off', m) => if _h : off' < off then scanFile E key f (fault.map (· - 1)) off' m else .ub
      | .err e => .err e
      | .abort => .abort
      | .ub => .ub
  else .ok (none, m)
termination_by off

/-- `urkel_store_find_meta` (store.c:979-1026): no record found is also the answer when
a system call fails. -/
def findMetaIO (E : Env) (key : B32) (f : Bytes) (φ : Option ScanFault) (m : Meta) : Res (Option Nat × Meta) :=
  match φ with
  | some .openFail => .ok (none, m)
  | some .statFail => .ok (none, m)
  | some (.readFail k) => scanFile E key f (some k) (f.length - f.length % metaSize) m
  | none => scanFile E key f none (f.length - f.length % metaSize) m

/-- `urkel_store_recover_state` (store.c:1028-1064) with failing system calls. Result:
state, last_meta and index (`none`: failure), and the files. The result of
`ftruncate` is ignored by the code (store.c:1016). -/
def recoverIO (E : Env) (key : B32) (files : List Bytes) (φ : Nat → FileFault) :
    Nat → Meta → Res (Option (Meta × Meta × Nat) × List Bytes)
  | 0, m => .ok (some (Meta.init, m, 1), [])
  | n + 1, m => do
    let f := files.getD n []
    let (r, m) ← findMetaIO E key f (φ n).scan m
    match r with
    | some off =>
      pure (some ({ m with metaPtr := { m.metaPtr with index := n + 1, pos := off } }, m, n + 1),
        files.take n ++ [if (φ n).trunc then f else f.take (off + metaSize)])
    | none =>
      if (φ n).unlink then pure (none, files.take (n + 1))
      else recoverIO E key files φ n m

/-- `urkel_store_init` (store.c:1069-1116) with failing system calls. -/
def openStoreIO (E : Env) (d : Dir) (rand : B32) (φ : OpenFaults) : Res (Dir × Option Store) :=
  -- urkel_store_init_meta: a key file that cannot be seen is overwritten
  let d := if φ.exists' then { d with keyFile := none } else d
  match d.key rand with
  | none => .ok (d, none)
  | some key => do
    let keyFile := match d.keyFile with | none => some rand.bytes | some b => some b
    let (r, files) ← recoverIO E key d.files φ.file d.files.length Meta.init
    match r with
    | none => pure (⟨keyFile, files⟩, none)
    | some (st, lm, index) =>
      if φ.current then pure (⟨keyFile, files⟩, none)
      else do
        let files := if files.length < index then files ++ [[]] else files
        let cur := files.getD (index - 1) []
        let s : Store :=
          { key := key, files := files, index := index, curSize := cur.length,
            slab := { Slab.init with filePos := cur.length, fileIndex := index },
            cache := [], state := st, lastMeta := lm, faults := [], io := [] }
        let (s, r) ← storeReadRoot E s st.rootPtr
        match r with
        | none => pure (⟨keyFile, s.files⟩, none)
        | some n => pure (⟨keyFile, s.files⟩, some { s with state := { s.state with rootNode := n } })

end Urkel
