import Verif.Model.Util
import Verif.Model.Path
/-
store.c:1152-1214 and tree.c:614-621: `urkel_destroy`. The file system is a table of
paths: nothing else is identified, so links, "." and ".." and doubled slashes are not
modelled (the prefix is one `urkel_path_resolve` returned, other than "/").
-/
namespace Urkel

/-- What a path names. -/
inductive Ent where
  | file (data : Bytes)
  | dir
deriving DecidableEq

/-- A file system: paths and what they name. -/
structure Fs where
  ents : List (Bytes × Ent)

/-- What is at `p`? -/
def Fs.at (fs : Fs) (p : Bytes) : Option Ent := fs.ents.lookup p

def Fs.remove (fs : Fs) (p : Bytes) : Fs := ⟨fs.ents.filter (fun e => e.1 != p)⟩

def Fs.put (fs : Fs) (p : Bytes) (e : Ent) : Fs := ⟨(p, e) :: fs.ents⟩

/-- The last component of `p`, if `p` is an entry of the directory `d`. -/
def nameIn (d p : Bytes) : Option Bytes :=
  if (d ++ [47]).isPrefixOf p ∧ 47 ∉ p.drop (d.length + 1) ∧ p.drop (d.length + 1) ≠ [] then some (p.drop (d.length + 1)) else none

/-- The names in the directory `d`, in the order of the table. -/
def Fs.names (fs : Fs) (d : Bytes) : List Bytes := fs.ents.filterMap (fun e => nameIn d e.1)

/-- Is anything below `d`? -/
def Fs.below (fs : Fs) (d : Bytes) : Bool := fs.ents.any (fun e => (d ++ [47]).isPrefixOf e.1)

/-- The directory part of a path. -/
def parentOf (p : Bytes) : Bytes := ((p.reverse.dropWhile (· != 47)).drop 1).reverse

/-- A C string in a buffer. -/
def cstr (b : Bytes) : Bytes := b.takeWhile (· != 0)

/-- What system calls may do besides what the state of the file system makes them do:
fail. `locked`: another process has the lock. -/
structure Faults where
  openFails : Bool := false
  locked : Bool := false
  scanFails : Bool := false
  unlinkFails : Bytes → Bool := fun _ => false
  rmdirFails : Bool := false

/-- `urkel_fs_unlink` (io_posix.c:569-572): only files can be removed so. -/
def Fs.unlink (W : Faults) (fs : Fs) (p : Bytes) : Fs :=
  if W.unlinkFails p then fs
  else match fs.at p with
    | some (.file _) => fs.remove p
    | _ => fs

/-- `urkel_fs_rmdir` (io_posix.c:579-582): only empty directories. -/
def Fs.rmdir (W : Faults) (fs : Fs) (p : Bytes) : Bool × Fs :=
  if W.rmdirFails then (false, fs)
  else match fs.at p with
    | some .dir => if fs.below p then (false, fs) else (true, fs.remove p)
    | _ => (false, fs)

/-- `urkel_fs_open_lock` (io.c:55-69): creates or empties the file, then tries to lock
it. -/
def Fs.openLock (W : Faults) (fs : Fs) (p : Bytes) : Bool × Fs :=
  if W.openFails then (false, fs)
  else match fs.at (parentOf p), fs.at p with
    | some .dir, none => if W.locked then (false, fs.put p (.file [])) else (true, fs.put p (.file []))
    | some .dir, some (.file _) =>
      if W.locked then (false, (fs.remove p).put p (.file [])) else (true, (fs.remove p).put p (.file []))
    | _, _ => (false, fs)

def nameMeta : Bytes := "meta".toUTF8.toList
def nameLock : Bytes := "lock".toUTF8.toList

/-- The loop of `urkel_store_destroy` (store.c:1184-1193) on the remaining names; `n` is
`path_len`. -/
def destroyLoop (W : Faults) (n : Nat) : List Bytes → Bytes → Fs → Res (Bytes × Fs)
  | [], path, fs => .ok (path, fs)
  | name :: rest, path, fs =>
    match parseU32 (name ++ [0]) with
    | .ok num =>
      if num.isSome ∨ strcmp name nameMeta = 0 then
        match wrMany path n (name ++ [0]) with
        | .ok path => destroyLoop W n rest path (fs.unlink W (cstr path))
        | _ => .ub
      else destroyLoop W n rest path fs
    | _ => .ub

/-- `fail:` with the lock taken (store.c:1198-1207). -/
def destroyEnd (W : Faults) (pfx : Bytes) (ret : Bool) (path : Bytes) (fs : Fs) : Res (Bool × Fs) := do
  let path ← wrMany path (pfx.length + 1) (nameLock ++ [0])
  let fs := fs.unlink W (cstr path)
  pure (if ret then fs.rmdir W pfx else (false, fs))

/-- `urkel_store_destroy` (store.c:1152-1214) on the resolved prefix; `buf` is the
uninitialised array `path`. -/
def storeDestroy (W : Faults) (fs : Fs) (pfx : Bytes) (buf : Bytes) : Res (Bool × Fs) :=
  if pfx.length + 10 > pathMax then .ok (false, fs)
  else do
    let path ← wrMany buf 0 (pfx ++ [0])
    let path ← wrAt path pfx.length 47
    let path ← wrMany path (pfx.length + 1) (nameLock ++ [0])
    let r := fs.openLock W (cstr path)
    if r.1 = false then pure (false, r.2)
    else if W.scanFails then destroyEnd W pfx false path r.2
    else do
      let q ← destroyLoop W (pfx.length + 1) (scandir (r.2.names pfx)) path r.2
      destroyEnd W pfx true q.1 q.2

/-- `urkel_destroy` (tree.c:614-621): true is return value 1; otherwise 0, with
URKEL_EBADOPEN in `urkel_errno`. `path`, `cwd`, `junk` as in `pathResolve`. -/
def urkelDestroy (W : Faults) (fs : Fs) (path cwd : Option Bytes) (junk buf : Bytes) : Res (Bool × Fs) := do
  match ← pathResolve path cwd junk with
  | none => pure (false, fs)
  | some blk => storeDestroy W fs (cstr blk) buf

end Urkel
