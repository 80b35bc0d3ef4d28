import Verif.Model.Destroy
/-
store.c:1214-1269 and tree.c:623-630: `urkel__corrupt`, which the tests of the library use
to damage a closed database. The file system is as in `Model/Destroy.lean`.
-/
namespace Urkel

/-- What system calls may do besides what the state of the file system makes them do:
fail. -/
structure CFaults where
  scanFails : Bool := false
  statFails : Bool := false
  truncFails : Bool := false

/-- The loop of `urkel_store__corrupt` (store.c:1243-1252) on the remaining names: the
buffer and `found`; `n` is `path_len`. -/
def corruptLoop (n : Nat) : List Bytes → Bytes → Bool → Res (Bytes × Bool)
  | [], path, found => .ok (path, found)
  | name :: rest, path, found =>
    match parseU32 (name ++ [0]) with
    | .ok num =>
      if num.isSome then
        match wrMany path n (name ++ [0]) with
        | .ok path => corruptLoop n rest path true
        | _ => .ub
      else corruptLoop n rest path found
    | _ => .ub

/-- `urkel_fs_truncate` (io_posix.c:559-562) of a file to `n` bytes, not more than it has. -/
def Fs.truncate (W : CFaults) (fs : Fs) (p : Bytes) (n : Nat) : Bool × Fs :=
  if W.truncFails then (false, fs)
  else match fs.at p with
    | some (.file data) => (true, (fs.remove p).put p (.file (data.take n)))
    | _ => (false, fs)

/-- `urkel_store__corrupt` (store.c:1214-1269) on the resolved prefix; `buf` is the
uninitialised array `path`. A directory in the place of the data file has some size
(`urkel_fs_stat`, io_posix.c:518-528), and cannot be truncated. -/
def storeCorrupt (W : CFaults) (fs : Fs) (pfx : Bytes) (buf : Bytes) : Res (Bool × Fs) :=
  if pfx.length + 10 > pathMax then .ok (false, fs)
  else do
    let path ← wrMany buf 0 (pfx ++ [0])
    let path ← wrAt path pfx.length 47
    if W.scanFails ∨ fs.at pfx ≠ some .dir then pure (false, fs)
    else do
      let q ← corruptLoop (pfx.length + 1) (scandir (fs.names pfx)) path false
      if q.2 = false then pure (false, fs)
      else if W.statFails then pure (false, fs)
      else match fs.at (cstr q.1) with
        | some (.file data) => if data.length = 0 then pure (false, fs) else pure (fs.truncate W (cstr q.1) (data.length - 1))
        | _ => pure (false, fs)

/-- `urkel__corrupt` (tree.c:623-630): true is return value 1; otherwise 0, with
URKEL_EBADOPEN in `urkel_errno`. `path`, `cwd`, `junk` as in `pathResolve`. -/
def urkelCorrupt (W : CFaults) (fs : Fs) (path cwd : Option Bytes) (junk buf : Bytes) : Res (Bool × Fs) := do
  match ← pathResolve path cwd junk with
  | none => pure (false, fs)
  | some blk => storeCorrupt W fs (cstr blk) buf

end Urkel
