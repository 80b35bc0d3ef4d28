import Verif.Model.LockFile
/-
store.c, io.c, io_win.c: the lock file on Windows.
-/
namespace Urkel

/-- A file: the handles open on it, the handle that has it locked, and whether it is to be deleted when the last handle is closed. -/
structure WinFile where
  opens : List Nat
  owner : Option Nat
  pending : Bool
deriving DecidableEq

/-- The file system as far as the lock file is concerned: the file the name "lock" refers to, the next unused file, the files; and the state of each handle on the
database. -/
structure WinLockFs where
  path : Option Nat
  fresh : Nat
  file : Nat → WinFile
  st : Nat → LockState

/-- Nothing open, no lock file. -/
def WinLockFs.init : WinLockFs := ⟨none, 0, fun _ => ⟨[], none, false⟩, fun _ => .closed⟩

/-- `CloseHandle` of handles in `gone`: their locks are dropped, and a file that is to be deleted goes when no handle is left. -/
def WinFile.close (f : WinFile) (gone : Nat → Bool) : WinFile :=
  { f with opens := f.opens.filter (fun h => !gone h), owner := f.owner.filter (fun h => !gone h) }

/-- The name is gone if the file was to be deleted and has no handles any more. -/
def WinLockFs.sweep (s : WinLockFs) : WinLockFs :=
  match s.path with
  | none => s
  | some i => if (s.file i).pending && (s.file i).opens.isEmpty then { s with path := none } else s

/-- One system call of handle `h` of process `pid h`; the calls are those of `LockOp`. `open`: `CreateFileA` with CREATE_ALWAYS and all sharing modes (io.c:55-69,
io_win.c:66-174); it fails if the file is to be deleted. `lock`: `LockFileEx` with LOCKFILE_EXCLUSIVE_LOCK and LOCKFILE_FAIL_IMMEDIATELY on the whole file
(io_win.c:686-707): the lock belongs to the handle, and fails if any handle has it; then the handle is closed. `release`: `UnlockFileEx` and close (io.c:71-75).
`unlink`: `DeleteFileA` (io_win.c:323-335; store.c:1118-1132 and 1199-1204). With `posix`, the name is gone at once and the file lives
on until its handles are closed, as since Windows 10 1809 on NTFS; otherwise the file goes, name and all, when the last handle is closed, and cannot be opened in between.
`giveUp`: opening failed after the lock was taken (store.c:1085-1091). `crash`: the handles of a process are closed. -/
def winLockOp (posix : Bool) (pid : Nat → Nat) (s : WinLockFs) : LockOp → WinLockFs
  | .open h =>
    match s.st h with
    | .closed =>
      match s.path with
      | some i =>
        if (s.file i).pending then s
        else { s with file := upd s.file i { s.file i with opens := h :: (s.file i).opens }, st := upd s.st h (.opened i) }
      | none => { s with path := some s.fresh, fresh := s.fresh + 1, file := upd s.file s.fresh ⟨[h], none, false⟩, st := upd s.st h (.opened s.fresh) }
    | _ => s
  | .lock h =>
    match s.st h with
    | .opened i =>
      if (s.file i).owner = none then { s with file := upd s.file i { s.file i with owner := some h }, st := upd s.st h (.holding i) }
      else ({ s with file := upd s.file i ((s.file i).close (· = h)), st := upd s.st h .closed } : WinLockFs).sweep
    | _ => s
  | .release h =>
    match s.st h with
    | .holding i => ({ s with file := upd s.file i ((s.file i).close (· = h)), st := upd s.st h .released } : WinLockFs).sweep
    | _ => s
  | .unlink h =>
    match s.st h with
    | .released =>
      match s.path with
      | none => { s with st := upd s.st h .closed }
      | some i =>
        if posix then { s with path := none, st := upd s.st h .closed }
        else ({ s with file := upd s.file i { s.file i with pending := true }, st := upd s.st h .closed } : WinLockFs).sweep
    | _ => s
  | .giveUp h =>
    match s.st h with
    | .holding i => ({ s with file := upd s.file i ((s.file i).close (· = h)), st := upd s.st h .closed } : WinLockFs).sweep
    | _ => s
  | .crash p =>
    ({ s with file := fun i => (s.file i).close (fun h => pid h = p), st := fun h => if pid h = p then .closed else s.st h } : WinLockFs).sweep

/-- System calls in the given order. -/
def winLockOps (posix : Bool) (pid : Nat → Nat) (s : WinLockFs) (ops : List LockOp) : WinLockFs := ops.foldl (winLockOp posix pid) s

/-- Has handle `h` the database open? -/
def WinLockFs.Open (s : WinLockFs) (h : Nat) : Prop := ∃ i, s.st h = .holding i

end Urkel
