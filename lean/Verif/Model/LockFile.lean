/-
store.c, io.c, io_posix.c: the lock file that keeps a second process out.
-/
namespace Urkel

/-- How far one handle on the database (one `urkel_t`, or a call of `urkel_destroy`)
has got with the lock file: not there, opened (the inode behind the descriptor), in
use, or released and about to remove the file. -/
inductive LockState where
  | closed
  | opened (inode : Nat)
  | holding (inode : Nat)
  | released
deriving DecidableEq

/-- The file system as far as the lock file is concerned: the inode the name "lock"
refers to, the next unused inode, and the process that has the record lock on each
inode; and the state of each handle. -/
structure LockFs where
  path : Option Nat
  fresh : Nat
  owner : Nat → Option Nat
  st : Nat → LockState

/-- Nothing open, no lock file. -/
def LockFs.init : LockFs := ⟨none, 0, fun _ => none, fun _ => .closed⟩

/-- `f` with another value at `a`. -/
def upd {β : Type} (f : Nat → β) (a : Nat) (b : β) : Nat → β := fun x => if x = a then b else f x

/-- The system calls around the lock file. -/
inductive LockOp where
  | open (h : Nat)
  | lock (h : Nat)
  | release (h : Nat)
  | unlink (h : Nat)
  | giveUp (h : Nat)
  | crash (p : Nat)

/-- One system call of handle `h` of process `pid h`. `open`: `urkel_fs_open` with
O_CREAT|O_TRUNC (io.c:55-69). `lock`: `fcntl(F_SETLK, F_WRLCK)`
(io_posix.c:1035-1067), which never waits: on failure the descriptor is closed. A
record lock belongs to the process, not to the descriptor. `release`: F_UNLCK and
`close` (io.c:71-75). `unlink`: the removal of the file after that
(store.c:1118-1132 and 1199-1204). `giveUp`: opening
failed after the lock was taken, the file is not removed (store.c:1085-1091). `crash`:
the process ends, its descriptors are closed. Calls that do not fit the state do
nothing. -/
def lockOp (pid : Nat → Nat) (s : LockFs) : LockOp → LockFs
  | .open h =>
    match s.st h with
    | .closed =>
      match s.path with
      | some i => { s with st := upd s.st h (.opened i) }
      | none => { s with path := some s.fresh, fresh := s.fresh + 1, st := upd s.st h (.opened s.fresh) }
    | _ => s
  | .lock h =>
    match s.st h with
    | .opened i =>
      if s.owner i = none ∨ s.owner i = some (pid h) then { s with owner := upd s.owner i (some (pid h)), st := upd s.st h (.holding i) }
      else { s with st := upd s.st h .closed }
    | _ => s
  | .release h =>
    match s.st h with
    | .holding i => { s with owner := if s.owner i = some (pid h) then upd s.owner i none else s.owner, st := upd s.st h .released }
    | _ => s
  | .unlink h =>
    match s.st h with
    | .released => { s with path := none, st := upd s.st h .closed }
    | _ => s
  | .giveUp h =>
    match s.st h with
    | .holding i => { s with owner := if s.owner i = some (pid h) then upd s.owner i none else s.owner, st := upd s.st h .closed }
    | _ => s
  | .crash p =>
    { s with
      owner := fun i => if s.owner i = some p then none else s.owner i
      st := fun h => if pid h = p then .closed else s.st h }

/-- System calls in the given order. -/
def lockOps (pid : Nat → Nat) (s : LockFs) (ops : List LockOp) : LockFs := ops.foldl (lockOp pid) s

/-- Has handle `h` the database open? -/
def LockFs.Open (s : LockFs) (h : Nat) : Prop := ∃ i, s.st h = .holding i

end Urkel
