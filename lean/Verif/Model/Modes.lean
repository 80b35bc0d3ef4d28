import Verif.Model.Base

/-!
Model of how file modes and open flags are translated and how files are opened
(/repo/src/io_posix.c:128-396, 449-516, /repo/src/io.c:17-74, /repo/src/store.c:31-33).

The preprocessor conditionals are taken as on Linux, where all the macros are
defined; the numbers in the second column of the tables are those of Linux (x86-64).
Modes and flags are natural numbers; the C types are `uint32_t` and `int`, and all
constants are below 2^25.
-/

namespace Urkel.Modes

/-- One statement `if (m & a) out |= b;`. -/
def orIf (m : Nat) (out : Nat) (p : Nat × Nat) : Nat :=
  if m &&& p.1 ≠ 0 then out ||| p.2 else out

/-- A sequence of such statements, starting with `out = 0`. -/
def translate (table : List (Nat × Nat)) (m : Nat) : Nat :=
  table.foldl (orIf m) 0

/-- The rows of `urkel_fs__mode_api_to_os` (/repo/src/io_posix.c:195-294): the
constants of io.h:35-60, and those of `<sys/stat.h>`. -/
def modeRows : List (Nat × Nat) :=
  [ (0o060000, 0o060000)   -- S_IFBLK
  , (0o020000, 0o020000)   -- S_IFCHR
  , (0o010000, 0o010000)   -- S_IFIFO
  , (0o100000, 0o100000)   -- S_IFREG
  , (0o040000, 0o040000)   -- S_IFDIR
  , (0o120000, 0o120000)   -- S_IFLNK
  , (0o140000, 0o140000)   -- S_IFSOCK
  , (0o000400, 0o000400)   -- S_IRUSR
  , (0o000200, 0o000200)   -- S_IWUSR
  , (0o000100, 0o000100)   -- S_IXUSR
  , (0o000040, 0o000040)   -- S_IRGRP
  , (0o000020, 0o000020)   -- S_IWGRP
  , (0o000010, 0o000010)   -- S_IXGRP
  , (0o000004, 0o000004)   -- S_IROTH
  , (0o000002, 0o000002)   -- S_IWOTH
  , (0o000001, 0o000001)   -- S_IXOTH
  , (0o004000, 0o004000)   -- S_ISUID
  , (0o002000, 0o002000)   -- S_ISGID
  , (0o001000, 0o001000) ] -- S_ISVTX

/-- `urkel_fs__mode_api_to_os`, /repo/src/io_posix.c:195-294. -/
def modeApiToOs (m : Nat) : Nat := translate modeRows m

/-- `urkel_fs__mode_os_to_api`, /repo/src/io_posix.c:297-396: the same statements with
the columns exchanged. -/
def modeOsToApi (m : Nat) : Nat := translate (modeRows.map Prod.swap) m

/-- `O_RDONLY` … of /repo/src/io.h:17-32. -/
def rdonly : Nat := 1 <<< 0
def wronly : Nat := 1 <<< 1
def rdwr : Nat := 1 <<< 2
def append : Nat := 1 <<< 3
def creat : Nat := 1 <<< 4
def trunc : Nat := 1 <<< 11
def sequential : Nat := 1 <<< 13
def random : Nat := 1 <<< 14
def mmap : Nat := 1 <<< 15

/-- The rows of `urkel_fs__flags_api_to_os`, /repo/src/io_posix.c:128-192. -/
def flagRows : List (Nat × Nat) :=
  [ (1 <<< 0, 0)             -- O_RDONLY
  , (1 <<< 1, 0o1)           -- O_WRONLY
  , (1 <<< 2, 0o2)           -- O_RDWR
  , (1 <<< 3, 0o2000)        -- O_APPEND
  , (1 <<< 4, 0o100)         -- O_CREAT
  , (1 <<< 5, 0o10000)       -- O_DSYNC
  , (1 <<< 6, 0o200)         -- O_EXCL
  , (1 <<< 7, 0o400)         -- O_NOCTTY
  , (1 <<< 8, 0o4000)        -- O_NONBLOCK
  , (1 <<< 9, 0o4010000)     -- O_RSYNC
  , (1 <<< 10, 0o4010000)    -- O_SYNC
  , (1 <<< 11, 0o1000) ]     -- O_TRUNC

/-- `urkel_fs__flags_api_to_os`, /repo/src/io_posix.c:128-192. -/
def flagsApiToOs (f : Nat) : Nat := translate flagRows f

def osCreat : Nat := 0o100
def osCloexec : Nat := 0o2000000
def fdCloexec : Nat := 1

/-- The errors `urkel_fs__open` and `urkel_fs_open` tell apart. -/
inductive Err | intr | inval | other
  deriving DecidableEq, Repr

/-- The system calls they make. `open` has its third argument only if it is passed. -/
inductive Call
  | open (flags : Nat) (mode : Option Nat)
  | getfd (fd : Nat)
  | setfd (fd : Nat) (v : Nat)
  deriving DecidableEq, Repr

/-- What the kernel answers. -/
abbrev Ans := Except Err Nat

/-- The calls made so far with the answers they got. -/
abbrev Trace := List (Call × Ans)

/-- Reading `fcntl(fd, F_GETFD)` again while it is interrupted
(/repo/src/io_posix.c:472-474). `none`: the list of answers, which stands for what the
kernel is going to say, ends inside the call. -/
def getFdLoop (fd : Nat) : List Ans → Option (Trace × Ans × List Ans)
  | [] => none
  | .error .intr :: rest =>
      (getFdLoop fd rest).map fun (t, a, r) => ((.getfd fd, .error .intr) :: t, a, r)
  | a :: rest => some ([(.getfd fd, a)], a, rest)

/-- /repo/src/io_posix.c:481-483. -/
def setFdLoop (fd v : Nat) : List Ans → Option (Trace × List Ans)
  | [] => none
  | .error .intr :: rest =>
      (setFdLoop fd v rest).map fun (t, r) => ((.setfd fd v, .error .intr) :: t, r)
  | a :: rest => some ([(.setfd fd v, a)], rest)

/-- The second half of `urkel_fs__open` (/repo/src/io_posix.c:463-489), after a kernel
that does not know `O_CLOEXEC`. -/
def openPlain (flags mode : Nat) : List Ans → Option (Trace × Ans × List Ans)
  | [] => none
  | a :: rest =>
    let c := Call.open flags (if flags &&& osCreat ≠ 0 then some mode else none)
    match a with
    | .error e => some ([(c, .error e)], .error e, rest)
    | .ok fd =>
      match getFdLoop fd rest with
      | none => none
      | some (t, .error _, rest) => some ((c, .ok fd) :: t, .ok fd, rest)
      | some (t, .ok r, rest) =>
        match setFdLoop fd (r ||| fdCloexec) rest with
        | none => none
        | some (t', rest) => some ((c, .ok fd) :: (t ++ t'), .ok fd, rest)

/-- `urkel_fs__open`, /repo/src/io_posix.c:449-489; the flags and the mode are already
translated. -/
def openOnce (flags mode : Nat) : List Ans → Option (Trace × Ans × List Ans)
  | [] => none
  | a :: rest =>
    let c := Call.open (flags ||| osCloexec)
      (if flags &&& osCreat ≠ 0 then some mode else none)
    match a with
    | .error .inval =>
      (openPlain flags mode rest).map fun (t, r, rest) => ((c, a) :: t, r, rest)
    | _ => some ([(c, a)], a, rest)

/-- `urkel_fs_open`, /repo/src/io_posix.c:507-516: again while it is interrupted. Every
round uses up an answer; `fuel` is their number. -/
def openLoop (flags mode : Nat) : Nat → List Ans → Option (Trace × Ans × List Ans)
  | 0, _ => none
  | fuel + 1, as =>
    match openOnce flags mode as with
    | none => none
    | some (t, .error .intr, rest) =>
      (openLoop flags mode fuel rest).map fun (t', r, rest) => (t ++ t', r, rest)
    | some r => some r

/-- `urkel_fs_open`, /repo/src/io_posix.c:507-516. -/
def fsOpen (flags mode : Nat) (as : List Ans) : Option (Trace × Ans × List Ans) :=
  openLoop (flagsApiToOs flags) (modeApiToOs mode) as.length as

/-- The places where the library opens files. -/
inductive Site
  | readKey      -- io.c:18-19, store.c:926
  | writeKey     -- io.c:39-40, store.c:930
  | lock         -- io.c:57-58, store.c:969, 1176
  | recover      -- store.c:989
  | dataWrite    -- store.c:31-32, 476, 536, 1099
  | dataRead     -- store.c:33, 476, 514
  deriving DecidableEq, Repr

/-- The flags given at each place. -/
def Site.flags : Site → Nat
  | .readKey => rdonly ||| sequential
  | .writeKey => wronly ||| creat ||| trunc
  | .lock => rdwr ||| creat ||| trunc
  | .recover => rdwr ||| random
  | .dataWrite => rdwr ||| creat ||| append ||| random ||| mmap
  | .dataRead => rdonly ||| random ||| mmap

/-- The mode given at each place. -/
def Site.mode : Site → Nat
  | .readKey => 0
  | .recover => 0
  | _ => 0o640

/-- Opening at one of these places. -/
def openAt (s : Site) (as : List Ans) : Option (Trace × Ans × List Ans) :=
  fsOpen s.flags s.mode as

/-- The mode with which `urkel_store_init_prefix` makes the directory
(/repo/src/store.c:916, /repo/src/io_posix.c:574-577). -/
def mkdirMode : Nat := modeApiToOs 0o750

end Urkel.Modes
