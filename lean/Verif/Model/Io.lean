import Verif.Model.Blake2b
/-
io_posix.c: the loops around read, write, pread and pwrite, and `urkel_file_t`.
-/
namespace Urkel

/-- What the operating system answers to one `read`/`write`/`pread`/`pwrite`:
interrupted (EINTR), try again (EAGAIN), another error, or a count. -/
inductive SysAns where
  | intr | again | fail | count (n : Nat)
deriving DecidableEq

/-- The kernel's contract for reading: the count it wants to return is cut to what was
asked for and to what the file has. A count of 0 before the end of the file does not
occur on regular files: it becomes 1. -/
def sysRead (f : Bytes) (pos len n : Nat) : Nat := min (max n 1) (min len (f.length - pos))

/-- `urkel_fs_pread` (io_posix.c:940-961): `off` bytes of the destination `buf` are
done; `len = buf.length - off`. The list is what the system answers; if it ends before
the loop does, the call has not returned (`none`). -/
def fsPread (f : Bytes) (buf : Bytes) (off pos : Nat) : List SysAns → Option (Res (Bool × Bytes))
  | [] => if buf.length - off > 0 then none else some (.ok (decide (buf.length - off = 0), buf))
  | r :: rs =>
    if buf.length - off > 0 then
      match r with
      | .intr => fsPread f buf off pos rs
      | .again => fsPread f buf off pos rs
      | .fail => some (.ok (decide (buf.length - off = 0), buf))
      | .count n =>
        let nread := sysRead f pos (buf.length - off) n
        if nread = 0 then some (.ok (decide (buf.length - off = 0), buf))
        else if nread > buf.length - off then some .abort
        else match bufCopy buf off ((f.drop pos).take nread) with
          | .ok buf => fsPread f buf (off + nread) (pos + nread) rs
          | _ => some .ub
    else some (.ok (decide (buf.length - off = 0), buf))

/-- `urkel_fs_read` (io_posix.c:893-914): the same loop on the position of the
descriptor, which the system call advances. Result: success, buffer, position. -/
def fsRead (f : Bytes) (buf : Bytes) (off fpos : Nat) : List SysAns → Option (Res (Bool × Bytes × Nat))
  | [] => if buf.length - off > 0 then none else some (.ok (decide (buf.length - off = 0), buf, fpos))
  | r :: rs =>
    if buf.length - off > 0 then
      match r with
      | .intr => fsRead f buf off fpos rs
      | .again => fsRead f buf off fpos rs
      | .fail => some (.ok (decide (buf.length - off = 0), buf, fpos))
      | .count n =>
        let nread := sysRead f fpos (buf.length - off) n
        if nread = 0 then some (.ok (decide (buf.length - off = 0), buf, fpos))
        else if nread > buf.length - off then some .abort
        else match bufCopy buf off ((f.drop fpos).take nread) with
          | .ok buf => fsRead f buf (off + nread) (fpos + nread) rs
          | _ => some .ub
    else some (.ok (decide (buf.length - off = 0), buf, fpos))

/-- `urkel_fs_write` (io_posix.c:916-937) on a descriptor that appends (O_APPEND, or a
file just truncated): `src` is what is left to write, `f` the file. The kernel's
contract: it appends the first `n` of the bytes offered. -/
def fsWrite (f : Bytes) (src : Bytes) : List SysAns → Option (Res (Bool × Bytes))
  | [] => if src.length > 0 then none else some (.ok (decide (src.length = 0), f))
  | r :: rs =>
    if src.length > 0 then
      match r with
      | .intr => fsWrite f src rs
      | .again => fsWrite f src rs
      | .fail => some (.ok (decide (src.length = 0), f))
      | .count n =>
        let nwrite := min n src.length
        if nwrite = 0 then some (.ok (decide (src.length = 0), f))
        else if nwrite > src.length then some .abort
        else fsWrite (f ++ src.take nwrite) (src.drop nwrite) rs
    else some (.ok (decide (src.length = 0), f))

/-- Bytes `pos ..` of a file replaced; a hole before `pos` reads as zeros. -/
def overwrite (f : Bytes) (pos : Nat) (d : Bytes) : Bytes :=
  if d.length = 0 then f
  else (f ++ List.replicate (pos - f.length) 0).take pos ++ d ++ f.drop (pos + d.length)

/-- `urkel_fs_pwrite` (io_posix.c:963-999), without the mutex of one platform. -/
def fsPwrite (f : Bytes) (src : Bytes) (pos : Nat) : List SysAns → Option (Res (Bool × Bytes))
  | [] => if src.length > 0 then none else some (.ok (decide (src.length = 0), f))
  | r :: rs =>
    if src.length > 0 then
      match r with
      | .intr => fsPwrite f src pos rs
      | .again => fsPwrite f src pos rs
      | .fail => some (.ok (decide (src.length = 0), f))
      | .count n =>
        let nwrite := min n src.length
        if nwrite = 0 then some (.ok (decide (src.length = 0), f))
        else if nwrite > src.length then some .abort
        else fsPwrite (overwrite f pos (src.take nwrite)) (src.drop nwrite) (pos + nwrite) rs
    else some (.ok (decide (src.length = 0), f))

/-- `urkel_file_t` (io_posix.c:27-33 and 1078-1130): `fd` is whether the descriptor is
open, `size` the logical size, `base` the length of the mapping if there is one,
`mapped` whether the file is to be mapped. The contents of the file are separate. -/
structure FileH where
  fd : Bool
  size : Nat
  base : Option Nat
  mapped : Bool
deriving DecidableEq

/-- `urkel_file_open` (io_posix.c:1078-1130) of an existing or just created file with
contents `f`; `mapOk` is whether `mmap` succeeds. `rdonly` and `mmap` are flags. -/
def fileOpen (f : Bytes) (rdonly mmap mapOk : Bool) : Option FileH :=
  if mmap then
    if f.length > 0 then
      if mapOk then some ⟨!rdonly, f.length, some f.length, true⟩ else none
    else some ⟨true, f.length, none, true⟩
  else some ⟨true, f.length, none, false⟩

/-- `urkel_file_pread` (io_posix.c:1132-1152). Reading a mapping beyond its length or
beyond the end of the file, or using a closed descriptor, is `ub`. Positions are
64-bit: `pos + len < pos` is wrap-around. -/
def filePread (f : Bytes) (h : FileH) (buf : Bytes) (pos : Nat) (rs : List SysAns) : Option (Res (Bool × Bytes)) :=
  let len := buf.length
  if len = 0 then some (.ok (true, buf))
  else if pos + len ≥ 2 ^ 64 then some (.ok (false, buf))
  else if pos + len > h.size then some (.ok (false, buf))
  else match h.base with
    | some b =>
      if pos + len ≤ b ∧ pos + len ≤ f.length then some (.ok (true, (f.drop pos).take len)) else some .ub
    | none => if h.fd then fsPread f buf 0 pos rs else some .ub

/-- `urkel_file_write` (io_posix.c:1154-1185): `unmapOk`, `mapOk` say whether `munmap`
and `mmap` succeed. -/
def fileWrite (f : Bytes) (h : FileH) (src : Bytes) (unmapOk mapOk : Bool) (rs : List SysAns) : Option (Res (Bool × Bytes × FileH)) :=
  if src.length = 0 then some (.ok (true, f, h))
  else if h.base.isSome && !unmapOk then some (.ok (false, f, h))
  else
    let h := { h with base := none }
    if !h.fd then some .ub
    else match fsWrite f src rs with
      | none => none
      | some (.ok (false, f)) => some (.ok (false, f, h))
      | some (.ok (true, f)) =>
        let h := { h with size := h.size + src.length }
        if h.mapped then
          if mapOk then some (.ok (true, f, { h with base := some h.size })) else some (.ok (false, f, h))
        else some (.ok (true, f, h))
      | some .abort => some .abort
      | some .ub => some .ub
      | some (.err e) => some (.err e)

end Urkel
