import Verif.Model.Io
import Verif.Model.Store
/-
io_win.c: files on Windows. The system calls are modelled by their documented contracts for handles
opened without FILE_FLAG_OVERLAPPED, as all handles here are (io_win.c:160-161).
-/
namespace Urkel

/-- What Windows answers to one `ReadFile` or `WriteFile`: an error, or success with the number of
bytes it wants to transfer. -/
inductive WinAns where
  | fail
  | count (n : Nat)
deriving DecidableEq

/-- `urkel_fs_read` (io_win.c:522-543): `off` bytes of `buf` are done, `fpos` is the file pointer. The list is
what the system answers; if it ends before the loop does, the call has not returned (`none`). The
number of bytes read is `sysRead` (Model/Io.lean); `ReadFile` without an `OVERLAPPED` succeeds with 0 bytes at the end of
the file, and 0 is not tested for (compare io_posix.c:903). -/
def winRead (f : Bytes) (buf : Bytes) (off fpos : Nat) : List WinAns → Option (Res (Bool × Bytes × Nat))
  | [] => if buf.length - off > 0 then none else some (.ok (decide (buf.length - off = 0), buf, fpos))
  | r :: rs =>
    if buf.length - off > 0 then
      match r with
      | .fail => some (.ok (decide (buf.length - off = 0), buf, fpos))
      | .count n =>
        let nread := sysRead f fpos (buf.length - off) n
        if nread > buf.length - off then some .abort
        else match bufCopy buf off ((f.drop fpos).take nread) with
          | .ok buf => winRead f buf (off + nread) (fpos + nread) rs
          | _ => some .ub
    else some (.ok (decide (buf.length - off = 0), buf, fpos))

/-- Where `WriteFile` puts bytes: at the end if the handle was opened with FILE_APPEND_DATA only
(io_win.c:94-97), at the file pointer otherwise. -/
def winPut (append : Bool) (f : Bytes) (fpos : Nat) (d : Bytes) : Bytes := if append then f ++ d else overwrite f fpos d

/-- `urkel_fs_write` (io_win.c:545-566). Zero bytes written with success is not tested for. -/
def winWrite (append : Bool) (f : Bytes) (fpos : Nat) (src : Bytes) : List WinAns → Option (Res (Bool × Bytes))
  | [] => if src.length > 0 then none else some (.ok (decide (src.length = 0), f))
  | r :: rs =>
    if src.length > 0 then
      match r with
      | .fail => some (.ok (decide (src.length = 0), f))
      | .count n =>
        let nwrite := min n src.length
        if nwrite > src.length then some .abort
        else winWrite append (winPut append f fpos (src.take nwrite)) (fpos + nwrite) (src.drop nwrite) rs
    else some (.ok (decide (src.length = 0), f))

/-- `urkel_fs_pread` (io_win.c:568-608), the loop: `ReadFile` with an offset fails with ERROR_HANDLE_EOF at the
end of the file. `ptr` is the file pointer, which such a read moves too; the caller restores it. -/
def winPreadLoop (f : Bytes) (buf : Bytes) (off pos ptr : Nat) : List WinAns → Option (Res (Bool × Bytes × Nat))
  | [] => if buf.length - off > 0 then none else some (.ok (decide (buf.length - off = 0), buf, ptr))
  | r :: rs =>
    if buf.length - off > 0 then
      match r with
      | .fail => some (.ok (decide (buf.length - off = 0), buf, ptr))
      | .count n =>
        let nread := sysRead f pos (buf.length - off) n
        if nread = 0 then some (.ok (decide (buf.length - off = 0), buf, ptr))
        else if nread > buf.length - off then some .abort
        else match bufCopy buf off ((f.drop pos).take nread) with
          | .ok buf => winPreadLoop f buf (off + nread) (pos + nread) (pos + nread) rs
          | _ => some .ub
    else some (.ok (decide (buf.length - off = 0), buf, ptr))

/-- `urkel_fs_pread` (io_win.c:568-608). Result: success, buffer, file pointer. The two `SetFilePointerEx` succeed. -/
def winPread (f : Bytes) (buf : Bytes) (pos ptr : Nat) (rs : List WinAns) : Option (Res (Bool × Bytes × Nat)) :=
  match winPreadLoop f buf 0 pos ptr rs with
  | some (.ok (ok, buf, _)) => some (.ok (ok, buf, ptr))
  | r => r

/-- How far one call of `urkel_fs_pread` (io_win.c:568-608) has got: not begun; in the loop, with the file pointer it has
saved; about to restore it; returned. -/
inductive RdPhase where
  | start
  | loop (old : Nat)
  | restore (old : Nat) (ok : Bool)
  | done (ok : Bool)
deriving DecidableEq

/-- One call of `urkel_fs_pread`: position, destination, bytes done. -/
structure RdCall where
  pos : Nat
  buf : Bytes
  off : Nat
  phase : RdPhase
deriving DecidableEq

/-- One system call of it, with the file pointer that all calls on the handle share. -/
def rdStep (f : Bytes) (ptr : Nat) (c : RdCall) (a : WinAns) : Res (Nat × RdCall) :=
  match c.phase with
  | .start => .ok (ptr, { c with phase := .loop ptr })
  | .loop old =>
    if c.buf.length - c.off > 0 then
      match a with
      | .fail => .ok (ptr, { c with phase := .restore old false })
      | .count n =>
        let nread := sysRead f (c.pos + c.off) (c.buf.length - c.off) n
        if nread = 0 then .ok (ptr, { c with phase := .restore old false })
        else if nread > c.buf.length - c.off then .abort
        else do
          let buf ← bufCopy c.buf c.off ((f.drop (c.pos + c.off)).take nread)
          pure (c.pos + c.off + nread, { c with buf := buf, off := c.off + nread })
    else .ok (ptr, { c with phase := .restore old true })
  | .restore old ok => .ok (old, { c with phase := .done ok })
  | .done _ => .ok (ptr, c)

/-- Calls of several threads on one handle, system call by system call: which of them is next, and what the
system answers. -/
def rdRun (f : Bytes) : Nat × List RdCall → List (Nat × WinAns) → Res (Nat × List RdCall)
  | w, [] => .ok w
  | (ptr, cs), (t, a) :: sched =>
    match cs[t]? with
    | none => rdRun f (ptr, cs) sched
    | some c => do
      let (ptr, c) ← rdStep f ptr c a
      rdRun f (ptr, cs.set t c) sched

/-- `urkel_file_t` (io_win.c:718-787) and what its view points to: `base` is the length of the view if
`file->base` is not NULL; `live` is whether it is still mapped. -/
structure WinH where
  size : Nat
  base : Option Nat
  live : Bool
  mapped : Bool
deriving DecidableEq

/-- `urkel_file_open` (io_win.c:718-787), of a file with contents `f`, on a 64-bit system; `mapOk` is whether
`CreateFileMappingA` and `MapViewOfFile` succeed (a failing `CreateFileMappingA` returns NULL, which is not
tested for, but then `MapViewOfFile` fails). -/
def winFileOpen (f : Bytes) (mmap mapOk : Bool) : Option WinH :=
  if mmap then
    if f.length > 0 then
      if mapOk then some ⟨f.length, some f.length, true, true⟩ else none
    else some ⟨f.length, none, false, true⟩
  else some ⟨f.length, none, false, false⟩

/-- `urkel_file_pread` (io_win.c:799-826). Reading through a view that is gone, or beyond it, is `ub`. -/
def winFilePread (f : Bytes) (h : WinH) (buf : Bytes) (pos : Nat) (rs : List WinAns) : Option (Res (Bool × Bytes)) :=
  let len := buf.length
  if len = 0 then some (.ok (true, buf))
  else if pos + len ≥ 2 ^ 64 then some (.ok (false, buf))
  else if pos + len > h.size then some (.ok (false, buf))
  else match h.base with
    | some b =>
      if h.live = true ∧ pos + len ≤ b ∧ pos + len ≤ f.length then some (.ok (true, (f.drop pos).take len)) else some .ub
    | none =>
      match winPread f buf pos 0 rs with
      | none => none
      | some (.ok (ok, buf, _)) => some (.ok (ok, buf))
      | some .abort => some .abort
      | some .ub => some .ub
      | some (.err e) => some (.err e)

/-- `urkel_file_write` (io_win.c:828-878) on a handle opened with URKEL_O_APPEND: `unmapOk`, `closeOk`, `mapOk` say
whether `UnmapViewOfFile`, `CloseHandle` and the new mapping succeed. If `CloseHandle` fails, `file->base` stays. -/
def winFileWrite (f : Bytes) (h : WinH) (src : Bytes) (unmapOk closeOk mapOk : Bool) (rs : List WinAns) :
    Option (Res (Bool × Bytes × WinH)) :=
  if src.length = 0 then some (.ok (true, f, h))
  else if h.base.isSome && !unmapOk then some (.ok (false, f, h))
  else if h.base.isSome && !closeOk then some (.ok (false, f, { h with live := false }))
  else
    let h := { h with base := none, live := false }
    match winWrite true f 0 src rs with
    | none => none
    | some (.ok (false, f)) => some (.ok (false, f, h))
    | some (.ok (true, f)) =>
      let h := { h with size := h.size + src.length }
      if h.mapped then
        if mapOk then some (.ok (true, f, { h with base := some f.length, live := true })) else some (.ok (false, f, h))
      else some (.ok (true, f, h))
    | some .abort => some .abort
    | some .ub => some .ub
    | some (.err e) => some (.err e)

/-- `dwCreationDisposition` of `CreateFileA`. -/
inductive Disp where
  | openExisting | openAlways | createNew | truncateExisting | createAlways
deriving DecidableEq

/-- The choice in `urkel_fs_open` (io_win.c:104-127). -/
def winDisp (creat excl trunc : Bool) : Disp :=
  match creat, excl, trunc with
  | false, _, false => .openExisting
  | true, false, false => .openAlways
  | true, true, _ => .createNew
  | false, _, true => .truncateExisting
  | true, false, true => .createAlways

/-- The contract of `CreateFileA`: what is in the file afterwards; `none`: it fails. -/
def Disp.apply : Disp → Option Bytes → Option Bytes
  | .openExisting, f => f
  | .openAlways, some f => some f
  | .openAlways, none => some []
  | .createNew, some _ => none
  | .createNew, none => some []
  | .truncateExisting, some _ => some []
  | .truncateExisting, none => none
  | .createAlways, _ => some []

/-- `urkel_store_init_meta` (store.c:919-931) when the file "meta" is there, with `urkel_fs_read_file` (io.c:17-32) and
`urkel_fs_read` of io_win.c: the key, or failure. `none`: not returned yet. -/
def winReadKey (kf : Bytes) (rs : List WinAns) : Option (Option Bytes) :=
  match winRead kf (List.replicate 32 0) 0 0 rs with
  | none => none
  | some (.ok (true, buf, _)) => some (some buf)
  | some _ => some none

/-- `urkel_store_init_meta` when the file is not there: it is created with the fresh key (`urkel_fs_write_file`,
io.c:34-53, CREATE_ALWAYS). Result: success, and the contents of the file. -/
def winWriteKey (rand : B32) (rs : List WinAns) : Option (Res (Bool × Bytes)) :=
  match (winDisp true false true).apply none with
  | none => none
  | some f => winWrite false f 0 rand.bytes rs

end Urkel
