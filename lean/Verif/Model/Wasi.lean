import Verif.Model.Util
import Verif.Model.Scan

/-!
The directory listing in WASI builds (/repo/src/io_posix.c:594-718): names cannot be
read there, so they are inferred from their lengths.
-/

namespace Urkel

/-- The digits of `num`, filled in from the back (/repo/src/io_posix.c:669-679). -/
def wasiDigits : Nat → Nat → Bytes → Bytes
  | 0, _, acc => acc
  | k + 1, num, acc => wasiDigits k (num / 10) (UInt8.ofNat (48 + num % 10) :: acc)

def metaName : Bytes := "meta".toUTF8.toList
def lockName : Bytes := "lock".toUTF8.toList

/-- The loop of `urkel_fs_scandir` (/repo/src/io_posix.c:633-693) over the entries of a
directory ("." and ".." may be among them); it sees nothing of a name but its length.
`malloc` succeeds and `__wasi_fd_readdir` reports no error. -/
def wasiLoop : List Bytes → Bool → Bool → Nat → List Bytes
  | [], _, _, _ => []
  | e :: rest, hasMeta, hasLock, nameIndex =>
    if e.length = 4 then
      if !hasMeta then metaName :: wasiLoop rest true hasLock nameIndex
      else if !hasLock then lockName :: wasiLoop rest hasMeta true nameIndex
      else wasiLoop rest hasMeta hasLock nameIndex
    else if e.length = 10 then
      wasiDigits 10 nameIndex [] :: wasiLoop rest hasMeta hasLock ((nameIndex + 1) % 2 ^ 32)
    else wasiLoop rest hasMeta hasLock nameIndex

/-- `urkel_fs_scandir` in WASI builds (/repo/src/io_posix.c:594-718); `scandir` stands
for `qsort` with `urkel__dirent_compare`. -/
def wasiScandir (names : List Bytes) : List Bytes := scandir (wasiLoop names false false 1)

/-- `urkel_store_find_index` (/repo/src/store.c:933-962) with this listing. -/
def wasiFindIndex (names : List Bytes) : Res (Option Nat) := do
  let (index, ret) ← findIndexLoop (wasiScandir names) 0 true
  pure (if ret then some index else none)

end Urkel
