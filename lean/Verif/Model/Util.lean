import Verif.Model.Base
/-
util.c, internal.c, urkel.c: number names, buffer comparison, hexadecimal; store.c
and io_posix.c: directory listings and path buffers.
-/
namespace Urkel

/-- `buf[i]`: reading outside the buffer is undefined behaviour. -/
def rdAt (b : Bytes) (i : Nat) : Res UInt8 :=
  match b[i]? with
  | some x => .ok x
  | none => .ub

/-- The loop of `urkel_parse_u32` (util.c:109-123); `n` rounds are left, `i` is
the position, `num` the `uint64_t` accumulator. `none` is return value 0. (`char`
may be signed; bytes over 127 are then negative and rejected by the same test.) -/
def parseLoop (str : Bytes) : Nat → Nat → Nat → Res (Option Nat)
  | 0, i, num => do
    let ch ← rdAt str i
    pure (if ch ≠ 0 then none else some (num % 2 ^ 32))
  | n + 1, i, num => do
    let ch ← rdAt str i
    if ch = 0 then pure none
    else if ch.toNat < 48 ∨ ch.toNat > 57 then pure none
    else
      let num := (num * 10 + (ch.toNat - 48)) % 2 ^ 64
      if num > 4294967295 then pure none else parseLoop str n (i + 1) num

/-- `urkel_parse_u32` (util.c:100-132) on a buffer holding a C string. -/
def parseU32 (str : Bytes) : Res (Option Nat) := parseLoop str 10 0 0

/-- The loop of `urkel_serialize_u32` (util.c:140-143), filling the buffer from the
back. -/
def serializeLoop : Nat → Nat → Bytes → Bytes
  | 0, _, acc => acc
  | i + 1, num, acc => serializeLoop i (num / 10) (UInt8.ofNat (48 + num % 10) :: acc)

/-- `urkel_serialize_u32` (util.c:134-144): the buffer of 11 bytes. -/
def serializeU32 (num : Nat) : Bytes := serializeLoop 10 num [0]

/-- `__urkel_memcmp` (internal.c:36-47): compares `n` bytes. -/
def memcmpLoop (x y : Bytes) : Nat → Nat → Res Int
  | 0, _ => .ok 0
  | n + 1, i => do
    let a ← rdAt x i
    let b ← rdAt y i
    if a ≠ b then pure ((a.toNat : Int) - b.toNat) else memcmpLoop x y n (i + 1)

def urkelMemcmp (x y : Bytes) (n : Nat) : Res Int := memcmpLoop x y n 0

/-- `strcmp` on C strings without their terminator (the standard library's
function; used by `urkel__dirent_compare`, io_posix.c:585-590). Where one string
ends the standard fixes only the sign. -/
def strcmp : Bytes → Bytes → Int
  | [], [] => 0
  | [], _ :: _ => -1
  | _ :: _, [] => 1
  | a :: x, b :: y => if a ≠ b then (a.toNat : Int) - b.toNat else strcmp x y

/-- Insert a name into a sorted list of names. -/
def insertName (a : Bytes) : List Bytes → List Bytes
  | [] => [a]
  | b :: l => if strcmp a b ≤ 0 then a :: b :: l else b :: insertName a l

/-- The listing `urkel_fs_scandir` returns (io_posix.c:593-854, POSIX branch): the
names in the directory (without "." and ".."; C strings without terminator), sorted
by `strcmp` with the standard library's `qsort`, for which insertion sort stands. -/
def scandir : List Bytes → List Bytes
  | [] => []
  | a :: l => insertName a (scandir l)

/-- The loop of `urkel_store_find_index` (store.c:946-957): `*index` and `ret`. -/
def findIndexLoop : List Bytes → Nat → Bool → Res (Nat × Bool)
  | [], index, ret => .ok (index, ret)
  | name :: rest, index, ret => do
    match ← parseU32 (name ++ [0]) with
    | some num => findIndexLoop rest num (if num ≠ (index + 1) % 2 ^ 32 then false else ret)
    | none => findIndexLoop rest index ret

/-- `urkel_store_find_index` (store.c:933-962): `none` is return value 0. -/
def findIndex (names : List Bytes) : Res (Option Nat) := do
  let (index, ret) ← findIndexLoop (scandir names) 0 true
  pure (if ret then some index else none)

/-! Hexadecimal in the command line tool. -/

/-- `urkel_base16_charset` (urkel.c:23). -/
def base16Charset : Bytes := "0123456789abcdef".toUTF8.toList

/-- `urkel_base16_table` (urkel.c:25-58): 255 stands for -1. -/
def base16Table (c : UInt8) : UInt8 :=
  if 48 ≤ c.toNat ∧ c.toNat ≤ 57 then c - 48
  else if 65 ≤ c.toNat ∧ c.toNat ≤ 70 then c - 55
  else if 97 ≤ c.toNat ∧ c.toNat ≤ 102 then c - 87
  else 255

/-- `urkel_base16_encode` (urkel.c:60-70), without the terminator. -/
def base16Encode : Bytes → Bytes
  | [] => []
  | b :: src => base16Charset.getD (b.toNat / 16) 0 :: base16Charset.getD (b.toNat % 16) 0 :: base16Encode src

/-- The loop of `urkel_base16_decode` (urkel.c:84-91) on an even number of
characters: `z` and the output. -/
def base16Loop : Bytes → UInt8 → Bytes → UInt8 × Bytes
  | a :: b :: src, z, dst =>
    let hi := base16Table a
    let lo := base16Table b
    base16Loop src (z ||| hi ||| lo) (dst ++ [(hi <<< 4) ||| lo])
  | _, z, dst => (z, dst)

/-- `urkel_base16_decode` (urkel.c:72-99) into a buffer of `dstlen` bytes; the
characters of the C string are given without its terminator. -/
def base16Decode (dstlen : Nat) (src : Bytes) : Option Bytes :=
  if src.length % 2 = 1 then none
  else if src.length / 2 > dstlen then none
  else
    let (z, dst) := base16Loop src 0 []
    if z &&& 0x80 ≠ 0 then none else some dst

/-- `urkel_base16_decode32` (urkel.c:101-109). -/
def base16Decode32 (src : Bytes) : Option Bytes :=
  match base16Decode 32 src with
  | none => none
  | some dst => if dst.length = 32 then some dst else none

/-! Path buffers. -/

/-- `URKEL_PATH_MAX` (io.h:90). -/
def pathMax : Nat := 1024

/-- `urkel_store_init_prefix` (store.c:890-917), the length test: the copied prefix. -/
def initPrefix (path : Bytes) : Option Bytes :=
  if path.length + 10 > pathMax then none else some path

/-- Write one byte into a buffer; out of bounds is undefined behaviour. -/
def wrAt (b : Bytes) (i : Nat) (x : UInt8) : Res Bytes :=
  if i < b.length then .ok (b.set i x) else .ub

/-- Consecutive writes from position `i` (the loops and `memcpy` of
`urkel_store_path`, store.c:413-422). -/
def wrMany : Bytes → Nat → Bytes → Res Bytes
  | b, _, [] => .ok b
  | b, i, x :: xs => do
    let b ← wrAt b i x
    wrMany b (i + 1) xs

/-- `urkel_store_path` (store.c:411-423) into the buffer `path`; `name` without its
terminator. -/
def storePath (pfx : Bytes) (path name : Bytes) : Res Bytes := do
  let path ← wrMany path 0 pfx
  let path ← wrAt path pfx.length 47
  let path ← wrMany path (pfx.length + 1) name
  wrAt path (pfx.length + 1 + name.length) 0

/-- `urkel_store_path_index` (store.c:425-431). -/
def storePathIndex (pfx : Bytes) (path : Bytes) (index : Nat) : Res Bytes :=
  storePath pfx path ((serializeU32 index).take 10)

end Urkel
