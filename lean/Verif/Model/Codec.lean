import Verif.Model.Bits
/-
Little-endian buffer I/O (util.h:70-150) and file pointers (nodes.c:25-57).
-/
namespace Urkel

/-- `n` low bytes of `v`, least significant first: `urkel_write8/16/32`
(util.h:70-97). Storing into a narrower field truncates, as in C. -/
def leBytes : Nat → Nat → Bytes
  | 0, _ => []
  | n + 1, v => UInt8.ofNat v :: leBytes n (v / 256)

/-- `urkel_read8/16/32` (util.h:119-140) on exactly the bytes of the field. -/
def leNat : Bytes → Nat
  | [] => 0
  | b :: bs => b.toNat + 256 * leNat bs

/-- Read `n` bytes and advance: `urkel_read(dst, data, n); data += n; len -= n`.
Reading past the end of the buffer is undefined behaviour. -/
def takeN (n : Nat) (d : Bytes) : Res (Bytes × Bytes) :=
  if d.length < n then .ub else .ok (d.take n, d.drop n)

/-- Read a 32-byte field. -/
def take32 (d : Bytes) : Res (B32 × Bytes) :=
  if h : d.length < 32 then .ub
  else .ok (⟨d.take 32, by simp; omega⟩, d.drop 32)

/-- `urkel_pointer_t` (nodes.h:43-47). -/
structure Ptr where
  index : Nat
  pos : Nat
  size : Nat
deriving DecidableEq

/-- `urkel_pointer_init` (nodes.c:25-30). -/
def Ptr.zero : Ptr := ⟨0, 0, 0⟩

/-- `urkel_pointer_write` (nodes.c:32-44). -/
def ptrWrite (p : Ptr) : Bytes :=
  let bits := p.size >>> 8
  let hi := bits >>> 1
  let lo := bits &&& 1
  leBytes 2 ((p.index <<< 1) ||| hi) ++ leBytes 4 ((p.pos <<< 1) ||| lo) ++ leBytes 1 p.size

/-- `urkel_pointer_read` (nodes.c:46-57) on the first 7 bytes of a buffer; also
returns the rest of the buffer. -/
def ptrRead (d : Bytes) : Res (Ptr × Bytes) := do
  let (a, d) ← takeN 2 d
  let (b, d) ← takeN 4 d
  let (c, d) ← takeN 1 d
  let index := leNat a
  let pos := leNat b
  let size := leNat c
  let hi := index &&& 1
  let lo := pos &&& 1
  pure (⟨index >>> 1, pos >>> 1, ((hi <<< 9) ||| (lo <<< 8)) ||| size⟩, d)

end Urkel
