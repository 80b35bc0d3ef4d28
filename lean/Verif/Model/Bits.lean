import Verif.Model.Base
/-
bits.c / bits.h: bit strings of at most 256 bits stored MSB-first in 32 bytes.
-/
namespace Urkel

/-- `urkel_bits_t` (bits.h:17-20): `size_t size; unsigned char data[32]`. -/
structure Bits where
  size : Nat
  data : Bytes
deriving DecidableEq

/-- One bit of a byte, counted from the most significant end:
`(key[..] >> (7 - (index & 7))) & 1` (bits.h:74). -/
def byteBit (x : UInt8) (i : Nat) : Bool := ((x.toNat >>> (7 - i % 8)) &&& 1) == 1

/-- `urkel_get_bit` (bits.h:72-75). Reading past the buffer is undefined. -/
def getBit (data : Bytes) (i : Nat) : Res Bool :=
  match data[i / 8]? with
  | some x => .ok (byteBit x i)
  | none => .ub

/-- `urkel_set_bit` (bits.h:77-80): `key[index >> 3] |= (bit & 1) << (7 - (index & 7))`. -/
def setBit (data : Bytes) (i : Nat) (b : Bool) : Res Bytes :=
  match data[i / 8]? with
  | some x => .ok (data.set (i / 8) (UInt8.ofNat (x.toNat ||| ((if b then 1 else 0) <<< (7 - i % 8)))))
  | none => .ub

/-- `urkel_bits_init` (bits.c:17-24). -/
def bitsInit (size : Nat) : Res Bits := do
  check (size ≤ keyBits)
  pure ⟨size, List.replicate 32 0⟩

/-- `urkel_bits_get` (bits.h:82-86). -/
def bitsGet (b : Bits) (i : Nat) : Res Bool := do
  check (i < keyBits)
  getBit b.data i

/-- `urkel_bits_set` (bits.h:88-92). -/
def bitsSet (b : Bits) (i : Nat) (v : Bool) : Res Bits := do
  check (i < keyBits)
  let d ← setBit b.data i v
  pure { b with data := d }

/-- The loop of `urkel_bits__count` (bits.c:41-48); `len` iterations left. -/
def bitsCountLoop (b : Bits) (key : Bytes) : Nat → Nat → Nat → Nat → Res Nat
  | 0, _, _, count => .ok count
  | len + 1, index, depth, count => do
    let x ← bitsGet b index
    let y ← getBit key depth
    if x != y then pure count
    else bitsCountLoop b key len (index + 1) (depth + 1) (count + 1)

/-- `urkel_bits__count` (bits.c:26-51). -/
def bitsCountAt (b : Bits) (index : Nat) (key : Bytes) (depth : Nat) : Res Nat := do
  check (b.size ≤ keyBits)
  check (index ≤ b.size)
  check (depth ≤ keyBits)
  bitsCountLoop b key (min (b.size - index) (keyBits - depth)) index depth 0

/-- `urkel_bits_count` (bits.c:53-58). -/
def bitsCount (b : Bits) (key : Bytes) (depth : Nat) : Res Nat := bitsCountAt b 0 key depth

/-- `urkel_bits_has` (bits.c:60-65). -/
def bitsHas (b : Bits) (key : Bytes) (depth : Nat) : Res Bool := do
  let c ← bitsCount b key depth
  pure (c == b.size)

/-- The copy loop of `urkel_bits_slice` (bits.c:79-80); `n` iterations left. -/
def bitsCopyLoop (src : Bits) : Nat → Nat → Nat → Bits → Res Bits
  | 0, _, _, out => .ok out
  | n + 1, i, j, out => do
    let v ← bitsGet src j
    let out' ← bitsSet out i v
    bitsCopyLoop src n (i + 1) (j + 1) out'

/-- `urkel_bits_slice` (bits.c:67-81). -/
def bitsSlice (b : Bits) (start stop : Nat) : Res Bits := do
  check (start ≤ stop)
  let out ← bitsInit (stop - start)
  bitsCopyLoop b (stop - start) 0 start out

/-- `urkel_bits_split` (bits.c:83-90). -/
def bitsSplit (b : Bits) (index : Nat) : Res (Bits × Bits) := do
  let l ← bitsSlice b 0 index
  let r ← bitsSlice b (index + 1) b.size
  pure (l, r)

/-- `urkel_bits_collide` (bits.c:92-100). -/
def bitsCollide (b : Bits) (key : Bytes) (depth : Nat) : Res Bits := do
  let size ← bitsCountAt b depth key depth
  bitsSlice b depth (depth + size)

/-- `urkel_bits_join` (bits.c:102-119). The `memcpy` of the left bytes is `take`/`drop`. -/
def bitsJoin (left right : Bits) (bit : Bool) : Res Bits := do
  let size := left.size + right.size + 1
  let bytes := (left.size + 7) / 8
  let out ← bitsInit size
  let out := { out with data := left.data.take bytes ++ out.data.drop bytes }
  let out ← bitsSet out left.size bit
  bitsCopyLoop right right.size (left.size + 1) 0 out

/-- `urkel_bits_size` (bits.c:121-134). -/
def bitsSize (b : Bits) : Res Nat := do
  check (b.size ≤ keyBits)
  pure ((if b.size ≥ 0x80 then 1 else 0) + 1 + (b.size + 7) / 8)

/-- `urkel_bits_write` (bits.c:136-149): the bytes appended to the buffer. -/
def bitsWrite (b : Bits) : Res Bytes := do
  check (b.size ≤ keyBits)
  let hd : Bytes := if b.size ≥ 0x80 then [UInt8.ofNat (0x80 ||| (b.size >>> 8))] else []
  pure (hd ++ [UInt8.ofNat b.size] ++ b.data.take ((b.size + 7) / 8))

/-- `urkel_bits_read` (bits.c:151-192): `none` is return value 0.
`len` is the length of `data`. -/
def bitsRead (data : Bytes) : Option Bits :=
  match data with
  | [] => none
  | b0 :: rest =>
    let fin (size : Nat) (rest : Bytes) : Option Bits :=
      if size > keyBits then none
      else
        let bytes := (size + 7) / 8
        if rest.length < bytes then none
        else some ⟨size, rest.take bytes ++ List.replicate (32 - bytes) 0⟩
    if b0.toNat &&& 0x80 != 0 then
      match rest with
      | [] => none
      | b1 :: rest' =>
        let size := ((b0.toNat &&& 0x7f) <<< 8) ||| b1.toNat
        if size < 0x80 then none else fin size rest'
    else fin b0.toNat rest

end Urkel
