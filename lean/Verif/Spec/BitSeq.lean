import Verif.Model.Base
/-
Specification of bit strings: the bits of a byte string, most significant bit
of each byte first, and packing of a bit string into bytes. Independent of the
model's bit operations.
-/
namespace Urkel

/-- The eight bits of a byte, most significant first. -/
def byteBits (x : UInt8) : List Bool :=
  [x.toNat.testBit 7, x.toNat.testBit 6, x.toNat.testBit 5, x.toNat.testBit 4,
   x.toNat.testBit 3, x.toNat.testBit 2, x.toNat.testBit 1, x.toNat.testBit 0]

/-- All bits of a byte string. -/
def bitsOf (d : Bytes) : List Bool := d.flatMap byteBits

/-- The 256 bits of a key: its path from the root. -/
def B32.bits (k : B32) : List Bool := bitsOf k.bytes

/-- The byte whose bits (MSB first) are the first eight elements of a list,
padded with zeros. -/
def byteOf (l : List Bool) : UInt8 :=
  UInt8.ofNat ((List.range 8).foldl (fun acc i => 2 * acc + (if l.getD i false then 1 else 0)) 0)

/-- Pack a bit string into ⌈n/8⌉ bytes, MSB first, zero padded. -/
def pack : List Bool → Bytes
  | [] => []
  | a :: l => byteOf (a :: l) :: pack (l.drop 7)
termination_by l => l.length
decreasing_by simp; omega

/-- Length of the longest common prefix. -/
def lcp : List Bool → List Bool → Nat
  | a :: as, b :: bs => if a = b then lcp as bs + 1 else 0
  | _, _ => 0

end Urkel
