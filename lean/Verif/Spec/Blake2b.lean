import Verif.Model.Codec
/-
BLAKE2b as defined in RFC 7693 (sections 2 and 3), on lists of bytes.
-/
namespace Urkel.Rfc7693

/-- Section 2.6: initialization vector. -/
def iv : List UInt64 :=
  [0x6a09e667f3bcc908, 0xbb67ae8584caa73b, 0x3c6ef372fe94f82b, 0xa54ff53a5f1d36f1,
   0x510e527fade682d1, 0x9b05688c2b3e6c1f, 0x1f83d9abfb41bd6b, 0x5be0cd19137e2179]

/-- Section 2.7: message schedule, ten permutations. -/
def sigma : List (List Nat) :=
  [[0, 1, 2, 3, 4, 5, 6, 7, 8, 9, 10, 11, 12, 13, 14, 15],
   [14, 10, 4, 8, 9, 15, 13, 6, 1, 12, 0, 2, 11, 7, 5, 3],
   [11, 8, 12, 0, 5, 2, 15, 13, 10, 14, 3, 6, 7, 1, 9, 4],
   [7, 9, 3, 1, 13, 12, 11, 14, 2, 6, 5, 10, 4, 0, 15, 8],
   [9, 0, 5, 7, 2, 4, 10, 15, 14, 1, 11, 12, 6, 8, 3, 13],
   [2, 12, 6, 10, 0, 11, 8, 3, 4, 13, 7, 5, 15, 14, 1, 9],
   [12, 5, 1, 15, 14, 13, 4, 10, 0, 7, 6, 3, 9, 2, 8, 11],
   [13, 11, 7, 14, 12, 1, 3, 9, 5, 0, 15, 4, 8, 6, 2, 10],
   [6, 15, 14, 9, 11, 3, 0, 8, 12, 2, 13, 7, 1, 4, 10, 5],
   [10, 2, 8, 4, 7, 6, 1, 5, 15, 11, 9, 14, 3, 12, 13, 0]]

/-- `w >>> n`: rotation to the right. -/
def rotr (w n : UInt64) : UInt64 := (w >>> n) ||| (w <<< (64 - n))

/-- Word `i`. -/
def at' (v : List UInt64) (i : Nat) : UInt64 := v.getD i 0

/-- Section 3.1: mixing function G. -/
def G (v : List UInt64) (a b c d : Nat) (x y : UInt64) : List UInt64 :=
  let v := v.set a (at' v a + at' v b + x)
  let v := v.set d (rotr (at' v d ^^^ at' v a) 32)
  let v := v.set c (at' v c + at' v d)
  let v := v.set b (rotr (at' v b ^^^ at' v c) 24)
  let v := v.set a (at' v a + at' v b + y)
  let v := v.set d (rotr (at' v d ^^^ at' v a) 16)
  let v := v.set c (at' v c + at' v d)
  v.set b (rotr (at' v b ^^^ at' v c) 63)

/-- One round: four columns, four diagonals. -/
def round (m : List UInt64) (v : List UInt64) (i : Nat) : List UInt64 :=
  let s := fun k => at' m ((sigma.getD (i % 10) []).getD k 0)
  let v := G v 0 4 8 12 (s 0) (s 1)
  let v := G v 1 5 9 13 (s 2) (s 3)
  let v := G v 2 6 10 14 (s 4) (s 5)
  let v := G v 3 7 11 15 (s 6) (s 7)
  let v := G v 0 5 10 15 (s 8) (s 9)
  let v := G v 1 6 11 12 (s 10) (s 11)
  let v := G v 2 7 8 13 (s 12) (s 13)
  G v 3 4 9 14 (s 14) (s 15)

/-- The sixteen little-endian words of a block. -/
def words (block : Bytes) : List UInt64 := (List.range 16).map fun i => UInt64.ofNat (leNat ((block.drop (8 * i)).take 8))

/-- Section 3.2: compression function F, with the 128-bit offset counter `t` and the
final block flag `f`. -/
def F (h : List UInt64) (block : Bytes) (t : Nat) (f : Bool) : List UInt64 :=
  let v := h ++ iv
  let v := v.set 12 (at' v 12 ^^^ UInt64.ofNat t)
  let v := v.set 13 (at' v 13 ^^^ UInt64.ofNat (t / 2 ^ 64))
  let v := if f then v.set 14 (at' v 14 ^^^ 0xffffffffffffffff) else v
  let v := (List.range 12).foldl (round (words block)) v
  (List.range 8).map fun i => at' h i ^^^ at' v i ^^^ at' v (i + 8)

/-- Padding a block with zeros. -/
def pad (b : Bytes) : Bytes := b ++ List.replicate (128 - b.length) 0

/-- The message as blocks of 128 bytes, the last one possibly shorter; an empty
message is one empty block. -/
def blocks (d : Bytes) : List Bytes :=
  if d.length ≤ 128 then [d] else d.take 128 :: blocks (d.drop 128)
termination_by d.length
decreasing_by rw [List.length_drop]; omega

/-- Section 3.3: all blocks but the last, then the last with the final flag; `t` is
the number of bytes before. -/
def process (h : List UInt64) (t : Nat) : List Bytes → List UInt64
  | [] => h
  | [b] => F h (pad b) (t + b.length) true
  | b :: bs => process (F h b (t + 128) false) (t + 128) bs

/-- Section 3.3: BLAKE2b with an `nn`-byte digest. A key is a block of its own before
the data. -/
def blake2b (nn : Nat) (key data : Bytes) : Bytes :=
  let h := iv.set 0 (at' iv 0 ^^^ (0x01010000 : UInt64) ^^^ (UInt64.ofNat key.length <<< 8) ^^^ UInt64.ofNat nn)
  let h := process h 0 (blocks ((if key = [] then [] else pad key) ++ data))
  (h.flatMap fun w => leBytes 8 w.toNat).take nn

end Urkel.Rfc7693
