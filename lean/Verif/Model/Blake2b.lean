import Verif.Model.Hash
/-
blake2b.c: the streaming implementation of the hash; util.c: the functions that use it.
-/
namespace Urkel

/-- `urkel_blake2b_t` (blake2b.h:16-22). -/
structure B2 where
  h : List UInt64
  t0 : UInt64
  t1 : UInt64
  buf : Bytes
  buflen : Nat
  outlen : Nat
deriving DecidableEq

/-- `urkel_rotr64` (blake2b.c:27-30). -/
def rotr64 (w c : UInt64) : UInt64 := (w >>> c) ||| (w <<< (64 - c))

/-- `urkel_blake2b_iv` (blake2b.c:36-41). -/
def b2Iv : List UInt64 :=
  [0x6a09e667f3bcc908, 0xbb67ae8584caa73b, 0x3c6ef372fe94f82b, 0xa54ff53a5f1d36f1,
   0x510e527fade682d1, 0x9b05688c2b3e6c1f, 0x1f83d9abfb41bd6b, 0x5be0cd19137e2179]

/-- `urkel_blake2b_sigma` (blake2b.c:43-56), twelve rows. -/
def b2Sigma : List (List Nat) :=
  [[0, 1, 2, 3, 4, 5, 6, 7, 8, 9, 10, 11, 12, 13, 14, 15],
   [14, 10, 4, 8, 9, 15, 13, 6, 1, 12, 0, 2, 11, 7, 5, 3],
   [11, 8, 12, 0, 5, 2, 15, 13, 10, 14, 3, 6, 7, 1, 9, 4],
   [7, 9, 3, 1, 13, 12, 11, 14, 2, 6, 5, 10, 4, 0, 15, 8],
   [9, 0, 5, 7, 2, 4, 10, 15, 14, 1, 11, 12, 6, 8, 3, 13],
   [2, 12, 6, 10, 0, 11, 8, 3, 4, 13, 7, 5, 15, 14, 1, 9],
   [12, 5, 1, 15, 14, 13, 4, 10, 0, 7, 6, 3, 9, 2, 8, 11],
   [13, 11, 7, 14, 12, 1, 3, 9, 5, 0, 15, 4, 8, 6, 2, 10],
   [6, 15, 14, 9, 11, 3, 0, 8, 12, 2, 13, 7, 1, 4, 10, 5],
   [10, 2, 8, 4, 7, 6, 1, 5, 15, 11, 9, 14, 3, 12, 13, 0],
   [0, 1, 2, 3, 4, 5, 6, 7, 8, 9, 10, 11, 12, 13, 14, 15],
   [14, 10, 4, 8, 9, 15, 13, 6, 1, 12, 0, 2, 11, 7, 5, 3]]

/-- Element `i` of an array of words (all indices below are constants in range). -/
def wordAt (v : List UInt64) (i : Nat) : UInt64 := v.getD i 0

/-- `urkel_read64` (util.h:135-145) at the start of `d`. -/
def read64 (d : Bytes) : UInt64 := UInt64.ofNat (leNat (d.take 8))

/-- `urkel_blake2b_increment` (blake2b.c:87-91); 64-bit arithmetic wraps around. -/
def b2Increment (ctx : B2) (inc : UInt64) : B2 :=
  let t0 := ctx.t0 + inc
  { ctx with t0 := t0, t1 := ctx.t1 + (if t0 < inc then 1 else 0) }

/-- The macro `G` (blake2b.c:116-125) on `v[a]`, `v[b]`, `v[c]`, `v[d]`. -/
def b2G (m : List UInt64) (r i : Nat) (a b c d : Nat) (v : List UInt64) : List UInt64 :=
  let s := fun k => wordAt m ((b2Sigma.getD r []).getD k 0)
  let v := v.set a (wordAt v a + wordAt v b + s (2 * i + 0))
  let v := v.set d (rotr64 (wordAt v d ^^^ wordAt v a) 32)
  let v := v.set c (wordAt v c + wordAt v d)
  let v := v.set b (rotr64 (wordAt v b ^^^ wordAt v c) 24)
  let v := v.set a (wordAt v a + wordAt v b + s (2 * i + 1))
  let v := v.set d (rotr64 (wordAt v d ^^^ wordAt v a) 16)
  let v := v.set c (wordAt v c + wordAt v d)
  v.set b (rotr64 (wordAt v b ^^^ wordAt v c) 63)

/-- The macro `ROUND` (blake2b.c:127-136). -/
def b2Round (m : List UInt64) (v : List UInt64) (r : Nat) : List UInt64 :=
  let v := b2G m r 0 0 4 8 12 v
  let v := b2G m r 1 1 5 9 13 v
  let v := b2G m r 2 2 6 10 14 v
  let v := b2G m r 3 3 7 11 15 v
  let v := b2G m r 4 0 5 10 15 v
  let v := b2G m r 5 1 6 11 12 v
  let v := b2G m r 6 2 7 8 13 v
  b2G m r 7 3 4 9 14 v

/-- `urkel_blake2b_compress` (blake2b.c:93-155) of the 128 bytes at `chunk`. -/
def b2Compress (ctx : B2) (chunk : Bytes) (f0 : UInt64) : Res B2 :=
  if chunk.length < 128 then .ub
  else
    let m := (List.range 16).map fun i => read64 (chunk.drop (i * 8))
    let v := (List.range 8).map (wordAt ctx.h) ++
      [wordAt b2Iv 0, wordAt b2Iv 1, wordAt b2Iv 2, wordAt b2Iv 3, wordAt b2Iv 4 ^^^ ctx.t0, wordAt b2Iv 5 ^^^ ctx.t1, wordAt b2Iv 6 ^^^ f0, wordAt b2Iv 7]
    let v := [0, 1, 2, 3, 4, 5, 6, 7, 8, 9, 10, 11].foldl (b2Round m) v
    .ok { ctx with h := (List.range 8).map fun i => wordAt ctx.h i ^^^ (wordAt v i ^^^ wordAt v (i + 8)) }

/-- `memcpy(ctx->buf + off, src, len)`. -/
def bufCopy (buf : Bytes) (off : Nat) (src : Bytes) : Res Bytes :=
  if off + src.length ≤ buf.length then .ok (buf.take off ++ src ++ buf.drop (off + src.length)) else .ub

/-- The loop `while (len > 128)` of `urkel_blake2b_update` (blake2b.c:176-181): the
rest of the input after it. -/
def b2Loop (ctx : B2) (inp : Bytes) : Res (B2 × Bytes) :=
  if _h : inp.length > 128 then
    match b2Compress (b2Increment ctx 128) inp 0 with
    | .ok ctx => b2Loop ctx (inp.drop 128)
    | .err e => .err e
    | .abort => .abort
    | .ub => .ub
  else .ok (ctx, inp)
termination_by inp.length
decreasing_by rw [List.length_drop]; omega

/-- The branch `len > fill` of `urkel_blake2b_update` (blake2b.c:165-182): fill the
buffer, compress it, then whole blocks straight from the input. -/
def b2Full (ctx : B2) (inp : Bytes) (left fill : Nat) : Res (B2 × Bytes) := do
  let buf ← bufCopy ctx.buf left (inp.take fill)
  let ctx ← b2Compress (b2Increment { ctx with buflen := 0, buf := buf } 128) buf 0
  b2Loop ctx (inp.drop fill)

/-- `urkel_blake2b_update` (blake2b.c:157-187). `128 - left` is unsigned: it wraps if
`left > 128` (`ub` here). -/
def b2Update (ctx : B2) (inp : Bytes) : Res B2 :=
  if inp.length = 0 then .ok ctx
  else if ctx.buflen > 128 then .ub
  else do
    let r ← if inp.length > 128 - ctx.buflen then b2Full ctx inp ctx.buflen (128 - ctx.buflen) else .ok (ctx, inp)
    let buf ← bufCopy r.1.buf r.1.buflen r.2
    pure { r.1 with buf := buf, buflen := r.1.buflen + r.2.length }

/-- `urkel_blake2b_init` (blake2b.c:58-85); `key = []` is `NULL, 0`. -/
def b2Init (outlen : Nat) (key : Bytes) : Res B2 := do
  check (1 ≤ outlen ∧ outlen ≤ 64)
  check (key.length ≤ 64)
  let h := b2Iv.set 0 (wordAt b2Iv 0 ^^^ ((0x01010000 : UInt64) ^^^ (UInt64.ofNat key.length <<< 8) ^^^ UInt64.ofNat outlen))
  let ctx : B2 := ⟨h, 0, 0, List.replicate 128 0, 0, outlen⟩
  if key.length > 0 then b2Update ctx (key ++ List.replicate (128 - key.length) 0)
  else pure ctx

/-- `urkel_blake2b_final` (blake2b.c:189-204). -/
def b2Final (ctx : B2) : Res Bytes := do
  let ctx := b2Increment ctx (UInt64.ofNat ctx.buflen)
  if ctx.buflen > 128 then .ub
  else
    let buf ← bufCopy ctx.buf ctx.buflen (List.replicate (128 - ctx.buflen) 0)
    let ctx ← b2Compress { ctx with buf := buf } buf 0xffffffffffffffff
    let buffer := (List.range 8).flatMap fun i => leBytes 8 (wordAt ctx.h i).toNat
    if ctx.outlen > buffer.length then .ub else pure (buffer.take ctx.outlen)

/-- Several calls of `urkel_blake2b_update`. -/
def b2Updates (ctx : B2) : List Bytes → Res B2
  | [] => .ok ctx
  | d :: ds => do
    let ctx ← b2Update ctx d
    b2Updates ctx ds

/-- `init`, `update` for each piece, `final`. -/
def b2Stream (outlen : Nat) (key : Bytes) (pieces : List Bytes) : Res Bytes := do
  let ctx ← b2Init outlen key
  let ctx ← b2Updates ctx pieces
  b2Final ctx

/-- `urkel_hash_internal` (util.c:28-51), as the code does it. -/
def hashInternalC (pre : Bits) (l r : B32) : Res Bytes :=
  b2Stream 32 [] ((if pre.size = 0 then [[1]] else [[2], leBytes 2 pre.size, pre.data.take ((pre.size + 7) / 8)]) ++ [l.bytes, r.bytes])

/-- `urkel_hash_leaf` (util.c:53-63). -/
def hashLeafC (key vhash : Bytes) : Res Bytes := b2Stream 32 [] [[0], key, vhash]

/-- `urkel_hash_value` (util.c:65-78). -/
def hashValueC (key value : Bytes) : Res Bytes := do
  let vhash ← b2Stream 32 [] [value]
  hashLeafC key vhash

/-- `urkel_hash_key` and `urkel_hash_raw` (util.c:80-94). -/
def hashRawC (data : Bytes) : Res Bytes := b2Stream 32 [] [data]

/-- `urkel_checksum` (util.c:170-180). -/
def checksumC (data key : Bytes) : Res Bytes := b2Stream 20 key [data]

end Urkel
