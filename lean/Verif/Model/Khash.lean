import Verif.Model.Codec
/-
The hash table behind the cache of root nodes: khash.h (instantiated in store.c:67-68) and
`urkel_murmur3`. `khint_t` is a 32-bit unsigned integer; a table is only ever filled with
`kh_put`, nothing is deleted.
-/
namespace Urkel

/-- A 32-bit unsigned integer. -/
def u32 (n : Nat) : Nat := n % 2 ^ 32

/-! ### Flags -/

/-- `h->flags`: an array of `len` 32-bit words with two bits for each bucket. -/
structure KFlags where
  len : Nat
  word : Nat → BitVec 32

/-- `__ac_fsize` (khash.h:173). -/
def fsize (m : Nat) : Nat := if m < 16 then 1 else m >>> 4

/-- Flags for `n` buckets filled with 0xaa by `memset` (khash.h:253-255): all empty. -/
def KFlags.fresh (n : Nat) : KFlags := ⟨fsize n, fun _ => 0xaaaaaaaa#32⟩

/-- `(i&0xfU)<<1` (khash.h:165-171). -/
def flagShift (i : Nat) : Nat := (i &&& 15) <<< 1

/-- The two bits of bucket `i` as in `__ac_isempty`, `__ac_isdel` (khash.h:165-167). -/
def KFlags.isEmpty (f : KFlags) (i : Nat) : Bool := (f.word (i >>> 4) >>> flagShift i) &&& 2#32 != 0#32
def KFlags.isDel (f : KFlags) (i : Nat) : Bool := (f.word (i >>> 4) >>> flagShift i) &&& 1#32 != 0#32

/-- Clearing bits: `flag[i>>4] &= ~(m << ((i&0xfU)<<1))` (khash.h:169-170). -/
def KFlags.clearBits (f : KFlags) (m : BitVec 32) (i : Nat) : KFlags :=
  { f with word := fun j => if j = i >>> 4 then f.word j &&& ~~~(m <<< flagShift i) else f.word j }

/-- Setting bits: `flag[i>>4] |= m << ((i&0xfU)<<1)` (khash.h:171). -/
def KFlags.setBits (f : KFlags) (m : BitVec 32) (i : Nat) : KFlags :=
  { f with word := fun j => if j = i >>> 4 then f.word j ||| (m <<< flagShift i) else f.word j }

/-- Any use of the flags of bucket `i` reads or writes `flag[i>>4]`. -/
def KFlags.at (f : KFlags) {α : Type} (i : Nat) (x : α) : Res α := if i >>> 4 < f.len then .ok x else .ub

/-! ### The table -/

/-- `kh_nodes_t` (khash.h:194-200): `cap` is the allocated length of `keys` and `vals`
(khash.h:256-265); an element that was never written is `none`. In the C the key is a
pointer to the hash inside the stored node, which lives as long as the entry; here it is
the hash. -/
structure Kh (K V : Type) where
  nb : Nat
  size : Nat
  occ : Nat
  ub : Nat
  flags : KFlags
  cap : Nat
  keys : Nat → Option K
  vals : Nat → Option V

/-- `kh_init` (khash.h:212-214). -/
def Kh.init (K V : Type) : Kh K V := ⟨0, 0, 0, 0, ⟨0, fun _ => 0⟩, 0, fun _ => none, fun _ => none⟩

section
variable {K V : Type}

/-- Array accesses. Outside the allocation, or reading what was never written, is
undefined behaviour. -/
def Kh.key (T : Kh K V) (i : Nat) : Res K := if i < T.cap then (match T.keys i with | some k => .ok k | none => .ub) else .ub
def Kh.val (T : Kh K V) (i : Nat) : Res V := if i < T.cap then (match T.vals i with | some v => .ok v | none => .ub) else .ub
def Kh.setKey (T : Kh K V) (i : Nat) (k : K) : Res (Kh K V) :=
  if i < T.cap then .ok { T with keys := fun j => if j = i then some k else T.keys j } else .ub
def Kh.setVal (T : Kh K V) (i : Nat) (v : V) : Res (Kh K V) :=
  if i < T.cap then .ok { T with vals := fun j => if j = i then some v else T.vals j } else .ub

/-- The next bucket to try: `i = (i + (++step)) & mask` (khash.h:238, 281, 327), with
`step` already counted up. -/
def nextBucket (mask i step : Nat) : Nat := u32 (i + step) &&& mask

variable [DecidableEq K]

/-- The loop of `kh_get` (khash.h:237-241). It ends within `n_buckets` steps, as proved;
running out of fuel would be a loop that does not. -/
def getLoop (T : Kh K V) (key : K) (last : Nat) : Nat → Nat → Nat → Res Nat
  | 0, _, _ => .ub
  | fuel + 1, i, step => do
    let e ← T.flags.at i (T.flags.isEmpty i)
    if e then pure T.nb
    else do
      let d ← T.flags.at i (T.flags.isDel i)
      let same ← if d then pure false else do
        let k ← T.key i
        pure (decide (k = key))
      if same then pure i
      else if nextBucket (T.nb - 1) i (step + 1) = last then pure T.nb
      else getLoop T key last fuel (nextBucket (T.nb - 1) i (step + 1)) (step + 1)

/-- `kh_get` (khash.h:230-243). -/
def khGet (hash : K → Nat) (T : Kh K V) (key : K) : Res Nat :=
  if T.nb = 0 then pure 0
  else getLoop T key (hash key &&& (T.nb - 1)) (T.nb + 1) (hash key &&& (T.nb - 1)) 0

/-- `kroundup32` (khash.h:176). -/
def roundup32 (x : Nat) : Nat :=
  let x := u32 (x + (2 ^ 32 - 1))
  let x := x ||| x >>> 1
  let x := x ||| x >>> 2
  let x := x ||| x >>> 4
  let x := x ||| x >>> 8
  let x := x ||| x >>> 16
  u32 (x + 1)

/-- `(khint_t)(n * __ac_HASH_UPPER + 0.5)` (khash.h:192, 251, 303). For powers of two up to
2^31 the double computation and this one agree: the exact values stay at least 0.01 away
from any integer. -/
def upperBound (n : Nat) : Nat := (77 * n + 50) / 100

/-- `while (!__ac_isempty(new_flags, i)) i = (i + (++step)) & new_mask;` (khash.h:281). -/
def probeEmpty (nf : KFlags) (mask : Nat) : Nat → Nat → Nat → Res Nat
  | 0, _, _ => .ub
  | fuel + 1, i, step => do
    let e ← nf.at i (nf.isEmpty i)
    if e then pure i else probeEmpty nf mask fuel (nextBucket mask i (step + 1)) (step + 1)

/-- Is the bucket of the old table still to be moved (khash.h:270, 283)? -/
def Kh.live? (T : Kh K V) (i : Nat) : Res Bool := T.flags.at i (!T.flags.isEmpty i && !T.flags.isDel i)

/-- The same for any bucket of the new table (khash.h:283). -/
def Kh.oldLive? (T : Kh K V) (i : Nat) : Res Bool := if i < T.nb then T.live? i else pure false

/-- The kick-out process (khash.h:277-292). -/
def kickLoop (hash : K → Nat) (mask : Nat) : Nat → Kh K V → KFlags → K → V → Res (Kh K V × KFlags)
  | 0, _, _, _, _ => .ub
  | fuel + 1, T, nf, key, val => do
    let i ← probeEmpty nf mask (mask + 2) (hash key &&& mask) 0
    let nf ← nf.at i (nf.clearBits 2#32 i)
    let live ← T.oldLive? i
    if live then do
      let k ← T.key i
      let T ← T.setKey i key
      let v ← T.val i
      let T ← T.setVal i val
      let fl ← T.flags.at i (T.flags.setBits 1#32 i)
      kickLoop hash mask fuel { T with flags := fl } nf k v
    else do
      let T ← T.setKey i key
      let T ← T.setVal i val
      pure (T, nf)

/-- The loop over the old buckets (khash.h:269-294): `n` are left, the next one is `j`. -/
def rehashLoop (hash : K → Nat) (mask : Nat) : Nat → Nat → Kh K V → KFlags → Res (Kh K V × KFlags)
  | 0, _, T, nf => .ok (T, nf)
  | n + 1, j, T, nf => do
    let live ← T.live? j
    if live then do
      let k ← T.key j
      let v ← T.val j
      let fl ← T.flags.at j (T.flags.setBits 1#32 j)
      let (T, nf) ← kickLoop hash mask (T.nb + 1) { T with flags := fl } nf k v
      rehashLoop hash mask n (j + 1) T nf
    else rehashLoop hash mask n (j + 1) T nf

/-- The number of buckets for a request (khash.h:249-250). -/
def bucketsFor (want : Nat) : Nat := if roundup32 want < 4 then 4 else roundup32 want

/-- `kh_resize` (khash.h:244-306). Running out of memory is not modelled: it ends the process
(store.c:366-369). -/
def khResize (hash : K → Nat) (T : Kh K V) (want : Nat) : Res (Kh K V) :=
  let n := bucketsFor want
  if T.size ≥ upperBound n then .ok T
  else do
    let T := if T.nb < n then { T with cap := n } else T
    let (T, nf) ← rehashLoop hash (n - 1) T.nb 0 T (.fresh n)
    let T := if T.nb > n then { T with cap := n } else T
    pure { T with flags := nf, nb := n, occ := T.size, ub := upperBound n }

/-- The search of `kh_put` (khash.h:319-335): the bucket to use. -/
def putScan (T : Kh K V) (key : K) (last : Nat) : Nat → Nat → Nat → Nat → Res Nat
  | 0, _, _, _ => .ub
  | fuel + 1, i, step, site => do
    let e ← T.flags.at i (T.flags.isEmpty i)
    if e then pure (if site ≠ T.nb then site else i)
    else do
      let d ← T.flags.at i (T.flags.isDel i)
      let same ← if d then pure false else do
        let k ← T.key i
        pure (decide (k = key))
      if same then pure i
      else
        let site := if d then i else site
        let i := nextBucket (T.nb - 1) i (step + 1)
        if i = last then pure (if site ≠ T.nb then site else i)
        else putScan T key last fuel i (step + 1) site

/-- The test at the start of `kh_put` (khash.h:310-318). -/
def khRoom (hash : K → Nat) (T : Kh K V) : Res (Kh K V) :=
  if T.occ ≥ T.ub then
    if T.nb > u32 (T.size <<< 1) then khResize hash T (u32 (T.nb + (2 ^ 32 - 1)))
    else khResize hash T (u32 (T.nb + 1))
  else .ok T

/-- `kh_put` (khash.h:307-348): the table, the bucket and `*ret`. -/
def khPut (hash : K → Nat) (T : Kh K V) (key : K) : Res (Kh K V × Nat × Nat) := do
  let T ← khRoom hash T
  let x ← putScan T key (hash key &&& (T.nb - 1)) (T.nb + 1) (hash key &&& (T.nb - 1)) 0 T.nb
  let e ← T.flags.at x (T.flags.isEmpty x)
  if e then do
    let T ← T.setKey x key
    pure ({ T with flags := T.flags.clearBits 3#32 x, size := T.size + 1, occ := T.occ + 1 }, x, 1)
  else do
    let d ← T.flags.at x (T.flags.isDel x)
    if d then do
      let T ← T.setKey x key
      pure ({ T with flags := T.flags.clearBits 3#32 x, size := T.size + 1 }, x, 2)
    else pure (T, x, 0)

/-! ### The cache -/

/-- `urkel_cache_lookup` (store.c:335-353). The node pointers stored are never NULL. -/
def tableLookup (hash : K → Nat) (T : Kh K V) (key : K) : Res (Option V) := do
  let i ← khGet hash T key
  if i = T.nb then pure none
  else do
    let v ← T.val i
    pure (some v)

/-- `urkel_cache_insert` (store.c:355-379); the flag is its return value. -/
def tableInsert (hash : K → Nat) (T : Kh K V) (key : K) (v : V) : Res (Kh K V × Bool) := do
  let (T, i, ret) ← khPut hash T key
  if ret ≠ 0 then do
    let T ← T.setVal i v
    pure (T, true)
  else pure (T, false)

/-- The nodes freed by `urkel_cache_clear` (store.c:316-333), in this order; `n` buckets
are left, the next is `i`. -/
def tableClear (T : Kh K V) : Nat → Nat → Res (List V)
  | 0, _ => .ok []
  | n + 1, i => do
    let live ← T.live? i
    if live then do
      let v ← T.val i
      let vs ← tableClear T n (i + 1)
      pure (v :: vs)
    else tableClear T n (i + 1)

end

/-! ### murmur3 -/

def rotl32 (x : UInt32) (y : UInt32) : UInt32 := (x <<< y) ||| (x >>> (32 - y))

/-- The loop over whole words (util.c:192-205): the hash so far and the bytes left. -/
def murmurWords : Bytes → UInt32 → UInt32 × Bytes
  | b0 :: b1 :: b2 :: b3 :: rest, h1 =>
    let k1 := UInt32.ofNat (leNat [b0, b1, b2, b3])
    let k1 := k1 * 0xcc9e2d51
    let k1 := rotl32 k1 15
    let k1 := k1 * 0x1b873593
    let h1 := h1 ^^^ k1
    let h1 := rotl32 h1 13
    murmurWords rest (h1 * 5 + 0xe6546b64)
  | rest, h1 => (h1, rest)

/-- `urkel_murmur3` (util.c:182-232). -/
def murmur3 (data : Bytes) (seed : UInt32) : UInt32 :=
  let (h1, rest) := murmurWords data seed
  let h1 := match rest with
    | [] => h1
    | rest => h1 ^^^ (rotl32 (UInt32.ofNat (leNat rest) * 0xcc9e2d51) 15 * 0x1b873593)
  let h1 := h1 ^^^ UInt32.ofNat data.length
  let h1 := h1 ^^^ (h1 >>> 16)
  let h1 := h1 * 0x85ebca6b
  let h1 := h1 ^^^ (h1 >>> 13)
  let h1 := h1 * 0xc2b2ae35
  h1 ^^^ (h1 >>> 16)

/-- `CACHE_HASH` (store.c:35). -/
def cacheHash (h : B32) : Nat := (murmur3 h.bytes 0).toNat

end Urkel
