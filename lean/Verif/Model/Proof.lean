import Verif.Model.Node
/-
proof.c: Merkle proofs.
-/
namespace Urkel

/-- `urkel_proof_node_t` (proof.h). -/
structure PNode where
  pre : Bits
  hash : B32
deriving DecidableEq

/-- The type-dependent part of `urkel_proof_t` (proof.h:45-57). The C struct has
all fields side by side, zero-initialised; only those of the current type are
ever set, so the sanity checks on the others (proof.c:293-340) hold by
construction of this type. -/
inductive PBody where
  | deadend
  | short (pre : Bits) (left right : B32)
  | collision (key hash : B32)
  | exists (value : Bytes)
deriving DecidableEq

/-- `urkel_proof_t` (proof.h:45-57). -/
structure Proof where
  depth : Nat
  nodes : List PNode
  body : PBody
deriving DecidableEq

/-- Proof type numbers (proof.h:17-20). -/
def PBody.type : PBody → Nat
  | .deadend => 0
  | .short .. => 1
  | .collision .. => 2
  | .exists .. => 3

/-- Node part of `urkel_proof_size` (proof.c:59-66). -/
def proofNodesSize : List PNode → Res Nat
  | [] => .ok 0
  | n :: ns => do
    let a ← if n.pre.size > 0 then bitsSize n.pre else pure 0
    let b ← proofNodesSize ns
    pure (a + 32 + b)

/-- `urkel_proof_size` (proof.c:50-90). -/
def proofSize (p : Proof) : Res Nat := do
  let ns ← proofNodesSize p.nodes
  let base := 2 + 2 + (p.nodes.length + 7) / 8 + ns
  match p.body with
  | .deadend => pure base
  | .short pre _ _ => do
    let b ← bitsSize pre
    pure (base + b + 32 + 32)
  | .collision _ _ => pure (base + 32 + 32)
  | .exists v => pure (base + 2 + v.length)

/-- The node loop of `urkel_proof_write` (proof.c:105-114): sets bit `i` of the
bitmap for each node with a prefix and appends prefix and hash. -/
def proofWriteNodes : List PNode → Nat → Bytes → Res (Bytes × Bytes)
  | [], _, bitmap => .ok (bitmap, [])
  | n :: ns, i, bitmap => do
    let (bitmap, x) ←
      if n.pre.size > 0 then do
        let bm ← setBit bitmap i true
        let x ← bitsWrite n.pre
        pure (bm, x)
      else pure (bitmap, [])
    let (bitmap, rest) ← proofWriteNodes ns (i + 1) bitmap
    pure (bitmap, x ++ n.hash.bytes ++ rest)

/-- `urkel_proof_write` (proof.c:92-138). The padding array has 32 bytes, so a
bitmap of more than 32 bytes would read out of bounds (proof.c:94,103). -/
def proofWrite (p : Proof) : Res Bytes := do
  let count := p.nodes.length
  let bsize := (count + 7) / 8
  let field := (p.body.type <<< 14) ||| p.depth
  if bsize > 32 then .ub
  else do
    let (bitmap, ns) ← proofWriteNodes p.nodes 0 (List.replicate bsize 0)
    let tail ← match p.body with
      | .deadend => pure []
      | .short pre l r => do
        let b ← bitsWrite pre
        pure (b ++ l.bytes ++ r.bytes)
      | .collision k h => pure (k.bytes ++ h.bytes)
      | .exists v => pure (leBytes 2 v.length ++ v)
    pure (leBytes 2 field ++ leBytes 2 count ++ bitmap ++ ns ++ tail)

/-- `urkel_bits_read` followed by the size check and `data += size`
(proof.c:177-185, 206-214). `none` is return value 0. -/
def readPrefix (d : Bytes) : Res (Option (Bits × Bytes)) :=
  match bitsRead d with
  | none => .ok none
  | some b =>
    if b.size = 0 ∨ b.size > keyBits then .ok none
    else do
      let size ← bitsSize b
      let (_, d) ← takeN size d
      pure (some (b, d))

/-- The node loop of `urkel_proof_read` (proof.c:175-198). Arguments: nodes left,
index, the bitmap, nodes pushed so far (`urkel_proof_push` CHECKs fewer than 256),
remaining data. -/
def proofReadNodes (bitmap : Bytes) : Nat → Nat → Bytes → Res (Option (List PNode × Bytes))
  | 0, _, d => .ok (some ([], d))
  | n + 1, i, d => do
    let bit ← getBit bitmap i
    let r ←
      if bit then readPrefix d
      else do
        let b ← bitsInit 0
        pure (some (b, d))
    match r with
    | none => pure none
    | some (pre, d) =>
      if d.length < 32 then pure none
      else do
        let (h, d) ← take32 d
        check (i < keyBits)
        let rest ← proofReadNodes bitmap n (i + 1) d
        match rest with
        | none => pure none
        | some (ns, d) => pure (some (⟨pre, h⟩ :: ns, d))

/-- `urkel_proof_read` (proof.c:140-274); `none` is return value 0. -/
def proofRead (d : Bytes) : Res (Option Proof) :=
  if d.length < 4 then .ok none
  else do
    let (f, d) ← takeN 2 d
    let (c, d) ← takeN 2 d
    let field := leNat f
    let count := leNat c
    let bsize := (count + 7) / 8
    let type := field >>> 14
    let depth := field &&& 0x3fff
    if depth > keyBits then pure none
    else if count > keyBits then pure none
    else if d.length < bsize then pure none
    else do
      let (bitmap, d) ← takeN bsize d
      let r ← proofReadNodes bitmap count 0 d
      match r with
      | none => pure none
      | some (nodes, d) =>
        let fin (body : PBody) (d : Bytes) : Res (Option Proof) :=
          if d.length = 0 then pure (some ⟨depth, nodes, body⟩) else pure none
        match type with
        | 0 => fin .deadend d
        | 1 => do
          let r ← readPrefix d
          match r with
          | none => pure none
          | some (pre, d) =>
            if d.length < 64 then pure none
            else do
              let (l, d) ← take32 d
              let (r, d) ← take32 d
              fin (.short pre l r) d
        | 2 =>
          if d.length < 64 then pure none
          else do
            let (k, d) ← take32 d
            let (h, d) ← take32 d
            fin (.collision k h) d
        | 3 =>
          if d.length < 2 then pure none
          else do
            let (s, d) ← takeN 2 d
            let size := leNat s
            if d.length < size then pure none
            else if size > valueSize then pure none
            else do
              let (v, d) ← takeN size d
              fin (.exists v) d
        | _ => pure none

/-- `urkel_proof_is_sane` (proof.c:276-343). -/
def proofSane (p : Proof) : Bool :=
  decide (p.depth ≤ keyBits) && decide (p.nodes.length ≤ keyBits)
    && p.nodes.all (fun n => decide (n.pre.size ≤ keyBits))
    && (match p.body with
      | .deadend => true
      | .short pre _ _ => pre.size != 0 && decide (pre.size ≤ keyBits)
      | .collision _ _ => true
      | .exists v => decide (v.length ≤ valueSize))

/-- The bottom-up loop of `urkel_proof_verify` (proof.c:391-409); the list holds
the nodes from last to first. -/
def verifyLoop (H : HashFn) (key : B32) : List PNode → Nat → B32 → Res (Nat × B32)
  | [], depth, next => .ok (depth, next)
  | n :: ns, depth, next =>
    if depth < n.pre.size + 1 then .err .ENEGDEPTH
    else do
      let depth := depth - 1
      let bit ← getBit key.bytes depth
      let next := if bit then hashInternal H n.pre n.hash next else hashInternal H n.pre next n.hash
      let depth := depth - n.pre.size
      let has ← bitsHas n.pre key.bytes depth
      if !has then .err .EPATHMISMATCH
      else verifyLoop H key ns depth next

/-- `urkel_proof_verify` (proof.c:345-418). -/
def proofVerify (H : HashFn) (p : Proof) (key root : B32) : Res Unit :=
  if !proofSane p then .err .EINVAL
  else do
    let next ← match p.body with
      | .deadend => pure B32.zero
      | .short pre l r => do
        let has ← bitsHas pre key.bytes p.depth
        if has then .err .ESAMEPATH else pure (hashInternal H pre l r)
      | .collision k h => if k = key then .err .ESAMEKEY else pure (hashLeaf H k h)
      | .exists v => pure (hashValue H key v)
    let (depth, next) ← verifyLoop H key p.nodes.reverse p.depth next
    if depth ≠ 0 then .err .ETOODEEP
    else if next ≠ root then .err .EHASHMISMATCH
    else pure ()

/-- Result of `urkel_verify` (tree.c:770-810): return value with `urkel_errno`,
and the outputs `*exists` and `value[0..*value_len)`. -/
structure VerifyOut where
  ret : Except Err Unit
  exists_ : Bool
  value : Bytes

/-- `urkel_verify` (tree.c:770-810) with a non-NULL root. -/
def urkelVerify (H : HashFn) (raw : Bytes) (key root : B32) : Res VerifyOut := do
  let r ← proofRead raw
  match r with
  | none => pure ⟨.error .EINVAL, false, []⟩
  | some p =>
    match proofVerify H p key root with
    | .ok () => match p.body with
      | .exists v => pure ⟨.ok (), true, v⟩
      | _ => pure ⟨.ok (), false, []⟩
    | .err e => pure ⟨.error e, false, []⟩
    | .abort => .abort
    | .ub => .ub

end Urkel
