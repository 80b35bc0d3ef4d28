import Verif.Model.Hash
/-
nodes.c: in-memory nodes and their serialization.
-/
namespace Urkel

/-- `urkel_node_t` (nodes.h:49-71). The flag bits are the `Option`s:
HASHED = `hash` present, WRITTEN = `ptr` present, VALUE = `val` present,
SAVED = `vptr` present. Null nodes are HASHED|WRITTEN with zero hash and pointer
(nodes.c:73-76); HASH nodes are always HASHED, and WRITTEN wherever the library
creates one (nodes.c:226-230, 667-683). -/
inductive Node where
  | null
  | internal (hash : Option B32) (ptr : Option Ptr) (pre : Bits) (left right : Node)
  | leaf (hash : Option B32) (ptr : Option Ptr) (key : B32) (val : Option Bytes) (vptr : Option Ptr)
  | hash (h : B32) (ptr : Ptr)
deriving DecidableEq

/-- `urkel_node_create_leaf` (nodes.c:304-317): stores the value, computes the hash. -/
def createLeaf (H : HashFn) (key : B32) (value : Bytes) : Node :=
  .leaf (some (hashValue H key value)) none key (some value) none

/-- `urkel_node_create_internal` (nodes.c:283-302). -/
def createInternal (pre : Bits) (x y : Node) (bit : Bool) : Node :=
  if bit then .internal none none pre y x else .internal none none pre x y

/-- `urkel_node_hash` (nodes.c:373-421): the hash, and the node with the
computed hashes recorded (HASHED flags). A leaf that is neither hashed nor
holds its value fails `CHECK` (nodes.c:399). -/
def nodeHash (H : HashFn) : Node → Res (B32 × Node)
  | .null => .ok (B32.zero, .null)
  | .hash h p => .ok (h, .hash h p)
  | .internal (some h) p pre l r => .ok (h, .internal (some h) p pre l r)
  | .internal none p pre l r => do
    let (hl, l') ← nodeHash H l
    let (hr, r') ← nodeHash H r
    let h := hashInternal H pre hl hr
    pure (h, .internal (some h) p pre l' r')
  | .leaf (some h) p k v vp => .ok (h, .leaf (some h) p k v vp)
  | .leaf none p k (some v) vp =>
    let h := hashValue H k v
    .ok (h, .leaf (some h) p k (some v) vp)
  | .leaf none _ _ none _ => .abort

/-- Pointer and hash of a child, demanding WRITTEN and HASHED
(nodes.c:561-571). A null child has the zero pointer and hash. -/
def childRef : Node → Res (Ptr × B32)
  | .null => .ok (Ptr.zero, B32.zero)
  | .hash h p => .ok (p, h)
  | .internal h p _ _ _ => match h, p with
    | some h, some p => .ok (p, h)
    | _, _ => .abort
  | .leaf h p _ _ _ => match h, p with
    | some h, some p => .ok (p, h)
    | _, _ => .abort

/-- `urkel_node_write` with `urkel_node_flags` (nodes.c:463-478, 535-600). -/
def nodeWrite : Node → Res Bytes
  | .null => .abort
  | .hash _ _ => .abort
  | .internal _ _ pre l r => do
    let flags := (if pre.size > 0 then 1 else 0) ||| (if pre.size > 255 then 2 else 0)
    let bytes := (pre.size + 7) / 8
    let ty := (flags <<< 4) ||| 1
    let mid : Bytes :=
      if pre.size > 255 then leBytes 2 pre.size ++ pre.data.take bytes
      else if pre.size > 0 then leBytes 1 pre.size ++ pre.data.take bytes
      else []
    let (pl, hl) ← childRef l
    let (pr, hr) ← childRef r
    pure (leBytes 1 ty ++ mid ++ ptrWrite pl ++ hl.bytes ++ ptrWrite pr ++ hr.bytes)
  | .leaf _ _ key _ vptr => match vptr with
    | none => .abort
    | some vp => .ok (leBytes 1 2 ++ ptrWrite vp ++ key.bytes)

/-- `urkel_node_size` (nodes.c:480-533). -/
def nodeSize : Node → Res Nat
  | .null => .abort
  | .hash _ _ => .abort
  | .internal _ _ pre _ _ =>
    let bytes := (pre.size + 7) / 8
    .ok (1 + (if pre.size > 255 then 2 + bytes else if pre.size > 0 then 1 + bytes else 0)
      + 7 + 32 + 7 + 32)
  | .leaf _ _ _ _ _ => .ok (1 + 7 + 32)

/-- The children part of `urkel_node_read` (nodes.c:664-688). -/
def nodeReadChildren (pre : Bits) (d : Bytes) : Res (Option Node) :=
  if d.length < 2 * (7 + 32) then .ok none
  else do
    let (pl, d) ← ptrRead d
    let (hl, d) ← take32 d
    let (pr, d) ← ptrRead d
    let (hr, _) ← take32 d
    pure (some (.internal none none pre (.hash hl pl) (.hash hr pr)))

/-- `urkel_node_read` (nodes.c:602-720); `none` is return value 0. The pointer
and WRITTEN flag are set by the caller (store.c:568-569). `urkel_bits_init`
aborts for a prefix size above 256 (nodes.c:656). -/
def nodeRead (d : Bytes) : Res (Option Node) :=
  if d.length < 1 then .ok none
  else do
    let (t, d) ← takeN 1 d
    let ty := leNat t
    if ty &&& 15 == 1 then
      let flags := ty >>> 4
      if flags &&& 1 != 0 then
        if d.length < 2 then pure none
        else if flags &&& 2 != 0 then do
          let (s, d) ← takeN 2 d
          let size := leNat s
          if size < 0x100 then pure none
          else
            let bytes := (size + 7) / 8
            if d.length < bytes then pure none
            else do
              let b ← bitsInit size
              let (x, d) ← takeN bytes d
              nodeReadChildren { b with data := x ++ b.data.drop bytes } d
        else do
          let (s, d) ← takeN 1 d
          let size := leNat s
          if size == 0 then pure none
          else
            let bytes := (size + 7) / 8
            if d.length < bytes then pure none
            else do
              let b ← bitsInit size
              let (x, d) ← takeN bytes d
              nodeReadChildren { b with data := x ++ b.data.drop bytes } d
      else do
        let b ← bitsInit 0
        nodeReadChildren b d
    else if ty &&& 15 == 2 then
      if d.length < 7 + 32 then pure none
      else do
        let (vp, d) ← ptrRead d
        let (key, _) ← take32 d
        pure (some (.leaf none none key none (some vp)))
    else pure none

/-- `urkel_node_mark` (nodes.c:168-179): parameters `uint16_t index, uint32_t pos, uint8_t size`. -/
def markPtr (index pos size : Nat) : Ptr := ⟨index % 2^16, pos % 2^32, size % 2^8⟩

/-- `urkel_node_save` (nodes.c:200-214): also `uint8_t size`, although values
have up to 1023 bytes. -/
def savePtr (index pos size : Nat) : Ptr := ⟨index % 2^16, pos % 2^32, size % 2^8⟩

/-- `urkel_node_to_hash` (nodes.c:216-231): CHECKs HASHED and WRITTEN; the copy
of the pointer goes through `urkel_node_mark`. -/
def toHash : Node → Res Node
  | .null => .ok .null
  | .hash h p => .ok (.hash h (markPtr p.index p.pos p.size))
  | .internal h p _ _ _ => match h, p with
    | some h, some p => .ok (.hash h (markPtr p.index p.pos p.size))
    | _, _ => .abort
  | .leaf h p _ _ _ => match h, p with
    | some h, some p => .ok (.hash h (markPtr p.index p.pos p.size))
    | _, _ => .abort

/-- `urkel_node_value_equals` (nodes.c:443-461) on a leaf. -/
def valueEquals (val : Option Bytes) (value : Bytes) : Bool :=
  match val with
  | none => false
  | some v => v.length == value.length && v == value

end Urkel
