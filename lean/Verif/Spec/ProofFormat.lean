import Verif.Spec.Format
/-
Proofs, byte by byte: what is in them, when they prove something, and the proof of a key in a tree. Nothing here uses the model's
readers and writers.
-/
namespace Urkel

/-- Bits on the way from the root, as a proof has them: how many, and the bytes that hold them, the highest bit of each byte first.
(The bits of the last byte that are not needed may be anything; they take part in the hash.) -/
structure Stretch where
  count : Nat
  bytes : Bytes

def Stretch.ok (w : Stretch) : Prop := w.count ≤ 256 ∧ w.bytes.length = (w.count + 7) / 8
def Stretch.bits (w : Stretch) : List Bool := (bitsOf w.bytes).take w.count

/-- The number in one byte, or from 128 on in two, of which the first is the higher one and has its highest bit set; the bytes. -/
def Stretch.encode (w : Stretch) : Bytes :=
  (if w.count < 128 then num 1 w.count else num 1 (128 + w.count / 256) ++ num 1 (w.count % 256)) ++ w.bytes

/-- The hash of a branch. -/
def Stretch.hash (H : HashFn) (w : Stretch) (l r : B32) : B32 :=
  if w.count = 0 then H ([1] ++ l.bytes ++ r.bytes) else H ([2] ++ num 2 w.count ++ w.bytes ++ l.bytes ++ r.bytes)

/-- What the key leads to: nothing (an empty tree); a branch whose bits are others than those of the key; another key, of which the proof
has the hash of the value; the key, with its value. -/
inductive Ending where
  | nothing
  | branch (w : Stretch) (l r : B32)
  | other (k : B32) (vh : B32)
  | value (v : Bytes)

def Ending.number : Ending → Nat
  | .nothing => 0
  | .branch _ _ _ => 1
  | .other _ _ => 2
  | .value _ => 3

def Ending.encode : Ending → Bytes
  | .nothing => []
  | .branch w l r => w.encode ++ l.bytes ++ r.bytes
  | .other k vh => k.bytes ++ vh.bytes
  | .value v => num 2 v.length ++ v

def Ending.ok : Ending → Prop
  | .branch w _ _ => w.ok ∧ w.count ≠ 0
  | .value v => v.length ≤ 1023
  | _ => True

/-- It is not the key's place, if the proof is to say that the key is not there. -/
def Ending.fits (key : B32) (depth : Nat) : Ending → Prop
  | .branch w _ _ => ¬ w.bits <+: key.bits.drop depth
  | .other k _ => k ≠ key
  | _ => True

def Ending.hash (H : HashFn) (key : B32) : Ending → B32
  | .nothing => ⟨List.replicate 32 0, by simp⟩
  | .branch w l r => w.hash H l r
  | .other k vh => H ([0] ++ k.bytes ++ vh.bytes)
  | .value v => H ([0] ++ key.bytes ++ (H v).bytes)

/-- What it says about the key: its value, or that there is none. -/
def Ending.answer : Ending → Option Bytes
  | .value v => some v
  | _ => none

/-- A proof: the branches on the way, from the root on, each with its bits and the hash of the child that the key does not lead to; how
many bits of the key have been used then; and what is there. -/
structure Paper where
  depth : Nat
  steps : List (Stretch × B32)
  ending : Ending

def Paper.ok (p : Paper) : Prop := p.depth ≤ 256 ∧ p.steps.length ≤ 256 ∧ (∀ s ∈ p.steps, s.1.ok) ∧ p.ending.ok

/-- Which branches have bits. -/
def Paper.flags (p : Paper) : List Bool := p.steps.map fun s => decide (s.1.count ≠ 0)

/-- The bytes: kind and depth in two bytes, the number of branches in two, a bit for each branch whether it has bits (`map`), the branches with their
bits if they have any, the ending. -/
def Paper.encode (p : Paper) (map : Bytes) : Bytes :=
  num 2 (16384 * p.ending.number + p.depth) ++ num 2 p.steps.length ++ map ++
    p.steps.flatMap (fun s => (if s.1.count = 0 then [] else s.1.encode) ++ s.2.bytes) ++ p.ending.encode

/-- The bytes are those of the proof; the bits of `map` that are not needed may be anything. -/
def Paper.Reads (p : Paper) (raw : Bytes) : Prop :=
  p.ok ∧ ∃ map : Bytes, map.length = (p.steps.length + 7) / 8 ∧ (bitsOf map).take p.steps.length = p.flags ∧ raw = p.encode map

/-- The key leads through the branches, from its bit `d` to its bit `e`: after the bits of a branch one more bit of the key selects the child. -/
def LeadsTo (key : B32) : List (Stretch × B32) → Nat → Nat → Prop
  | [], d, e => d = e
  | s :: more, d, e => s.1.bits <+: key.bits.drop d ∧ LeadsTo key more (d + s.1.count + 1) e

/-- The hash that the branches give at the top if the lowest child has the hash `h`. -/
def hashUp (H : HashFn) (key : B32) : List (Stretch × B32) → Nat → B32 → B32
  | [], _, h => h
  | s :: more, d, h =>
    let sub := hashUp H key more (d + s.1.count + 1) h
    if key.bits.getD (d + s.1.count) false then s.1.hash H s.2 sub else s.1.hash H sub s.2

/-- The proof proves what it says about the key, for trees with this root. -/
def Paper.Proves (H : HashFn) (p : Paper) (key root : B32) : Prop :=
  p.ending.fits key p.depth ∧ LeadsTo key p.steps 0 p.depth ∧ hashUp H key p.steps 0 (p.ending.hash H key) = root

/-- The proof of a key in a tree. -/
def honest (H : HashFn) (key : B32) : PTree → Nat → Paper
  | .null, d => ⟨d, [], .nothing⟩
  | .leaf k v, d => ⟨d, [], if k = key then .value v else .other k (H v)⟩
  | .node pre l r, d =>
    if pre <+: key.bits.drop d then
      if key.bits.getD (d + pre.length) false then
        let p := honest H key r (d + pre.length + 1)
        { p with steps := (⟨pre.length, pack pre⟩, l.hash H) :: p.steps }
      else
        let p := honest H key l (d + pre.length + 1)
        { p with steps := (⟨pre.length, pack pre⟩, r.hash H) :: p.steps }
    else ⟨d, [], .branch ⟨pre.length, pack pre⟩ (l.hash H) (r.hash H)⟩

end Urkel
