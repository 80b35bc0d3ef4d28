import Verif.Spec.BitSeq
/-
Specification of an urkel tree: a binary radix tree over the bits of the keys,
with compressed paths, its contents and its Merkle hash.
-/
namespace Urkel

/-- A hash function with 32-byte output (BLAKE2b-256 in the library). -/
abbrev HashFn := Bytes → B32

/-- Contents of a snapshot. -/
abbrev Contents := B32 → Option Bytes

/-- `Contents` after setting one key. -/
def Contents.set (c : Contents) (k : B32) (v : Option Bytes) : Contents :=
  fun k' => if k' = k then v else c k'

/-- Radix tree: empty, a single key/value pair, or a branch below a common path `pre`. -/
inductive PTree where
  | null
  | leaf (key : B32) (value : Bytes)
  | node (pre : List Bool) (left right : PTree)
deriving DecidableEq

namespace PTree

/-- Contents of a tree: the value at the leaf carrying the key, wherever it is. -/
def find : PTree → Contents
  | null, _ => none
  | leaf k v, k' => if k' = k then some v else none
  | node _ l r, k' => (l.find k').or (r.find k')

/-- Every key/value pair, left to right. -/
def entries : PTree → List (B32 × Bytes)
  | null => []
  | leaf k v => [(k, v)]
  | node _ l r => l.entries ++ r.entries

/-- `WF p t`: `t` is a non-empty, path-compressed radix tree located at path `p`:
every key below starts with the path leading to it and every branch has two
non-empty sides. -/
def WF : List Bool → PTree → Prop
  | _, null => False
  | p, leaf k _ => p <+: k.bits
  | p, node pre l r => WF (p ++ pre ++ [false]) l ∧ WF (p ++ pre ++ [true]) r

/-- A whole tree: empty or well-formed at the root. -/
def Top (t : PTree) : Prop := t = null ∨ WF [] t

/-- Merkle hash (doc/tree.md): empty = zeros, leaf = H(0 ‖ key ‖ H(value)),
branch = H(1 ‖ left ‖ right) or, with a non-empty path,
H(2 ‖ le16 length ‖ packed path ‖ left ‖ right). -/
def hash (H : HashFn) : PTree → B32
  | null => B32.zero
  | leaf k v => H ([0] ++ k.bytes ++ (H v).bytes)
  | node [] l r => H ([1] ++ (l.hash H).bytes ++ (r.hash H).bytes)
  | node (b :: pre) l r =>
    H ([2] ++ [UInt8.ofNat ((b :: pre).length % 256), UInt8.ofNat ((b :: pre).length / 256)]
      ++ pack (b :: pre) ++ (l.hash H).bytes ++ (r.hash H).bytes)

/-- All stored values have at most `n` bytes. -/
def ValsLe (n : Nat) : PTree → Prop
  | null => True
  | leaf _ v => v.length ≤ n
  | node _ l r => l.ValsLe n ∧ r.ValsLe n

/-- Number of branches on the longest path. -/
def height : PTree → Nat
  | null => 0
  | leaf _ _ => 0
  | node _ l r => max l.height r.height + 1

end PTree

/-- Evidence of a broken hash function among the given strings: two different
strings of the list with the same digest, or one whose digest is the all-zero
digest reserved for empty trees. (Some collision always exists somewhere, since
digests are finite; only one between *given* strings says anything.) -/
def BrokenOn (H : HashFn) (S : List Bytes) : Prop :=
  (∃ x ∈ S, ∃ y ∈ S, x ≠ y ∧ H x = H y) ∨ (∃ x ∈ S, H x = B32.zero)

/-- Every string that is hashed when computing the Merkle hash of a tree: the
values and the encodings of leaves and branches. -/
def PTree.inputs (H : HashFn) : PTree → List Bytes
  | .null => []
  | .leaf k v => [v, [0] ++ k.bytes ++ (H v).bytes]
  | .node [] l r => ([1] ++ (l.hash H).bytes ++ (r.hash H).bytes) :: (l.inputs H ++ r.inputs H)
  | .node (b :: pre) l r =>
    ([2] ++ [UInt8.ofNat ((b :: pre).length % 256), UInt8.ofNat ((b :: pre).length / 256)]
      ++ pack (b :: pre) ++ (l.hash H).bytes ++ (r.hash H).bytes) :: (l.inputs H ++ r.inputs H)

end Urkel
