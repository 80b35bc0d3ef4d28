import Verif.Spec.Quiet
/-
What a lookup answers on files that may be damaged.
-/
namespace Urkel

/-- The value of a leaf: it is in memory, or it is read from the files. -/
def ValueIs (s : Store) (v : Option Bytes) (vp : Option Ptr) (x : Bytes) : Prop :=
  v = some x ∨ v = none ∧ ∃ p, vp = some p ∧ p.size ≤ 1023 ∧ storeRead s p.size p.index p.pos = some x

/-- On the way of the key there is its leaf, with the value `x`. -/
def Finds (s : Store) (key : B32) (n : Node) (x : Bytes) : Prop :=
  ∃ h p v vp d, Way s key n 0 (.leaf h p key v vp) d ∧ ValueIs s v vp x

/-- On the way of the key there is its leaf. -/
def FindsKey (s : Store) (key : B32) (n : Node) : Prop := ∃ h p v vp d, Way s key n 0 (.leaf h p key v vp) d

/-- On the way of the key there is a node that cannot be read. -/
def Lost (s : Store) (key : B32) (n : Node) : Prop := ∃ h p d, Way s key n 0 (.hash h p) d ∧ storeResolve s h p = .ok none

/-- On the way of the key there is its leaf, but the value cannot be read. -/
def LostValue (s : Store) (key : B32) (n : Node) : Prop :=
  ∃ h p v vp d, Way s key n 0 (.leaf h p key v vp) d ∧ ∀ x, ¬ ValueIs s v vp x

/-- On the way of the key there is a leaf, its own or that of another key, but the value cannot
be read. -/
def LostLeaf (s : Store) (key : B32) (n : Node) : Prop :=
  ∃ h p k v vp d, Way s key n 0 (.leaf h p k v vp) d ∧ ∀ x, ¬ ValueIs s v vp x

/-- The way of the key ends: there is nothing, a leaf of another key, or a branch whose path
does not agree with the key. -/
def Ends (s : Store) (key : B32) (n : Node) : Prop :=
  ∃ d, Way s key n 0 .null d ∨ (∃ h p k v vp, k ≠ key ∧ Way s key n 0 (.leaf h p k v vp) d) ∨
    ∃ h p pre l r, ¬ pre.path <+: key.bits.drop d ∧ Way s key n 0 (.internal h p pre l r) d

/-- The call `op` gives the answer `a`. -/
def Gives (E : Env) (s : Sys) (op : Op) (a : Answer) : Prop :=
  match step E s op with
  | .ok (_, r) => a = .ret r
  | .abort => a = .aborts
  | .ub => a = .undefined
  | .err e => a = .refused e

/-- The unused bits after the path are zero. -/
def Bits.Clean (b : Bits) : Prop := ∀ i, b.size ≤ i → i < 256 → (bitsOf b.data)[i]? = some false

/-- The key `k'` has its leaf right on the other side of the last branch above the leaf of `key`. -/
def Neighbour (s : Store) (key : B32) (n : Node) (d : Nat) (k' : B32) : Prop :=
  ∃ pre y d', LastBranch s key n d pre y d' ∧ ∃ h p v vp, Way s k' y d' (.leaf h p k' v vp) d'

end Urkel
