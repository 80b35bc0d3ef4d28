import Verif.Spec.Iter
import Verif.Spec.Damage
/-
What an iteration over any database returns, whatever its files contain.
-/
namespace Urkel

/-- What one call of `urkel_iter_next` does: it returns a pair, reports ECORRUPTION, or aborts
the process. -/
inductive Ev where
  | pair (k : B32) (v : Bytes)
  | corrupt
  | abort

/-- The tree below `n` from left to right, when the iterator's stack has room for `room` more
frames: a leaf is a pair, or damage if its value cannot be read; a node that is not in memory is
damage if it cannot be read, and fatal if its record announces a path longer than a key (the
node functions abort); without room for a node the process is aborted. -/
def walk (s : Store) : Nat → Node → List Ev
  | 0, _ => [.abort]
  | _ + 1, .null => []
  | _ + 1, .leaf _ _ k v vp => match storeRetrieve s v vp with | .ok (some x) => [.pair k x] | _ => [.corrupt]
  | room + 1, .internal _ _ _ l r => walk s room l ++ walk s room r
  | room + 1, .hash h p => match storeResolve s h p with
    | .ok (some n) => walk s room n
    | .ok none => [.corrupt]
    | _ => [.abort]

/-- What a call returns that comes to this event; without one the iteration is over. -/
def evAnswer : Option Ev → Except Err (B32 × Bytes)
  | some (.pair k v) => .ok (k, v)
  | some .corrupt => .error .ECORRUPTION
  | _ => .error .EITEREND

/-- Does the event end the process? -/
def Ev.fatal : Ev → Bool
  | .abort => true
  | _ => false

/-- What `m` calls return when the events are `l`: one after the other, then EITEREND for ever,
unless the process was aborted before. -/
def played (l : List Ev) (m : Nat) : Res (List (Except Err (B32 × Bytes))) :=
  if (l.take m).any Ev.fatal then .abort else .ok ((List.range m).map fun i => evAnswer l[i]?)

/-- `Under s n j x`: from the node `n` one comes to `x` in `j` steps, to a side of a branch or
from a node that is not in memory to its record. -/
inductive Under (s : Store) : Node → Nat → Node → Prop
  | here (n : Node) : Under s n 0 n
  | left {h : Option B32} {p : Option Ptr} {pre : Bits} {l r x : Node} {j : Nat} : Under s l j x → Under s (.internal h p pre l r) (j + 1) x
  | right {h : Option B32} {p : Option Ptr} {pre : Bits} {l r x : Node} {j : Nat} : Under s r j x → Under s (.internal h p pre l r) (j + 1) x
  | load {h : B32} {p : Ptr} {n x : Node} {j : Nat} : storeResolve s h p = .ok (some n) → Under s n j x → Under s (.hash h p) (j + 1) x

end Urkel
