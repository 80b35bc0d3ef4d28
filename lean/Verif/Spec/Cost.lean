import Verif.Spec.Log
/-
What calls cost in bytes written.
-/
namespace Urkel

/-- The most that one change made through a transaction adds to what its commit writes: every
branch on the way of a key has at most 113 bytes and there are at most 257 new ones (one for each
key bit, and one that was split); an insertion also writes a leaf (40 bytes) and the value. -/
def Op.weight (id : Nat) : Op → Nat
  | .insert i _ v => if i = id then 257 * 113 + 40 + v.length else 0
  | .remove i _ => if i = id then 257 * 113 else 0
  | _ => 0

end Urkel
