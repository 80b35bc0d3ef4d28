import Verif.Spec.Log
/-
Calls after which a transaction may no longer know a pair inserted through it.
-/
namespace Urkel

/-- The calls that end what transaction `id` knows about its own insertion of the pair: another
value for the key, its removal, and the calls that replace the whole transaction. -/
def Forgets (id : Nat) (k : B32) (v : Bytes) : Op → Prop
  | .insert i k' v' => i = id ∧ k' = k ∧ v' ≠ v
  | .remove i k' => i = id ∧ k' = k
  | .create i _ | .destroy i | .clear i | .txInject i _ | .commit i => i = id
  | .reopen _ => True
  | _ => False

end Urkel
