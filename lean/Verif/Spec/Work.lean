import Verif.Spec.Log
/-
How often a call hashes.

The model's calls are functions of the hash function. A call that evaluates the hash function on the
strings of a list only depends on those values: whatever another hash function answers elsewhere, the
call does the same. So "at most `n` evaluations" is stated as: there are `n` strings such that every
hash function that agrees on them leads to the same result. (An evaluation whose value is thrown away
has no observable effect and is not counted.)
-/
namespace Urkel

/-- What `f` does with the hash function `H` depends on at most `n` of its values, all at strings of
at most `len` bytes. -/
def Asks {α : Type} (H : HashFn) (n len : Nat) (f : HashFn → α) : Prop :=
  ∃ Q : List Bytes, Q.length ≤ n ∧ (∀ q ∈ Q, q.length ≤ len) ∧ ∀ H' : HashFn, (∀ q ∈ Q, H' q = H q) → f H' = f H

/-- The same library with another hash function. -/
def Env.hashing (E : Env) (H : HashFn) : Env := { E with H := H }

/-- Is this call a change made through the transaction `id`? -/
def Op.changes (id : Nat) : Op → Nat
  | .insert i _ _ => if i = id then 1 else 0
  | .remove i _ => if i = id then 1 else 0
  | _ => 0

end Urkel
