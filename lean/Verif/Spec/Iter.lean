import Verif.Spec.Map
import Verif.Spec.Log
import Verif.Model.Iter
/-
What an iteration returns.
-/
namespace Urkel

/-- Call `urkel_iter_next` once in each of the given database states, in turn. -/
def iterCalls : Iter → List Db → Res (List (Except Err (B32 × Bytes)))
  | _, [] => .ok []
  | it, db :: dbs => do
    let (it, r) ← iterNext db it
    let rs ← iterCalls it dbs
    pure (r :: rs)

/-- What `n` calls return when the pairs are `l`: one pair after the other, then
EITEREND for ever. -/
def listing (l : List (B32 × Bytes)) (n : Nat) : List (Except Err (B32 × Bytes)) :=
  (List.range n).map fun i => match l[i]? with | some p => .ok p | none => .error .EITEREND

/-- The system at each call of `urkel_iter_next`: between two calls any allowed
calls are made that do not change, commit or end the transaction `id` (its lock
and the tree lock forbid those while the iterator lives). -/
inductive Amid (E : Env) (id : Nat) : Sys → List Sys → Prop
  | nil (s : Sys) : Amid E id s []
  | cons {s s1 : Sys} {ops : List Op} {ss : List Sys} : Run E s ops s1 →
      (∀ op ∈ ops, ¬ op.Changes id ∧ op ≠ .commit id) → Amid E id s1 ss → Amid E id s (s1 :: ss)

/-- Order of keys: byte by byte, as `memcmp` compares them. -/
def B32.lt (a b : B32) : Prop := a.bytes < b.bytes

/-- `l` lists the contents `c`: every pair, once, in ascending order of the keys. -/
def Lists (l : List (B32 × Bytes)) (c : Contents) : Prop :=
  (∀ k v, (k, v) ∈ l ↔ c k = some v) ∧ l.Pairwise (fun a b => a.1.lt b.1)

/-- Two keys part at bit `d`: the first `d` bits agree, the next one does not. -/
def PartAt (a b : B32) (d : Nat) : Prop := d < 256 ∧ a.bits.take d = b.bits.take d ∧ a.bits[d]? ≠ b.bits[d]?

/-- No key parts from the other keys at more than `n` different positions. -/
def Shallow (n : Nat) (c : Contents) : Prop :=
  ∀ k, c k ≠ none → ∀ ds : List Nat, ds.Nodup → (∀ d ∈ ds, ∃ k', c k' ≠ none ∧ PartAt k k' d) → ds.length ≤ n

end Urkel
