import Verif.Spec.Db
import Verif.Spec.Inputs
/-
Specification of a transaction as a finite map, and of what reads return.
-/
namespace Urkel

/-- What `urkel_tx_get` returns for contents `c`. -/
def Contents.read (c : Contents) (k : B32) : Res Bytes :=
  match c k with | some v => .ok v | none => .err .ENOTFOUND

/-- The transaction shows exactly the contents `c`. -/
def Shows (db : Db) (tx : Tx) (c : Contents) : Prop := ∀ k, txGet db tx k = c.read k

/-- Calls on one transaction. -/
inductive TxOp where
  | get (k : B32)
  | has (k : B32)
  | insert (k : B32) (v : Bytes)
  | remove (k : B32)
  | root

/-- Make one call. -/
def callTx (E : Env) (db : Db) (tx : Tx) : TxOp → Res (Tx × Ret)
  | .get k => do
    let r ← catchErr (txGet db tx k)
    pure (tx, .ofBytes r)
  | .has k => do
    let r ← catchErr (txHas db tx k)
    pure (tx, .ofUnit r)
  | .insert k v => do
    let (tx, r) ← txInsert E db tx k v
    pure (tx, .ofUnit r)
  | .remove k => do
    let (tx, r) ← txRemove db tx k
    pure (tx, .ofUnit r)
  | .root => do
    let (tx, h) ← txRoot E tx
    pure (tx, .hash h)

/-- Make a sequence of calls and collect the results. -/
def callsTx (E : Env) (db : Db) : Tx → List TxOp → Res (Tx × List Ret)
  | tx, [] => .ok (tx, [])
  | tx, op :: ops => do
    let (tx, r) ← callTx E db tx op
    let (tx, rs) ← callsTx E db tx ops
    pure (tx, r :: rs)

/-- The same calls on an ordinary map. -/
def MapStep (H : HashFn) (c : Contents) : TxOp → Ret → Contents → Prop
  | .get k, r, c' => r = c.getRet k ∧ c' = c
  | .has k, r, c' => r = c.hasRet k ∧ c' = c
  | .insert k v, r, c' => InsertTo c k v r c'
  | .remove k, r, c' => RemoveTo c k r c'
  | .root, r, c' => ∃ h, IsRoot H c h ∧ r = .hash h ∧ c' = c

def MapRun (H : HashFn) : Contents → List TxOp → List Ret → Contents → Prop
  | c, [], [], c' => c' = c
  | c, op :: ops, r :: rs, c' => ∃ c1, MapStep H c op r c1 ∧ MapRun H c1 ops rs c'
  | _, _, _, _ => False

/-- A collision (or a zero digest) among the strings hashed by two trees with
the given contents. -/
def TreesCollide (H : HashFn) (c c' : Contents) : Prop :=
  ∃ t u : PTree, t.Top ∧ u.Top ∧ t.find = c ∧ u.find = c' ∧ BrokenOn H (t.inputs H ++ u.inputs H)

end Urkel
