import Verif.Model.Tree
/-
tree.c: the one-shot calls, and a step machine for a program that uses one
database with any number of transactions.
-/
namespace Urkel

/-- A call that fails with an `urkel_errno` returns 0 to the caller. -/
def catchErr {α : Type} : Res α → Res (Except Err α)
  | .ok a => .ok (.ok a)
  | .err e => .ok (.error e)
  | .abort => .abort
  | .ub => .ub

/-- `urkel_get` (tree.c:667-686). -/
def urkelGet (E : Env) (db : Db) (key : B32) (root : Option B32) : Res (Db × Except Err Bytes) := do
  let (db, r) ← txCreate E db root
  match r with
  | .error e => pure (db, .error e)
  | .ok tx => do
    let ret ← catchErr (txGet db tx key)
    txDestroy tx
    pure (db, ret)

/-- `urkel_has` (tree.c:688-703). -/
def urkelHas (E : Env) (db : Db) (key : B32) (root : Option B32) : Res (Db × Except Err Unit) := do
  let (db, r) ← txCreate E db root
  match r with
  | .error e => pure (db, .error e)
  | .ok tx => do
    let ret ← catchErr (txHas db tx key)
    txDestroy tx
    pure (db, ret)

/-- `urkel_insert` (tree.c:705-727): after a failed commit the transaction's root
is already freed and `urkel_tx_destroy` frees it again. -/
def urkelInsert (E : Env) (db : Db) (key : B32) (value : Bytes) : Res (Db × Except Err Unit) := do
  let (db, r) ← txCreate E db none
  match r with
  | .error e => pure (db, .error e)
  | .ok tx => do
    let (tx, r) ← txInsert E db tx key value
    match r with
    | .error e => do
      txDestroy tx
      pure (db, .error e)
    | .ok () => do
      let (db, tx, r) ← txCommit E db tx
      txDestroy tx
      pure (db, r)

/-- `urkel_remove` (tree.c:729-748). -/
def urkelRemove (E : Env) (db : Db) (key : B32) : Res (Db × Except Err Unit) := do
  let (db, r) ← txCreate E db none
  match r with
  | .error e => pure (db, .error e)
  | .ok tx => do
    let (tx, r) ← txRemove db tx key
    match r with
    | .error e => do
      txDestroy tx
      pure (db, .error e)
    | .ok () => do
      let (db, tx, r) ← txCommit E db tx
      txDestroy tx
      pure (db, r)

/-- `urkel_prove` (tree.c:750-768). -/
def urkelProve (E : Env) (db : Db) (key : B32) (root : Option B32) : Res (Db × Except Err Bytes) := do
  let (db, r) ← txCreate E db root
  match r with
  | .error e => pure (db, .error e)
  | .ok tx => do
    let (tx, ret) ← txProve E db tx key
    txDestroy tx
    pure (db, ret)

/-- A program's view: one database and its transactions, by handle. -/
structure Sys where
  db : Db
  txs : Nat → Option Tx

/-- The calls of include/urkel.h (iterators are in Model/Iter.lean). `reopen` is
`urkel_close` followed by `urkel_open` of the same directory; all transactions
must be gone by then. -/
inductive Op where
  | root
  | inject (h : B32)
  | create (id : Nat) (h : Option B32)
  | destroy (id : Nat)
  | clear (id : Nat)
  | txRoot (id : Nat)
  | txInject (id : Nat) (h : B32)
  | get (id : Nat) (k : B32)
  | has (id : Nat) (k : B32)
  | insert (id : Nat) (k : B32) (v : Bytes)
  | remove (id : Nat) (k : B32)
  | prove (id : Nat) (k : B32)
  | commit (id : Nat)
  | reopen (rand : B32)
  | get1 (k : B32) (h : Option B32)
  | has1 (k : B32) (h : Option B32)
  | insert1 (k : B32) (v : Bytes)
  | remove1 (k : B32)
  | prove1 (k : B32) (h : Option B32)

/-- What a call returns. -/
inductive Ret where
  | unit
  | fail (e : Err)
  | bytes (b : Bytes)
  | hash (h : B32)
deriving DecidableEq

def Ret.ofUnit : Except Err Unit → Ret
  | .ok () => .unit
  | .error e => .fail e

def Ret.ofBytes : Except Err Bytes → Ret
  | .ok b => .bytes b
  | .error e => .fail e

/-- Using a handle that does not exist is undefined. -/
def Sys.tx (s : Sys) (id : Nat) : Res Tx := match s.txs id with | some t => .ok t | none => .ub

def Sys.setTx (s : Sys) (id : Nat) (t : Option Tx) : Sys :=
  { s with txs := fun i => if i = id then t else s.txs i }

/-- One API call (tree.c:581-1084). -/
def step (E : Env) (s : Sys) : Op → Res (Sys × Ret)
  | .root => .ok (s, .hash (dbRoot s.db))
  | .inject h => do
    let (db, r) ← dbInject E s.db h
    pure ({ s with db := db }, .ofUnit r)
  | .create id h => do
    let (db, r) ← txCreate E s.db h
    match r with
    | .ok t => pure (({ s with db := db } : Sys).setTx id (some t), .unit)
    | .error e => pure ({ s with db := db }, .fail e)
  | .destroy id => do
    let t ← s.tx id
    txDestroy t
    pure (s.setTx id none, .unit)
  | .clear id => do
    let t ← s.tx id
    let t ← txClear s.db t
    pure (s.setTx id (some t), .unit)
  | .txRoot id => do
    let t ← s.tx id
    let (t, h) ← txRoot E t
    pure (s.setTx id (some t), .hash h)
  | .txInject id h => do
    let t ← s.tx id
    let (db, t, r) ← txInject E s.db t h
    pure (({ s with db := db } : Sys).setTx id (some t), .ofUnit r)
  | .get id k => do
    let t ← s.tx id
    let r ← catchErr (txGet s.db t k)
    pure (s, .ofBytes r)
  | .has id k => do
    let t ← s.tx id
    let r ← catchErr (txHas s.db t k)
    pure (s, .ofUnit r)
  | .insert id k v => do
    let t ← s.tx id
    let (t, r) ← txInsert E s.db t k v
    pure (s.setTx id (some t), .ofUnit r)
  | .remove id k => do
    let t ← s.tx id
    let (t, r) ← txRemove s.db t k
    pure (s.setTx id (some t), .ofUnit r)
  | .prove id k => do
    let t ← s.tx id
    let (t, r) ← txProve E s.db t k
    pure (s.setTx id (some t), .ofBytes r)
  | .commit id => do
    let t ← s.tx id
    let (db, t, r) ← txCommit E s.db t
    pure (({ s with db := db } : Sys).setTx id (some t), .ofUnit r)
  | .reopen rand => do
    let (_, r) ← dbOpen E s.db.dir rand
    match r with
    | .ok db => pure (⟨db, fun _ => none⟩, .unit)
    | .error e => .err e
  | .get1 k h => do
    let (db, r) ← urkelGet E s.db k h
    pure ({ s with db := db }, .ofBytes r)
  | .has1 k h => do
    let (db, r) ← urkelHas E s.db k h
    pure ({ s with db := db }, .ofUnit r)
  | .insert1 k v => do
    let (db, r) ← urkelInsert E s.db k v
    pure ({ s with db := db }, .ofUnit r)
  | .remove1 k => do
    let (db, r) ← urkelRemove E s.db k
    pure ({ s with db := db }, .ofUnit r)
  | .prove1 k h => do
    let (db, r) ← urkelProve E s.db k h
    pure ({ s with db := db }, .ofBytes r)

/-- A directory that does not exist yet (or is empty). -/
def Dir.fresh : Dir := ⟨none, []⟩

/-- The program just after the first `urkel_open` of a new directory. -/
def Started (E : Env) (s : Sys) : Prop :=
  ∃ rand d db, dbOpen E Dir.fresh rand = .ok (d, .ok db) ∧ s = ⟨db, fun _ => none⟩

end Urkel
