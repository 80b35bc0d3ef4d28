import Verif.Model.Heap
import Verif.Model.Iter
/-
Iterators (tree.c:812-825, 1087-1285) with the memory they use, as in Model/Heap.lean.
-/
namespace Urkel

/-- `urkel_state_t` (tree.c:35-40): the node is an address. `child` is the C field plus one
as in Model/Iter.lean. -/
structure HFrame where
  node : Nat
  depth : Nat
  resolved : Bool
  child : Nat

/-- `tree_iter_t` (tree.c:42-52): `obj` is the address of its block, which has to be
allocated whenever the iterator is used; the fields are kept here. The top of the stack is
the head of the list. -/
structure HIter where
  obj : Nat
  lock : Nat
  tx : Nat
  root : Nat
  node : Option Nat
  stack : List HFrame
  done : Bool
  transient : Bool

/-- `urkel_iter_create` (tree.c:1090-1108). -/
def hIterCreate (A : Alloc) (t : Nat) : HM HIter := do
  let obj ← malloc A .raw
  let lock ← malloc A .raw
  let (root, _) ← loadTx t
  pure ⟨obj, lock, t, root, none, [], false, false⟩

/-- Freeing the resolved nodes of the stack, from the bottom up (tree.c:1116-1121). -/
def hIterFrames : List HFrame → HM Unit
  | [] => pure ()
  | f :: fs => do
    hIterFrames fs
    if f.resolved then hDestroy f.node else pure ()

/-- `urkel_iter_destroy` (tree.c:1110-1132). -/
def hIterDestroy (it : HIter) : HM Unit := do
  let _ ← load it.obj
  let _ ← load it.lock
  hIterFrames it.stack
  let _ ← loadTx it.tx
  if it.transient then hTxDestroy it.tx else pure ()
  free it.lock
  free it.obj

/-- `urkel_iterate` (tree.c:812-825). -/
def hIterate (A : Alloc) (E : Env) (db : Db) (h : Option B32) : HM (Db × Except Err HIter) := do
  let (db, r) ← hTxCreate A E db h
  match r with
  | .error e => pure (db, .error e)
  | .ok t => do
    let it ← hIterCreate A t
    pure (db, .ok { it with transient := true })

/-- `urkel_iter_push` (tree.c:1134-1149). -/
def hIterPush (it : HIter) (node depth : Nat) (resolved : Bool) : Res HIter := do
  check (it.stack.length < keyBits)
  pure { it with stack := ⟨node, depth, resolved, 0⟩ :: it.stack }

/-- The loop of `urkel_iter_seek` (tree.c:1188-1246). -/
def hSeekLoop (A : Alloc) (s : Store) : Nat → HIter → HM (HIter × Except Err Unit)
  | 0, _ => HM.ub
  | fuel + 1, it =>
    match it.stack with
    | [] => HM.lift .abort
    | f :: rest => do
      match ← load f.node with
      | .null => pure ({ it with node := some f.node }, .ok ())
      | .internal _ _ pre l r =>
        if f.child ≥ 2 then pure (it, .ok ())
        else do
          let it ← HM.lift (hIterPush { it with stack := { f with child := f.child + 1 } :: rest }
            (if f.child + 1 = 2 then r else l) (f.depth + pre.size + 1) false)
          hSeekLoop A s fuel it
      | .leaf _ _ _ _ _ => pure ({ it with node := some f.node }, .ok ())
      | .hash _ _ =>
        if f.child ≥ 1 then pure (it, .ok ())
        else do
          match ← hResolve A s f.node with
          | none => pure ({ it with stack := { f with child := f.child + 1 } :: rest }, .error .ECORRUPTION)
          | some rn => do
            let it ← HM.lift (hIterPush { it with stack := { f with child := f.child + 1 } :: rest } rn f.depth true)
            hSeekLoop A s fuel it
      | _ => HM.ub

/-- `urkel_iter_seek` (tree.c:1163-1247). -/
def hIterSeek (A : Alloc) (s : Store) (it : HIter) : HM (HIter × Except Err Unit) :=
  if it.done then pure ({ it with node := none }, .error .EITEREND)
  else
    match it.stack with
    | [] => do
      let it ← HM.lift (hIterPush { it with node := none } it.root 0 false)
      hSeekLoop A s iterFuel it
    | f :: rest => do
      if f.resolved then hDestroy f.node else pure ()
      if rest.isEmpty then pure ({ it with node := none, stack := rest, done := true }, .error .EITEREND)
      else hSeekLoop A s iterFuel { it with node := none, stack := rest }

/-- The loop of `urkel_iter_next` (tree.c:1260-1275). -/
def hNextLoop (A : Alloc) (s : Store) : Nat → HIter → HM (HIter × Except Err (B32 × Bytes))
  | 0, _ => HM.ub
  | fuel + 1, it => do
    let (it, r) ← hIterSeek A s it
    match r with
    | .error e => pure (it, .error e)
    | .ok () =>
      match it.node with
      | none => hNextLoop A s fuel it
      | some a => do
        match ← load a with
        | .leaf _ _ k _ _ => do
          match ← hRetrieve s a with
          | none => pure (it, .error .ECORRUPTION)
          | some x => pure (it, .ok (k, x))
        | _ => hNextLoop A s fuel it

/-- `urkel_iter_next` (tree.c:1249-1285) with non-NULL outputs. -/
def hIterNext (A : Alloc) (db : Db) (it : HIter) : HM (HIter × Except Err (B32 × Bytes)) := do
  let _ ← load it.obj
  let _ ← load it.lock
  hNextLoop A db.store iterFuel it

/-- Calling `urkel_iter_next` once in each of the given database states, in turn. -/
def hIterCalls (A : Alloc) : HIter → List Db → HM (HIter × List (Except Err (B32 × Bytes)))
  | it, [] => pure (it, [])
  | it, db :: dbs => do
    let (it, x) ← hIterNext A db it
    let (it, xs) ← hIterCalls A it dbs
    pure (it, x :: xs)

end Urkel
