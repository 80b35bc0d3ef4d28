import Verif.Model.Tree
/-
tree.c:1087-1285: iterators.
-/
namespace Urkel

/-- `urkel_state_t` (tree.c:35-40). `child` is the C field plus one
(-1, 0, 1 become 0, 1, 2). -/
structure Frame where
  node : Node
  depth : Nat
  resolved : Bool
  child : Nat

/-- `tree_iter_t` (tree.c:42-52) without its lock. The top of the stack is the
head of the list; `stack_len` is its length. -/
structure Iter where
  root : Node
  node : Option Node
  stack : List Frame
  done : Bool

/-- `urkel_iter_create` (tree.c:1090-1108). -/
def iterCreate (tx : Tx) : Res Iter := do
  let n ← tx.node
  pure ⟨n, none, [], false⟩

/-- `urkel_iterate` (tree.c:812-825): a transaction and its iterator. -/
def urkelIterate (E : Env) (db : Db) (h : Option B32) : Res (Db × Except Err Iter) := do
  let (db, r) ← txCreate E db h
  match r with
  | .error e => pure (db, .error e)
  | .ok tx => do
    let it ← iterCreate tx
    pure (db, .ok it)

/-- `urkel_iter_push` (tree.c:1134-1149): the stack holds KEY_BITS frames. -/
def iterPush (it : Iter) (node : Node) (depth : Nat) (resolved : Bool) : Res Iter := do
  check (it.stack.length < keyBits)
  pure { it with stack := ⟨node, depth, resolved, 0⟩ :: it.stack }

/-- The loop of `urkel_iter_seek` (tree.c:1188-1246). Every round but the last one
pushes a frame, and the stack holds 256, so `iterFuel` rounds are enough. -/
def seekLoop (s : Store) : Nat → Iter → Res (Iter × Except Err Unit)
  | 0, _ => .ub
  | fuel + 1, it =>
    match it.stack with
    | [] => .abort
    | f :: rest =>
      match f.node with
      | .null => .ok ({ it with node := some .null }, .ok ())
      | .internal _ _ pre l r =>
        if f.child ≥ 2 then .ok (it, .ok ())
        else do
          let it := { it with stack := { f with child := f.child + 1 } :: rest }
          let it ← iterPush it (if f.child + 1 = 2 then r else l) (f.depth + pre.size + 1) false
          seekLoop s fuel it
      | .leaf h p k v vp => .ok ({ it with node := some (.leaf h p k v vp) }, .ok ())
      | .hash h p =>
        if f.child ≥ 1 then .ok (it, .ok ())
        else do
          let it := { it with stack := { f with child := f.child + 1 } :: rest }
          let r ← storeResolve s h p
          match r with
          | none => pure (it, .error .ECORRUPTION)
          | some rn => do
            let it ← iterPush it rn f.depth true
            seekLoop s fuel it

def iterFuel : Nat := 600

/-- `urkel_iter_seek` (tree.c:1163-1247). -/
def iterSeek (s : Store) (it : Iter) : Res (Iter × Except Err Unit) :=
  let it := { it with node := none }
  if it.done then .ok (it, .error .EITEREND)
  else
    match it.stack with
    | [] => do
      let it ← iterPush it it.root 0 false
      seekLoop s iterFuel it
    | _ :: rest =>
      let it := { it with stack := rest }
      if rest.isEmpty then .ok ({ it with done := true }, .error .EITEREND)
      else seekLoop s iterFuel it

/-- The loop of `urkel_iter_next` (tree.c:1258-1275). A round without a leaf
removes a frame, so `iterFuel` rounds are enough. -/
def nextLoop (s : Store) : Nat → Iter → Res (Iter × Except Err (B32 × Bytes))
  | 0, _ => .ub
  | fuel + 1, it => do
    let (it, r) ← iterSeek s it
    match r with
    | .error e => pure (it, .error e)
    | .ok () =>
      match it.node with
      | some (.leaf _ _ k v vp) => do
        let r ← storeRetrieve s v vp
        match r with
        | none => pure (it, .error .ECORRUPTION)
        | some x => pure (it, .ok (k, x))
      | _ => nextLoop s fuel it

/-- `urkel_iter_next` (tree.c:1249-1285) with non-NULL outputs: the new iterator
and the pair, or the error. -/
def iterNext (db : Db) (it : Iter) : Res (Iter × Except Err (B32 × Bytes)) :=
  nextLoop db.store iterFuel it

end Urkel
