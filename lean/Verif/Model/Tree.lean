import Verif.Model.Store
import Verif.Model.Proof
/-
tree.c: tree operations and the API. `fuel` bounds the recursion depth: every
branch consumes at least one of the 256 key bits and every unloaded node is
loaded once per branch, so `treeFuel` suffices (proved: the operations never run
out of it on a healthy database).
-/
namespace Urkel

def treeFuel : Nat := 600

/-- Child on the side of `bit`: `urkel_node_get` (nodes.c:233-248). -/
def side (l r : Node) (bit : Bool) : Node := if bit then r else l

/-- `urkel_tree_get` (tree.c:78-148). `want = false` is the call with NULL
outputs made by `urkel_tx_has`. -/
def treeGet (s : Store) (key : B32) (want : Bool) : Nat → Node → Nat → Res Bytes
  | 0, _, _ => .ub
  | fuel + 1, node, depth =>
    match node with
    | .null => .err .ENOTFOUND
    | .internal _ _ pre l r => do
      let has ← bitsHas pre key.bytes depth
      if !has then .err .ENOTFOUND
      else do
        let depth := depth + pre.size
        let bit ← getBit key.bytes depth
        treeGet s key want fuel (side l r bit) (depth + 1)
    | .leaf _ _ k v vp =>
      if k ≠ key then .err .ENOTFOUND
      else if want then do
        let r ← storeRetrieve s v vp
        match r with
        | none => .err .ECORRUPTION
        | some x => pure x
      else pure []
    | .hash h p => do
      let r ← storeResolve s h p
      match r with
      | none => .err .ECORRUPTION
      | some rn => treeGet s key want fuel rn depth

/-- `urkel_tree_insert` (tree.c:150-268). Freeing of the replaced nodes is not modelled. -/
def treeInsert (E : Env) (s : Store) (key : B32) (value : Bytes) : Nat → Node → Nat → Res Node
  | 0, _, _ => .ub
  | fuel + 1, node, depth =>
    match node with
    | .null => .ok (createLeaf E.H key value)
    | .internal _ _ pre l r => do
      let bits ← bitsCount pre key.bytes depth
      let depth := depth + bits
      let bit ← getBit key.bytes depth
      if bits ≠ pre.size then do
        let leaf := createLeaf E.H key value
        let (front, back) ← bitsSplit pre bits
        let child := createInternal back l r false
        pure (createInternal front leaf child bit)
      else do
        let z ← treeInsert E s key value fuel (side l r bit) (depth + 1)
        pure (createInternal pre z (side l r (!bit)) bit)
    | .leaf h p k v vp =>
      if k = key then
        if valueEquals v value then .err .ENOUPDATE
        else .ok (createLeaf E.H key value)
      else do
        let pre ← bitsCollide ⟨256, k.bytes⟩ key.bytes depth
        let depth := depth + pre.size
        let leaf := createLeaf E.H key value
        let bit ← getBit key.bytes depth
        pure (createInternal pre leaf (.leaf h p k v vp) bit)
    | .hash h p => do
      let r ← storeResolve s h p
      match r with
      | none => .err .ECORRUPTION
      | some rn => treeInsert E s key value fuel rn depth

/-- `urkel_tree_remove` (tree.c:270-381). A sibling that cannot be loaded fails
`CHECK(side != NULL)` (tree.c:310). -/
def treeRemove (s : Store) (key : B32) : Nat → Node → Nat → Res Node
  | 0, _, _ => .ub
  | fuel + 1, node, depth =>
    match node with
    | .null => .err .ENOTFOUND
    | .internal _ _ pre l r => do
      let has ← bitsHas pre key.bytes depth
      if !has then .err .ENOTFOUND
      else do
        let depth := depth + pre.size
        let bit ← getBit key.bytes depth
        let y := side l r (!bit)
        let z ← treeRemove s key fuel (side l r bit) (depth + 1)
        match z with
        | .null => do
          let sd ← match y with
            | .hash h p => do
              let r ← storeResolve s h p
              match r with
              | none => .abort
              | some n => pure n
            | y => pure y
          match sd with
          | .internal _ _ spre sl sr => do
            let j ← bitsJoin pre spre (!bit)
            pure (createInternal j sl sr false)
          | sd => pure sd
        | z => pure (createInternal pre z y bit)
    | .leaf _ _ k _ _ => if k ≠ key then .err .ENOTFOUND else .ok .null
    | .hash h p => do
      let r ← storeResolve s h p
      match r with
      | none => .err .ECORRUPTION
      | some rn => treeRemove s key fuel rn depth

/-- `urkel_tree_prove` (tree.c:383-477): nodes pushed so far are counted by
`urkel_proof_push`'s CHECK (proof.c:41). Returns the proof below this node (`none`
is ECORRUPTION) and, in both cases, the node with the hashes computed on the way recorded. -/
def treeProve (E : Env) (s : Store) (key : B32) : Nat → Node → Nat → Nat → Res (Option Proof × Node)
  | 0, _, _, _ => .ub
  | fuel + 1, node, depth, pushed =>
    match node with
    | .null => .ok (some ⟨depth, [], .deadend⟩, .null)
    | .internal h p pre l r => do
      let has ← bitsHas pre key.bytes depth
      if !has then do
        let (hl, l) ← nodeHash E.H l
        let (hr, r) ← nodeHash E.H r
        pure (some ⟨depth, [], .short pre hl hr⟩, .internal h p pre l r)
      else do
        let depth := depth + pre.size
        let bit ← getBit key.bytes depth
        let (hy, y) ← nodeHash E.H (side l r (!bit))
        check (pushed < keyBits)
        let (pf, x) ← treeProve E s key fuel (side l r bit) (depth + 1) (pushed + 1)
        pure (pf.map fun pf => { pf with nodes := ⟨pre, hy⟩ :: pf.nodes },
          if bit then .internal h p pre y x else .internal h p pre x y)
    | .leaf h p k v vp => do
      let r ← storeRetrieve s v vp
      match r with
      | none => pure (none, .leaf h p k v vp)
      | some x =>
        if k = key then pure (some ⟨depth, [], .exists x⟩, .leaf h p k v vp)
        else pure (some ⟨depth, [], .collision k (E.H x)⟩, .leaf h p k v vp)
    | .hash h p => do
      let r ← storeResolve s h p
      match r with
      | none => pure (none, .hash h p)
      | some rn => do
        let (pf, _) ← treeProve E s key fuel rn depth pushed
        pure (pf, .hash h p)

/-- The end of both writing cases of `urkel_tree_write` (tree.c:507-519, 529-541):
flush if the buffer is full, then replace the node by its HASH node. -/
def flushAndHash (E : Env) (s : Store) (n : Node) (wrote : Bool) : Res (Store × Option Node) := do
  let (s, ok) ← if wrote && needsFlush E s then storeFlush E s else pure (s, true)
  if !ok then pure (s, none)
  else do
    let (_, n) ← nodeHash E.H n
    let o ← toHash n
    pure (s, some o)

/-- `urkel_tree_write` (tree.c:479-554); `none` is the NULL return after a failed flush. -/
def treeWrite (E : Env) : Node → Store → Res (Store × Option Node)
  | .null, s => .ok (s, some .null)
  | .hash h p, s => .ok (s, some (.hash h p))
  | .internal h p pre l r, s => do
    let (s, l') ← treeWrite E l s
    match l' with
    | none => pure (s, none)
    | some l' => do
      let (s, r') ← treeWrite E r s
      match r' with
      | none => pure (s, none)
      | some r' =>
        match p with
        | some p => flushAndHash E s (.internal h (some p) pre l' r') false
        | none => do
          let (s, n) ← storeWriteNode E s (.internal h none pre l' r')
          flushAndHash E s n true
  | .leaf h p k v vp, s =>
    match p with
    | some p => flushAndHash E s (.leaf h (some p) k v vp) false
    | none => do
      let (s, n) ← storeWriteValue E s (.leaf h none k v vp)
      let (s, n) ← storeWriteNode E s n
      flushAndHash E s n true

/-! ### Database and transactions -/

/-- `urkel_t` (tree.c:22-27) without its lock. -/
structure Db where
  store : Store
  hash : B32
  revert : Bool
deriving DecidableEq

/-- `urkel_tx_t` (tree.c:29-33) without its lock. `none` is a root that has been
freed (after a failed commit, tree.c:560-570): touching it is undefined. -/
structure Tx where
  root : Option Node
deriving DecidableEq

/-- Dereference `tx->root`. -/
def Tx.node (t : Tx) : Res Node := match t.root with | some n => .ok n | none => .ub

/-- `urkel_open` (tree.c:581-602). -/
def dbOpen (E : Env) (d : Dir) (rand : B32) : Res (Dir × Except Err Db) := do
  let (d, r) ← openStore E d rand
  match r with
  | none => pure (d, .error .EBADOPEN)
  | some s => pure (d, .ok ⟨s, rootHash s, false⟩)

/-- The directory left behind by `urkel_close` (tree.c:604-612) or by a crash:
whatever the data files contain. -/
def Db.dir (db : Db) : Dir := ⟨some db.store.key.bytes, db.store.files⟩

/-- `urkel_root` (tree.c:637-644). -/
def dbRoot (db : Db) : B32 := db.hash

/-- `urkel_inject` (tree.c:646-665). -/
def dbInject (E : Env) (db : Db) (h : B32) : Res (Db × Except Err Unit) := do
  let (s, ok) ← hasHistory E db.store h
  if ok then pure ({ db with store := s, hash := h, revert := true }, .ok ())
  else pure ({ db with store := s }, .error .ENOTFOUND)

/-- `urkel_tx_create` (tree.c:831-871). -/
def txCreate (E : Env) (db : Db) (h : Option B32) : Res (Db × Except Err Tx) :=
  match h with
  | some h => do
    let (s, r) ← readHistory E db.store h
    match r with
    | some n => pure ({ db with store := s }, .ok ⟨some n⟩)
    | none => pure ({ db with store := s }, .error .ENOTFOUND)
  | none =>
    if db.revert then do
      let (s, r) ← readHistory E db.store db.hash
      match r with
      | some n => pure ({ db with store := s }, .ok ⟨some n⟩)
      | none => pure ({ db with store := s }, .error .ENOTFOUND)
    else .ok (db, .ok ⟨some db.store.state.rootNode⟩)

/-- `urkel_tx_destroy` (tree.c:873-881). -/
def txDestroy (t : Tx) : Res Unit := do
  let _ ← t.node
  pure ()

/-- `urkel_tx_clear` (tree.c:883-894): always the store's root, whatever `revert` says. -/
def txClear (db : Db) (t : Tx) : Res Tx := do
  let _ ← t.node
  pure ⟨some db.store.state.rootNode⟩

/-- `urkel_tx_root` (tree.c:896-917). -/
def txRoot (E : Env) (t : Tx) : Res (Tx × B32) := do
  let n ← t.node
  let (h, n) ← nodeHash E.H n
  pure (⟨some n⟩, h)

/-- `urkel_tx_inject` (tree.c:919-940). -/
def txInject (E : Env) (db : Db) (t : Tx) (h : B32) : Res (Db × Tx × Except Err Unit) := do
  let (s, r) ← readHistory E db.store h
  match r with
  | some n => do
    let _ ← t.node
    pure ({ db with store := s }, ⟨some n⟩, .ok ())
  | none => pure ({ db with store := s }, t, .error .ENOTFOUND)

/-- `urkel_tx_get` (tree.c:942-961). -/
def txGet (db : Db) (t : Tx) (key : B32) : Res Bytes := do
  let n ← t.node
  treeGet db.store key true treeFuel n 0

/-- `urkel_tx_has` (tree.c:963-976). -/
def txHas (db : Db) (t : Tx) (key : B32) : Res Unit := do
  let n ← t.node
  let _ ← treeGet db.store key false treeFuel n 0
  pure ()

/-- `urkel_tx_insert` (tree.c:978-1002): the new transaction and the return
value; an unchanged pair (ENOUPDATE) counts as success. -/
def txInsert (E : Env) (db : Db) (t : Tx) (key : B32) (value : Bytes) :
    Res (Tx × Except Err Unit) :=
  if value.length > valueSize then .ok (t, .error .EINVAL)
  else do
    let n ← t.node
    match treeInsert E db.store key value treeFuel n 0 with
    | .ok n' => pure (⟨some n'⟩, .ok ())
    | .err .ENOUPDATE => pure (t, .ok ())
    | .err e => pure (t, .error e)
    | .abort => .abort
    | .ub => .ub

/-- `urkel_tx_remove` (tree.c:1004-1020). -/
def txRemove (db : Db) (t : Tx) (key : B32) : Res (Tx × Except Err Unit) := do
  let n ← t.node
  match treeRemove db.store key treeFuel n 0 with
  | .ok n' => pure (⟨some n'⟩, .ok ())
  | .err e => pure (t, .error e)
  | .abort => .abort
  | .ub => .ub

/-- `urkel_tx_prove` (tree.c:1022-1066): the serialized proof. The buffer has
`urkel_proof_size` bytes; writing a different number would overflow it (`ub`) or
leave it partly uninitialised. The hashes computed on the way stay in the nodes, also
after a failure. -/
def txProve (E : Env) (db : Db) (t : Tx) (key : B32) : Res (Tx × Except Err Bytes) := do
  let n ← t.node
  let (r, n) ← treeProve E db.store key treeFuel n 0 0
  match r with
  | none => pure (⟨some n⟩, .error .ECORRUPTION)
  | some pf => do
    let size ← proofSize pf
    let raw ← proofWrite pf
    if raw.length ≠ size then .ub
    else pure (⟨some n⟩, .ok raw)

/-- `urkel_tx_commit` with `urkel_tree_commit` (tree.c:556-575, 1068-1084). -/
def txCommit (E : Env) (db : Db) (t : Tx) : Res (Db × Tx × Except Err Unit) := do
  let n ← t.node
  let (s, r) ← treeWrite E n db.store
  match r with
  | none => pure ({ db with store := s }, ⟨none⟩, .error .EBADWRITE)
  | some root => do
    let (s, ok) ← storeCommit E s root
    if !ok then pure ({ db with store := s }, ⟨none⟩, .error .EBADWRITE)
    else
      pure ({ db with store := s, hash := rootNodeHash root }, ⟨some root⟩, .ok ())

end Urkel
