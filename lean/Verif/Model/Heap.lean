import Verif.Model.Api
/-
The same functions as in Model/Tree.lean and Model/Api.lean, with the memory they
allocate: nodes, values, transactions, locks and proof nodes are blocks of a heap,
pointers are addresses, nodes are changed in place, and every block is freed where the C
code frees it. Using an address that is not allocated is undefined behaviour (`ub`), so
is freeing it. The memory of the store itself (`data_store_t`, its buffer, file table and
cache) is not part of this heap.
-/
namespace Urkel

/-- What a block holds: `urkel_node_t` of each type (nodes.h:49-71, flags as in
Model/Node.lean), the bytes of a value or of a serialized proof, `urkel_tx_t`
(tree.c:29-33) with its lock, `urkel_proof_node_t` (proof.h:37-40), and blocks whose
contents do not matter here (`urkel_t`, locks, iterators, memory not yet written).
Descriptors, mappings and directory streams are for Model/Resource.lean only. -/
inductive Cell where
  | null
  | internal (hash : Option B32) (ptr : Option Ptr) (pre : Bits) (left right : Nat)
  | leaf (hash : Option B32) (ptr : Option Ptr) (key : B32) (val : Option Nat) (vptr : Option Ptr)
  | hash (h : B32) (ptr : Ptr)
  | bytes (b : Bytes)
  | tx (root lock : Nat)
  | pnode (n : PNode)
  | raw
  | fd
  | mapping
  | dir
deriving DecidableEq

/-- The allocated blocks. -/
abbrev Heap := List (Nat × Cell)

/-- An allocator: any function that picks an address not in use, for any heap. Running
out of memory kills the process in `checked_malloc` (internal.h:141-148) and is not
modelled. -/
structure Alloc where
  pick : Heap → Nat
  fresh : ∀ h : Heap, h.lookup (pick h) = none

/-- A computation on the heap. -/
def HM (α : Type) : Type := Heap → Res (α × Heap)

instance : Monad HM where
  pure a := fun h => .ok (a, h)
  bind m k := fun h => match m h with
    | .ok (a, h) => k a h
    | .err e => .err e
    | .abort => .abort
    | .ub => .ub

/-- Computations that do not use the heap. -/
def HM.lift {α : Type} (r : Res α) : HM α := fun h => match r with
  | .ok a => .ok (a, h)
  | .err e => .err e
  | .abort => .abort
  | .ub => .ub

def HM.ub {α : Type} : HM α := fun _ => .ub

/-- `malloc`, with the first thing written to the block. -/
def malloc (A : Alloc) (c : Cell) : HM Nat := fun h => .ok (A.pick h, (A.pick h, c) :: h)

/-- `free`. -/
def free (a : Nat) : HM Unit := fun h => match h.lookup a with
  | none => .ub
  | some _ => .ok ((), h.filter fun e => e.1 != a)

/-- Reading a block. -/
def load (a : Nat) : HM Cell := fun h => match h.lookup a with
  | none => .ub
  | some c => .ok (c, h)

/-- Changing a block. -/
def update (a : Nat) (f : Cell → Cell) : HM Unit := fun h => match h.lookup a with
  | none => .ub
  | some c => .ok ((), (a, f c) :: h.filter fun e => e.1 != a)

/-- Assignments to fields. -/
def Cell.setHash (h : B32) : Cell → Cell
  | .internal _ p pre l r => .internal (some h) p pre l r
  | .leaf _ p k v vp => .leaf (some h) p k v vp
  | c => c

def Cell.setPtr (p : Ptr) : Cell → Cell
  | .internal h _ pre l r => .internal h (some p) pre l r
  | .leaf h _ k v vp => .leaf h (some p) k v vp
  | c => c

def Cell.setVptr (vp : Ptr) : Cell → Cell
  | .leaf h p k v _ => .leaf h p k v (some vp)
  | c => c

def Cell.setVal (x : Nat) : Cell → Cell
  | .leaf h p k _ vp => .leaf h p k (some x) vp
  | c => c

def Cell.setLeft (x : Nat) : Cell → Cell
  | .internal h p pre _ r => .internal h p pre x r
  | c => c

def Cell.setRight (x : Nat) : Cell → Cell
  | .internal h p pre l _ => .internal h p pre l x
  | c => c

def Cell.setRoot (x : Nat) : Cell → Cell
  | .tx _ l => .tx x l
  | c => c

/-! ### nodes.c -/

/-- `urkel_node_destroy(node, 0)` (nodes.c:329-370). -/
def hFree (a : Nat) : HM Unit := do
  match ← load a with
  | .null | .internal .. | .hash .. => free a
  | .leaf _ _ _ (some x) _ => do
    free x
    free a
  | .leaf _ _ _ none _ => free a
  | _ => HM.ub

/-- `urkel_node_destroy(node, 1)` (nodes.c:329-370). The recursion of C has no bound;
here it has `fuel`. -/
def hDestroyLoop : Nat → Nat → HM Unit
  | 0, _ => HM.ub
  | fuel + 1, a => do
    match ← load a with
    | .internal _ _ _ l r => do
      hDestroyLoop fuel l
      hDestroyLoop fuel r
      free a
    | _ => hFree a

/-- `urkel_node_destroy(node, 1)`: a tree cannot be deeper than the heap is large. -/
def hDestroy (a : Nat) : HM Unit := fun h => hDestroyLoop (h.length + 1) a h

/-- The bytes of a value. -/
def loadBytes (x : Nat) : HM Bytes := do
  match ← load x with
  | .bytes b => pure b
  | _ => HM.ub

/-- The value of a leaf, if it has one (`leaf->value`). -/
def loadValue : Option Nat → HM (Option Bytes)
  | none => pure none
  | some x => do
    let b ← loadBytes x
    pure (some b)

/-- `urkel_node_hash` (nodes.c:372-421), with `fuel` as above. -/
def hHashLoop (H : HashFn) : Nat → Nat → HM B32
  | 0, _ => HM.ub
  | fuel + 1, a => do
    match ← load a with
    | .null => pure B32.zero
    | .hash h _ => pure h
    | .internal (some h) _ _ _ _ => pure h
    | .leaf (some h) _ _ _ _ => pure h
    | .internal none _ pre l r => do
      let hl ← hHashLoop H fuel l
      let hr ← hHashLoop H fuel r
      update a (Cell.setHash (hashInternal H pre hl hr))
      pure (hashInternal H pre hl hr)
    | .leaf none _ k (some x) _ => do
      let v ← loadBytes x
      update a (Cell.setHash (hashValue H k v))
      pure (hashValue H k v)
    | .leaf none _ _ none _ => HM.lift .abort
    | _ => HM.ub

def hHash (H : HashFn) (a : Nat) : HM B32 := fun h => hHashLoop H (h.length + 1) a h

/-- `urkel_node_create_leaf` (nodes.c:304-317) with `urkel_node_store` (nodes.c:181-198). -/
def hCreateLeaf (A : Alloc) (H : HashFn) (key : B32) (value : Bytes) : HM Nat := do
  let a ← malloc A (.leaf none none key none none)
  let x ← malloc A (.bytes value)
  update a (Cell.setVal x)
  let _ ← hHash H a
  pure a

/-- `urkel_node_create_internal` (nodes.c:283-302). -/
def hCreateInternal (A : Alloc) (pre : Bits) (x y : Nat) (bit : Bool) : HM Nat :=
  malloc A (if bit then .internal none none pre y x else .internal none none pre x y)

/-- A node as the functions that serialize it see it: its own fields and, for a branch,
those of its children. -/
def hPeek1 (a : Nat) : HM Node := do
  match ← load a with
  | .null => pure .null
  | .hash h p => pure (.hash h p)
  | .leaf h p k none vp => pure (.leaf h p k none vp)
  | .leaf h p k (some x) vp => do
    let v ← loadBytes x
    pure (.leaf h p k (some v) vp)
  | .internal h p pre _ _ => pure (.internal h p pre .null .null)
  | _ => HM.ub

def hPeek (a : Nat) : HM Node := do
  match ← load a with
  | .internal h p pre l r => do
    let l ← hPeek1 l
    let r ← hPeek1 r
    pure (.internal h p pre l r)
  | _ => hPeek1 a

/-- `urkel_node_to_hash` (nodes.c:216-231) into the block `out`. -/
def hToHash (a out : Nat) : HM Unit := do
  let n ← hPeek1 a
  let o ← HM.lift (toHash n)
  match o with
  | .hash h p => update out fun _ => .hash h p
  | .null => update out fun _ => .null
  | _ => HM.ub

/-! ### store.c -/

/-- `urkel_store_retrieve` (store.c:623-655). -/
def hRetrieve (s : Store) (a : Nat) : HM (Option Bytes) := do
  match ← hPeek1 a with
  | .leaf _ _ _ v vp => HM.lift (storeRetrieve s v vp)
  | _ => HM.lift .abort

/-- `urkel_store_resolve` (store.c:657-671) with the blocks that `urkel_node_read`
allocates for the children (nodes.c:664-688). -/
def hResolve (A : Alloc) (s : Store) (a : Nat) : HM (Option Nat) := do
  let out ← malloc A .raw
  match ← load a with
  | .hash h p => do
    match ← HM.lift (storeResolve s h p) with
    | none => do
      free out
      pure none
    | some (.internal hs p pre (.hash hl pl) (.hash hr pr)) => do
      let l ← malloc A (.hash hl pl)
      let r ← malloc A (.hash hr pr)
      update out fun _ => .internal hs p pre l r
      pure (some out)
    | some (.leaf hs p k none vp) => do
      update out fun _ => .leaf hs p k none vp
      pure (some out)
    | some _ => HM.ub
  | _ => HM.lift .abort

/-- A new block with a copy of a root node: `urkel_store_get_root` (store.c:609-616) and
the success of `urkel_store_get_history` (store.c:876-886). Root nodes have no children. -/
def hCopy (A : Alloc) : Node → HM Nat
  | .null => malloc A .null
  | .hash h p => malloc A (.hash h p)
  | _ => HM.ub

/-- `urkel_store_write_node` (store.c:673-690). -/
def hWriteNode (E : Env) (s : Store) (a : Nat) : HM Store := do
  let n ← hPeek a
  let (s, n) ← HM.lift (storeWriteNode E s n)
  match n with
  | .internal _ (some p) _ _ _ | .leaf _ (some p) _ _ _ => do
    update a (Cell.setPtr p)
    pure s
  | _ => HM.ub

/-- `urkel_store_write_value` (store.c:692-707). -/
def hWriteValue (E : Env) (s : Store) (a : Nat) : HM Store := do
  let n ← hPeek1 a
  let (s, n) ← HM.lift (storeWriteValue E s n)
  match n with
  | .leaf _ _ _ _ (some vp) => do
    update a (Cell.setVptr vp)
    pure s
  | _ => HM.ub

/-! ### tree.c -/

/-- `urkel_tree_get` (tree.c:78-148). -/
def hGet (A : Alloc) (s : Store) (key : B32) (want : Bool) : Nat → Nat → Nat → HM (Except Err Bytes)
  | 0, _, _ => HM.ub
  | fuel + 1, a, depth => do
    match ← load a with
    | .null => pure (.error .ENOTFOUND)
    | .internal _ _ pre l r => do
      let has ← HM.lift (bitsHas pre key.bytes depth)
      if !has then pure (.error .ENOTFOUND)
      else do
        let bit ← HM.lift (getBit key.bytes (depth + pre.size))
        hGet A s key want fuel (if bit then r else l) (depth + pre.size + 1)
    | .leaf _ _ k _ _ =>
      if k ≠ key then pure (.error .ENOTFOUND)
      else if want then do
        match ← hRetrieve s a with
        | none => pure (.error .ECORRUPTION)
        | some x => pure (.ok x)
      else pure (.ok [])
    | .hash _ _ => do
      match ← hResolve A s a with
      | none => pure (.error .ECORRUPTION)
      | some rn => do
        let ret ← hGet A s key want fuel rn depth
        hDestroy rn
        pure ret
    | _ => HM.ub

/-- `urkel_tree_insert` (tree.c:150-268). -/
def hInsert (A : Alloc) (E : Env) (s : Store) (key : B32) (value : Bytes) : Nat → Nat → Nat → HM (Except Err Nat)
  | 0, _, _ => HM.ub
  | fuel + 1, a, depth => do
    match ← load a with
    | .null => do
      hFree a
      let leaf ← hCreateLeaf A E.H key value
      pure (.ok leaf)
    | .internal _ _ pre l r => do
      let bits ← HM.lift (bitsCount pre key.bytes depth)
      let bit ← HM.lift (getBit key.bytes (depth + bits))
      if bits ≠ pre.size then do
        let leaf ← hCreateLeaf A E.H key value
        let (front, back) ← HM.lift (bitsSplit pre bits)
        let child ← hCreateInternal A back l r false
        let out ← hCreateInternal A front leaf child bit
        hFree a
        pure (.ok out)
      else do
        match ← hInsert A E s key value fuel (if bit then r else l) (depth + bits + 1) with
        | .error e => pure (.error e)
        | .ok z => do
          let out ← hCreateInternal A pre z (if bit then l else r) bit
          hFree a
          pure (.ok out)
    | .leaf _ _ k v _ =>
      if k = key then do
        let old ← loadValue v
        if valueEquals old value then pure (.error .ENOUPDATE)
        else do
          let leaf ← hCreateLeaf A E.H key value
          hFree a
          pure (.ok leaf)
      else do
        let pre ← HM.lift (bitsCollide ⟨256, k.bytes⟩ key.bytes depth)
        let leaf ← hCreateLeaf A E.H key value
        let bit ← HM.lift (getBit key.bytes (depth + pre.size))
        let out ← hCreateInternal A pre leaf a bit
        pure (.ok out)
    | .hash _ _ => do
      match ← hResolve A s a with
      | none => pure (.error .ECORRUPTION)
      | some rn => do
        match ← hInsert A E s key value fuel rn depth with
        | .ok z => do
          hFree a
          pure (.ok z)
        | .error e => do
          hDestroy rn
          pure (.error e)
    | _ => HM.ub

/-- The sibling `y`, loaded if it is not in memory (tree.c:305-313). -/
def hSibling (A : Alloc) (s : Store) (y : Nat) : HM (Nat × Bool) := do
  match ← load y with
  | .hash _ _ => do
    match ← hResolve A s y with
    | none => HM.lift .abort
    | some n => pure (n, true)
  | _ => pure (y, false)

/-- The sibling with the longer prefix if it is a branch (tree.c:315-326). -/
def hMerge (A : Alloc) (side : Nat) (pre : Bits) (bit : Bool) : HM Nat := do
  match ← load side with
  | .internal _ _ spre sl sr => do
    let j ← HM.lift (bitsJoin pre spre (!bit))
    let out ← hCreateInternal A j sl sr false
    hFree side
    pure out
  | _ => pure side

/-- The sibling `y` takes the place of the branch `a` (tree.c:304-336), whose other child
was removed and left the null node `z`. -/
def hCollapse (A : Alloc) (s : Store) (a y z : Nat) (pre : Bits) (bit : Bool) : HM Nat := do
  let (side, resolved) ← hSibling A s y
  let out ← hMerge A side pre bit
  hFree a
  if resolved then do
    hFree y
    hFree z
    pure out
  else do
    hFree z
    pure out

/-- `urkel_tree_remove` (tree.c:270-381). -/
def hRemove (A : Alloc) (s : Store) (key : B32) : Nat → Nat → Nat → HM (Except Err Nat)
  | 0, _, _ => HM.ub
  | fuel + 1, a, depth => do
    match ← load a with
    | .null => pure (.error .ENOTFOUND)
    | .internal _ _ pre l r => do
      let has ← HM.lift (bitsHas pre key.bytes depth)
      if !has then pure (.error .ENOTFOUND)
      else do
        let bit ← HM.lift (getBit key.bytes (depth + pre.size))
        match ← hRemove A s key fuel (if bit then r else l) (depth + pre.size + 1) with
        | .error e => pure (.error e)
        | .ok z => do
          match ← load z with
          | .null => do
            let out ← hCollapse A s a (if bit then l else r) z pre bit
            pure (.ok out)
          | _ => do
            let out ← hCreateInternal A pre z (if bit then l else r) bit
            hFree a
            pure (.ok out)
    | .leaf _ _ k _ _ =>
      if k ≠ key then pure (.error .ENOTFOUND)
      else do
        hFree a
        let n ← malloc A .null
        pure (.ok n)
    | .hash _ _ => do
      match ← hResolve A s a with
      | none => pure (.error .ECORRUPTION)
      | some rn => do
        match ← hRemove A s key fuel rn depth with
        | .ok z => do
          hFree a
          pure (.ok z)
        | .error e => do
          hDestroy rn
          pure (.error e)
    | _ => HM.ub

/-- `urkel_tree_prove` (tree.c:383-477): the proof nodes allocated by `urkel_proof_push`
(proof.c:34-48), which belong to the proof even if the call fails, and depth and body. -/
def hProve (A : Alloc) (E : Env) (s : Store) (key : B32) : Nat → Nat → Nat → Nat → HM (List Nat × Except Err (Nat × PBody))
  | 0, _, _, _ => HM.ub
  | fuel + 1, a, depth, pushed => do
    match ← load a with
    | .null => pure ([], .ok (depth, .deadend))
    | .internal _ _ pre l r => do
      let has ← HM.lift (bitsHas pre key.bytes depth)
      if !has then do
        let hl ← hHash E.H l
        let hr ← hHash E.H r
        pure ([], .ok (depth, .short pre hl hr))
      else do
        let bit ← HM.lift (getBit key.bytes (depth + pre.size))
        let hy ← hHash E.H (if bit then l else r)
        let n ← malloc A (.pnode ⟨pre, hy⟩)
        HM.lift (check (pushed < keyBits))
        let (ns, ret) ← hProve A E s key fuel (if bit then r else l) (depth + pre.size + 1) (pushed + 1)
        pure (n :: ns, ret)
    | .leaf _ _ k _ _ => do
      match ← hRetrieve s a with
      | none => pure ([], .error .ECORRUPTION)
      | some x => pure ([], .ok (depth, if k = key then .exists x else .collision k (E.H x)))
    | .hash _ _ => do
      match ← hResolve A s a with
      | none => pure ([], .error .ECORRUPTION)
      | some rn => do
        let ret ← hProve A E s key fuel rn depth pushed
        hDestroy rn
        pure ret
    | _ => HM.ub

/-- The end of the writing cases of `urkel_tree_write` (tree.c:507-519, 529-541). -/
def hFinish (A : Alloc) (E : Env) (s : Store) (a : Nat) (wrote : Bool) : HM (Store × Option Nat) := do
  let (s, ok) ← HM.lift (if wrote && needsFlush E s then storeFlush E s else pure (s, true))
  if !ok then pure (s, none)
  else do
    let out ← malloc A .raw
    let _ ← hHash E.H a
    hToHash a out
    hDestroy a
    pure (s, some out)

/-- `urkel_tree_write` (tree.c:479-554), with `fuel` as above. -/
def hWriteLoop (A : Alloc) (E : Env) : Nat → Nat → Store → HM (Store × Option Nat)
  | 0, _, _ => HM.ub
  | fuel + 1, a, s => do
    match ← load a with
    | .null => pure (s, some a)
    | .hash _ _ => pure (s, some a)
    | .internal _ p _ l r => do
      let (s, l') ← hWriteLoop A E fuel l s
      match l' with
      | none => pure (s, none)
      | some l' => do
        update a (Cell.setLeft l')
        let (s, r') ← hWriteLoop A E fuel r s
        match r' with
        | none => pure (s, none)
        | some r' => do
          update a (Cell.setRight r')
          match p with
          | some _ => hFinish A E s a false
          | none => do
            let s ← hWriteNode E s a
            hFinish A E s a true
    | .leaf _ p _ _ _ =>
      match p with
      | some _ => hFinish A E s a false
      | none => do
        let s ← hWriteValue E s a
        let s ← hWriteNode E s a
        hFinish A E s a true
    | _ => HM.ub

def hWrite (A : Alloc) (E : Env) (a : Nat) (s : Store) : HM (Store × Option Nat) :=
  fun h => hWriteLoop A E (h.length + 1) a s h

/-- `urkel_tree_commit` (tree.c:556-575): the new root, or nothing. -/
def hTreeCommit (A : Alloc) (E : Env) (db : Db) (a : Nat) : HM (Db × Option Nat) := do
  let (s, r) ← hWrite A E a db.store
  match r with
  | none => do
    hDestroy a
    pure ({ db with store := s }, none)
  | some root => do
    let n ← hPeek1 root
    let (s, ok) ← HM.lift (storeCommit E s n)
    if !ok then do
      hFree root
      pure ({ db with store := s }, none)
    else pure ({ db with store := s, hash := rootNodeHash n }, some root)

/-! ### Transactions: a handle is the address of its `urkel_tx_t` -/

/-- `tx->root` and `tx->lock`. -/
def loadTx (t : Nat) : HM (Nat × Nat) := do
  match ← load t with
  | .tx root lock => pure (root, lock)
  | _ => HM.ub

/-- The rest of `urkel_tx_create` (tree.c:855-866) when there is no such root. -/
def hCreateFail (A : Alloc) (t : Nat) : HM Unit := do
  let lock ← malloc A .raw
  free lock
  free t

/-- The rest of `urkel_tx_create` (tree.c:855) when there is one. -/
def hCreateDone (A : Alloc) (t root : Nat) : HM Nat := do
  let lock ← malloc A .raw
  update t fun _ => .tx root lock
  pure t

/-- `urkel_store_get_history` (store.c:876-886). -/
def hGetHistory (A : Alloc) (E : Env) (s : Store) (h : B32) : HM (Store × Option Nat) := do
  let out ← malloc A .raw
  let (s, r) ← HM.lift (readHistory E s h)
  match r with
  | none => do
    free out
    pure (s, none)
  | some .null => do
    update out fun _ => .null
    pure (s, some out)
  | some (.hash h p) => do
    update out fun _ => .hash h p
    pure (s, some out)
  | some _ => HM.ub

/-- `urkel_tx_create` (tree.c:831-871). -/
def hTxCreate (A : Alloc) (E : Env) (db : Db) (h : Option B32) : HM (Db × Except Err Nat) := do
  let t ← malloc A .raw
  match (match h with | some h => some h | none => if db.revert then some db.hash else none) with
  | some h => do
    let (s, r) ← hGetHistory A E db.store h
    match r with
    | none => do
      hCreateFail A t
      pure ({ db with store := s }, .error .ENOTFOUND)
    | some root => do
      let t ← hCreateDone A t root
      pure ({ db with store := s }, .ok t)
  | none => do
    let root ← hCopy A db.store.state.rootNode
    let t ← hCreateDone A t root
    pure (db, .ok t)

/-- `urkel_tx_destroy` (tree.c:873-881). -/
def hTxDestroy (t : Nat) : HM Unit := do
  let (root, lock) ← loadTx t
  hDestroy root
  free lock
  free t

/-- `urkel_tx_clear` (tree.c:883-894). -/
def hTxClear (A : Alloc) (db : Db) (t : Nat) : HM Unit := do
  let (root, _) ← loadTx t
  hDestroy root
  let root ← hCopy A db.store.state.rootNode
  update t (Cell.setRoot root)

/-- `urkel_tx_root` (tree.c:896-917). -/
def hTxRoot (E : Env) (t : Nat) : HM B32 := do
  let (root, _) ← loadTx t
  hHash E.H root

/-- `urkel_tx_inject` (tree.c:919-940). -/
def hTxInject (A : Alloc) (E : Env) (db : Db) (t : Nat) (h : B32) : HM (Db × Except Err Unit) := do
  let (root, _) ← loadTx t
  let (s, r) ← hGetHistory A E db.store h
  match r with
  | none => pure ({ db with store := s }, .error .ENOTFOUND)
  | some new => do
    hDestroy root
    update t (Cell.setRoot new)
    pure ({ db with store := s }, .ok ())

/-- `urkel_tx_get` (tree.c:942-961). -/
def hTxGet (A : Alloc) (db : Db) (t : Nat) (key : B32) : HM (Except Err Bytes) := do
  let (root, _) ← loadTx t
  hGet A db.store key true treeFuel root 0

/-- `urkel_tx_has` (tree.c:963-976). -/
def hTxHas (A : Alloc) (db : Db) (t : Nat) (key : B32) : HM (Except Err Unit) := do
  let (root, _) ← loadTx t
  match ← hGet A db.store key false treeFuel root 0 with
  | .ok _ => pure (.ok ())
  | .error e => pure (.error e)

/-- `urkel_tx_insert` (tree.c:978-1002). -/
def hTxInsert (A : Alloc) (E : Env) (db : Db) (t : Nat) (key : B32) (value : Bytes) : HM (Except Err Unit) :=
  if value.length > valueSize then pure (.error .EINVAL)
  else do
    let (root, _) ← loadTx t
    match ← hInsert A E db.store key value treeFuel root 0 with
    | .ok root => do
      update t (Cell.setRoot root)
      pure (.ok ())
    | .error .ENOUPDATE => pure (.ok ())
    | .error e => pure (.error e)

/-- `urkel_tx_remove` (tree.c:1004-1020). -/
def hTxRemove (A : Alloc) (db : Db) (t : Nat) (key : B32) : HM (Except Err Unit) := do
  let (root, _) ← loadTx t
  match ← hRemove A db.store key treeFuel root 0 with
  | .ok root => do
    update t (Cell.setRoot root)
    pure (.ok ())
  | .error e => pure (.error e)

/-- Reading the nodes of a proof. -/
def loadProof : List Nat → HM (List PNode)
  | [] => pure []
  | a :: as => do
    match ← load a with
    | .pnode n => do
      let ns ← loadProof as
      pure (n :: ns)
    | _ => HM.ub

/-- `urkel_proof_clear` (proof.c:24-32). -/
def hProofClear : List Nat → HM Unit
  | [] => pure ()
  | a :: as => do
    free a
    hProofClear as

/-- `urkel_tx_prove` (tree.c:1022-1066): the address of the serialized proof, which
belongs to the caller. -/
def hTxProve (A : Alloc) (E : Env) (db : Db) (t : Nat) (key : B32) : HM (Except Err Nat) := do
  let (root, _) ← loadTx t
  let (as, r) ← hProve A E db.store key treeFuel root 0 0
  match r with
  | .error e => do
    hProofClear as
    pure (.error e)
  | .ok (depth, body) => do
    let ns ← loadProof as
    let size ← HM.lift (proofSize ⟨depth, ns, body⟩)
    let raw ← HM.lift (proofWrite ⟨depth, ns, body⟩)
    if raw.length ≠ size then HM.ub
    else do
      let out ← malloc A (.bytes raw)
      hProofClear as
      pure (.ok out)

/-- `urkel_tx_commit` (tree.c:1068-1084): after a failure `tx->root` is what it was. -/
def hTxCommit (A : Alloc) (E : Env) (db : Db) (t : Nat) : HM (Db × Except Err Unit) := do
  let (root, _) ← loadTx t
  let (db, r) ← hTreeCommit A E db root
  match r with
  | none => pure (db, .error .EBADWRITE)
  | some root => do
    update t (Cell.setRoot root)
    pure (db, .ok ())

/-! ### One-shot calls -/

/-- `urkel_get` (tree.c:667-686). -/
def hUrkelGet (A : Alloc) (E : Env) (db : Db) (key : B32) (root : Option B32) : HM (Db × Except Err Bytes) := do
  let (db, r) ← hTxCreate A E db root
  match r with
  | .error e => pure (db, .error e)
  | .ok t => do
    let ret ← hTxGet A db t key
    hTxDestroy t
    pure (db, ret)

/-- `urkel_has` (tree.c:688-703). -/
def hUrkelHas (A : Alloc) (E : Env) (db : Db) (key : B32) (root : Option B32) : HM (Db × Except Err Unit) := do
  let (db, r) ← hTxCreate A E db root
  match r with
  | .error e => pure (db, .error e)
  | .ok t => do
    let ret ← hTxHas A db t key
    hTxDestroy t
    pure (db, ret)

/-- `urkel_insert` (tree.c:705-727). -/
def hUrkelInsert (A : Alloc) (E : Env) (db : Db) (key : B32) (value : Bytes) : HM (Db × Except Err Unit) := do
  let (db, r) ← hTxCreate A E db none
  match r with
  | .error e => pure (db, .error e)
  | .ok t => do
    match ← hTxInsert A E db t key value with
    | .error e => do
      hTxDestroy t
      pure (db, .error e)
    | .ok () => do
      let (db, r) ← hTxCommit A E db t
      hTxDestroy t
      pure (db, r)

/-- `urkel_remove` (tree.c:729-748). -/
def hUrkelRemove (A : Alloc) (E : Env) (db : Db) (key : B32) : HM (Db × Except Err Unit) := do
  let (db, r) ← hTxCreate A E db none
  match r with
  | .error e => pure (db, .error e)
  | .ok t => do
    match ← hTxRemove A db t key with
    | .error e => do
      hTxDestroy t
      pure (db, .error e)
    | .ok () => do
      let (db, r) ← hTxCommit A E db t
      hTxDestroy t
      pure (db, r)

/-- `urkel_prove` (tree.c:750-768). -/
def hUrkelProve (A : Alloc) (E : Env) (db : Db) (key : B32) (root : Option B32) : HM (Db × Except Err Nat) := do
  let (db, r) ← hTxCreate A E db root
  match r with
  | .error e => pure (db, .error e)
  | .ok t => do
    let ret ← hTxProve A E db t key
    hTxDestroy t
    pure (db, ret)

/-! ### Verifying -/

/-- The loop of `urkel_proof_read` (proof.c:176-201) with `urkel_proof_push`
(proof.c:34-47): the nodes pushed, and the rest of the input unless it returns 0. -/
def hProofReadNodes (A : Alloc) (bitmap : Bytes) : Nat → Nat → Bytes → HM (List Nat × Option Bytes)
  | 0, _, d => pure ([], some d)
  | n + 1, i, d => do
    let bit ← HM.lift (getBit bitmap i)
    let r ← HM.lift (if bit then readPrefix d else do
      let b ← bitsInit 0
      pure (some (b, d)))
    match r with
    | none => pure ([], none)
    | some (pre, d) =>
      if d.length < 32 then pure ([], none)
      else do
        let (h, d) ← HM.lift (take32 d)
        let _ ← HM.lift (check (i < keyBits))
        let a ← malloc A (.pnode ⟨pre, h⟩)
        let (as, r) ← hProofReadNodes A bitmap n (i + 1) d
        pure (a :: as, r)

/-- The switch of `urkel_proof_read` (proof.c:203-273). -/
def proofReadBody (type : Nat) (d : Bytes) : Res (Option PBody) :=
  let fin (body : PBody) (d : Bytes) : Res (Option PBody) :=
    if d.length = 0 then pure (some body) else pure none
  match type with
  | 0 => fin .deadend d
  | 1 => do
    let r ← readPrefix d
    match r with
    | none => pure none
    | some (pre, d) =>
      if d.length < 64 then pure none
      else do
        let (l, d) ← take32 d
        let (r, d) ← take32 d
        fin (.short pre l r) d
  | 2 =>
    if d.length < 64 then pure none
    else do
      let (k, d) ← take32 d
      let (h, d) ← take32 d
      fin (.collision k h) d
  | 3 =>
    if d.length < 2 then pure none
    else do
      let (s, d) ← takeN 2 d
      let size := leNat s
      if d.length < size then pure none
      else if size > valueSize then pure none
      else do
        let (v, d) ← takeN size d
        fin (.exists v) d
  | _ => pure none

/-- `urkel_proof_read` (proof.c:140-274): the nodes of the proof, and its depth and body
unless it returns 0. The nodes pushed before returning 0 stay allocated. -/
def hProofRead (A : Alloc) (d : Bytes) : HM (List Nat × Option (Nat × PBody)) :=
  if d.length < 4 then pure ([], none)
  else do
    let (f, d) ← HM.lift (takeN 2 d)
    let (c, d) ← HM.lift (takeN 2 d)
    let field := leNat f
    let count := leNat c
    let bsize := (count + 7) / 8
    let type := field >>> 14
    let depth := field &&& 0x3fff
    if depth > keyBits then pure ([], none)
    else if count > keyBits then pure ([], none)
    else if d.length < bsize then pure ([], none)
    else do
      let (bitmap, d) ← HM.lift (takeN bsize d)
      let (as, r) ← hProofReadNodes A bitmap count 0 d
      match r with
      | none => pure (as, none)
      | some d => do
        let b ← HM.lift (proofReadBody type d)
        match b with
        | none => pure (as, none)
        | some body => pure (as, some (depth, body))

/-- What `urkel_verify` writes to its outputs (tree.c:798-806). -/
def verifyOut (body : PBody) : Except Err Unit → VerifyOut
  | .ok () => match body with
    | .exists v => ⟨.ok (), true, v⟩
    | _ => ⟨.ok (), false, []⟩
  | .error e => ⟨.error e, false, []⟩

/-- `urkel_verify` (tree.c:770-810) with a non-NULL root. -/
def hVerify (A : Alloc) (H : HashFn) (raw : Bytes) (key root : B32) : HM VerifyOut := do
  let (as, r) ← hProofRead A raw
  match r with
  | none => pure ⟨.error .EINVAL, false, []⟩
  | some (depth, body) => do
    let ns ← loadProof as
    let ret ← HM.lift (catchErr (proofVerify H ⟨depth, ns, body⟩ key root))
    hProofClear as
    pure (verifyOut body ret)

/-! ### A program with one database -/

/-- The database, the addresses of `urkel_t` and of its lock, and the transaction
handles. -/
structure HSys where
  db : Db
  obj : Nat
  lock : Nat
  txs : Nat → Option Nat

def HSys.tx (s : HSys) (id : Nat) : HM Nat := match s.txs id with | some t => pure t | none => HM.ub

def HSys.setTx (s : HSys) (id : Nat) (t : Option Nat) : HSys :=
  { s with txs := fun i => if i = id then t else s.txs i }

/-- What the caller gets to see of a proof; it releases the buffer with `urkel_free`
(tree.c:1291-1296) when done. -/
def hTakeProof : Except Err Nat → HM Ret
  | .error e => pure (.fail e)
  | .ok a => do
    let b ← loadBytes a
    free a
    pure (.bytes b)

/-- `urkel_open` (tree.c:581-602): the block of `urkel_t` stays allocated if opening
fails. -/
def hOpen (A : Alloc) (E : Env) (d : Dir) (rand : B32) : HM (Dir × Except Err HSys) := do
  let obj ← malloc A .raw
  let (d, r) ← HM.lift (dbOpen E d rand)
  match r with
  | .error e => pure (d, .error e)
  | .ok db => do
    let lock ← malloc A .raw
    pure (d, .ok ⟨db, obj, lock, fun _ => none⟩)

/-- `urkel_close` (tree.c:604-612). -/
def hClose (s : HSys) : HM Unit := do
  free s.lock
  free s.obj

/-- One API call (tree.c:581-1084). -/
def hStep (A : Alloc) (E : Env) (s : HSys) : Op → HM (HSys × Ret)
  | .root => pure (s, .hash (dbRoot s.db))
  | .inject h => do
    let (db, r) ← HM.lift (dbInject E s.db h)
    pure ({ s with db := db }, .ofUnit r)
  | .create id h => do
    let (db, r) ← hTxCreate A E s.db h
    match r with
    | .ok t => pure (({ s with db := db } : HSys).setTx id (some t), .unit)
    | .error e => pure ({ s with db := db }, .fail e)
  | .destroy id => do
    let t ← s.tx id
    hTxDestroy t
    pure (s.setTx id none, .unit)
  | .clear id => do
    let t ← s.tx id
    hTxClear A s.db t
    pure (s, .unit)
  | .txRoot id => do
    let t ← s.tx id
    let h ← hTxRoot E t
    pure (s, .hash h)
  | .txInject id h => do
    let t ← s.tx id
    let (db, r) ← hTxInject A E s.db t h
    pure ({ s with db := db }, .ofUnit r)
  | .get id k => do
    let t ← s.tx id
    let r ← hTxGet A s.db t k
    pure (s, .ofBytes r)
  | .has id k => do
    let t ← s.tx id
    let r ← hTxHas A s.db t k
    pure (s, .ofUnit r)
  | .insert id k v => do
    let t ← s.tx id
    let r ← hTxInsert A E s.db t k v
    pure (s, .ofUnit r)
  | .remove id k => do
    let t ← s.tx id
    let r ← hTxRemove A s.db t k
    pure (s, .ofUnit r)
  | .prove id k => do
    let t ← s.tx id
    let r ← hTxProve A E s.db t k
    let r ← hTakeProof r
    pure (s, r)
  | .commit id => do
    let t ← s.tx id
    let (db, r) ← hTxCommit A E s.db t
    pure ({ s with db := db }, .ofUnit r)
  | .reopen rand => do
    hClose s
    let (_, r) ← hOpen A E s.db.dir rand
    match r with
    | .ok s => pure (s, .unit)
    | .error e => HM.lift (.err e)
  | .get1 k h => do
    let (db, r) ← hUrkelGet A E s.db k h
    pure ({ s with db := db }, .ofBytes r)
  | .has1 k h => do
    let (db, r) ← hUrkelHas A E s.db k h
    pure ({ s with db := db }, .ofUnit r)
  | .insert1 k v => do
    let (db, r) ← hUrkelInsert A E s.db k v
    pure ({ s with db := db }, .ofUnit r)
  | .remove1 k => do
    let (db, r) ← hUrkelRemove A E s.db k
    pure ({ s with db := db }, .ofUnit r)
  | .prove1 k h => do
    let (db, r) ← hUrkelProve A E s.db k h
    let r ← hTakeProof r
    pure ({ s with db := db }, r)

/-- A sequence of calls. -/
def hRun (A : Alloc) (E : Env) : HSys → List Op → HM (HSys × List Ret)
  | s, [] => pure (s, [])
  | s, op :: ops => do
    let (s, r) ← hStep A E s op
    let (s, rs) ← hRun A E s ops
    pure (s, r :: rs)

end Urkel
