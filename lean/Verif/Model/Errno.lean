import Verif.Model.Api
import Verif.Model.Iter
import Verif.Model.Io
/-
tree.c once more, as the caller sees it: return values, output parameters and
`urkel_errno`. The functions here have the control flow of the C functions and
write to the caller's variables where the C functions do; the searches in the
store that set no error number are those of Model/Store.lean and Model/Tree.lean.
-/
namespace Urkel

/-- The codes of include/urkel.h:60-72. -/
def Err.code : Err → Nat
  | .EHASHMISMATCH => 1
  | .ESAMEKEY => 2
  | .ESAMEPATH => 3
  | .ENEGDEPTH => 4
  | .EPATHMISMATCH => 5
  | .ETOODEEP => 6
  | .EINVAL => 7
  | .ENOTFOUND => 8
  | .ECORRUPTION => 9
  | .ENOUPDATE => 10
  | .EBADWRITE => 11
  | .EBADOPEN => 12
  | .EITEREND => 13

/-- The caller's variables: `urkel_errno` of the calling thread, the buffers and
counters passed by address. `noise i` is what the `i`th call into the C library leaves
in `errno` (`none`: it does not touch it); it matters only if `urkel_errno` is `errno`. -/
structure Caller where
  errno : Nat
  noise : Nat → Option Nat
  tick : Nat
  value : Bytes
  size : Nat
  proof : Option Bytes
  proofLen : Nat
  key : Bytes
  hash : Bytes
  found : Bool

/-- Calls into the C library (malloc, free, pthread, files). With URKEL_TLS the error
number is a variable of its own; without, it is `errno` (tree.c:58-72), which any
library call may change. -/
def libc (tls : Bool) (c : Caller) : Caller :=
  if tls then c else { c with errno := (c.noise c.tick).getD c.errno, tick := c.tick + 1 }

/-- `urkel_errno = e`. -/
def setErr (e : Err) (c : Caller) : Caller := { c with errno := e.code }

/-- `urkel_store_retrieve` (store.c:623-655) into the caller's buffer and counter. A
failing read copies nothing (io_posix.c:1132-1152; failing system calls are not modelled here). -/
def cRetrieve (tls : Bool) (s : Store) (val : Option Bytes) (vptr : Option Ptr) (c : Caller) : Res (Bool × Caller) :=
  match val, vptr with
  | some v, _ => do
    check (v.length ≤ valueSize)
    let b ← if v.length > 0 then bufCopy c.value 0 v else pure c.value
    pure (true, { c with value := b, size := v.length })
  | none, none => .abort
  | none, some p =>
    if p.size > valueSize then .ok (false, c)
    else match storeRead s p.size p.index p.pos with
      | none => .ok (false, libc tls c)
      | some d => do
        let b ← bufCopy c.value 0 d
        pure (true, { libc tls c with value := b, size := p.size })

/-- `urkel_tree_get` (tree.c:78-148); `want` is whether `value` and `size` are not NULL. -/
def cTreeGet (tls : Bool) (s : Store) (key : B32) (want : Bool) : Nat → Node → Nat → Caller → Res (Bool × Caller)
  | 0, _, _, _ => .ub
  | fuel + 1, node, depth, c =>
    match node with
    | .null => .ok (false, setErr .ENOTFOUND c)
    | .internal _ _ pre l r => do
      let has ← bitsHas pre key.bytes depth
      if !has then .ok (false, setErr .ENOTFOUND c)
      else do
        let depth := depth + pre.size
        let bit ← getBit key.bytes depth
        cTreeGet tls s key want fuel (side l r bit) (depth + 1) c
    | .leaf _ _ k v vp =>
      if k ≠ key then .ok (false, setErr .ENOTFOUND c)
      else if want then do
        let (ok, c) ← cRetrieve tls s v vp c
        if !ok then pure (false, setErr .ECORRUPTION c) else pure (true, c)
      else pure (true, c)
    | .hash h p => do
      let r ← storeResolve s h p
      let c := libc tls c
      match r with
      | none => pure (false, setErr .ECORRUPTION c)
      | some rn => do
        let (ok, c) ← cTreeGet tls s key want fuel rn depth c
        pure (ok, libc tls c)

/-- `urkel_tree_insert` (tree.c:150-268); `none` is NULL. -/
def cTreeInsert (tls : Bool) (E : Env) (s : Store) (key : B32) (value : Bytes) : Nat → Node → Nat → Caller → Res (Option Node × Caller)
  | 0, _, _, _ => .ub
  | fuel + 1, node, depth, c =>
    match node with
    | .null => .ok (some (createLeaf E.H key value), libc tls c)
    | .internal _ _ pre l r => do
      let bits ← bitsCount pre key.bytes depth
      let depth := depth + bits
      let bit ← getBit key.bytes depth
      if bits ≠ pre.size then do
        let leaf := createLeaf E.H key value
        let (front, back) ← bitsSplit pre bits
        let child := createInternal back l r false
        pure (some (createInternal front leaf child bit), libc tls c)
      else do
        let (z, c) ← cTreeInsert tls E s key value fuel (side l r bit) (depth + 1) c
        match z with
        | none => pure (none, c)
        | some z => pure (some (createInternal pre z (side l r (!bit)) bit), libc tls c)
    | .leaf h p k v vp =>
      if k = key then
        if valueEquals v value then .ok (none, setErr .ENOUPDATE c)
        else .ok (some (createLeaf E.H key value), libc tls c)
      else do
        let pre ← bitsCollide ⟨256, k.bytes⟩ key.bytes depth
        let depth := depth + pre.size
        let leaf := createLeaf E.H key value
        let bit ← getBit key.bytes depth
        pure (some (createInternal pre leaf (.leaf h p k v vp) bit), libc tls c)
    | .hash h p => do
      let r ← storeResolve s h p
      let c := libc tls c
      match r with
      | none => pure (none, setErr .ECORRUPTION c)
      | some rn => do
        let (ret, c) ← cTreeInsert tls E s key value fuel rn depth c
        pure (ret, libc tls c)

/-- `urkel_tree_remove` (tree.c:270-381); `none` is NULL. -/
def cTreeRemove (tls : Bool) (s : Store) (key : B32) : Nat → Node → Nat → Caller → Res (Option Node × Caller)
  | 0, _, _, _ => .ub
  | fuel + 1, node, depth, c =>
    match node with
    | .null => .ok (none, setErr .ENOTFOUND c)
    | .internal _ _ pre l r => do
      let has ← bitsHas pre key.bytes depth
      if !has then .ok (none, setErr .ENOTFOUND c)
      else do
        let depth := depth + pre.size
        let bit ← getBit key.bytes depth
        let y := side l r (!bit)
        let (z, c) ← cTreeRemove tls s key fuel (side l r bit) (depth + 1) c
        match z with
        | none => pure (none, c)
        | some .null => do
          let sd ← match y with
            | .hash h p => do
              let r ← storeResolve s h p
              match r with
              | none => .abort
              | some n => pure n
            | y => pure y
          match sd with
          | .internal _ _ spre sl sr => do
            let j ← bitsJoin pre spre (!bit)
            pure (some (createInternal j sl sr false), libc tls c)
          | sd => pure (some sd, libc tls c)
        | some z => pure (some (createInternal pre z y bit), libc tls c)
    | .leaf _ _ k _ _ => if k ≠ key then .ok (none, setErr .ENOTFOUND c) else .ok (some .null, libc tls c)
    | .hash h p => do
      let r ← storeResolve s h p
      let c := libc tls c
      match r with
      | none => pure (none, setErr .ECORRUPTION c)
      | some rn => do
        let (ret, c) ← cTreeRemove tls s key fuel rn depth c
        pure (ret, libc tls c)

/-- `urkel_tree_prove` (tree.c:383-477), as `treeProve`; the value is read into a local
buffer. -/
def cTreeProve (tls : Bool) (E : Env) (s : Store) (key : B32) : Nat → Node → Nat → Nat → Caller → Res (Option Proof × Node × Caller)
  | 0, _, _, _, _ => .ub
  | fuel + 1, node, depth, pushed, c =>
    match node with
    | .null => .ok (some ⟨depth, [], .deadend⟩, .null, c)
    | .internal h p pre l r => do
      let has ← bitsHas pre key.bytes depth
      if !has then do
        let (hl, l) ← nodeHash E.H l
        let (hr, r) ← nodeHash E.H r
        pure (some ⟨depth, [], .short pre hl hr⟩, .internal h p pre l r, c)
      else do
        let depth := depth + pre.size
        let bit ← getBit key.bytes depth
        let (hy, y) ← nodeHash E.H (side l r (!bit))
        check (pushed < keyBits)
        let (pf, x, c) ← cTreeProve tls E s key fuel (side l r bit) (depth + 1) (pushed + 1) (libc tls c)
        pure (pf.map fun pf => { pf with nodes := ⟨pre, hy⟩ :: pf.nodes },
          if bit then .internal h p pre y x else .internal h p pre x y, c)
    | .leaf h p k v vp => do
      let r ← storeRetrieve s v vp
      let c := libc tls c
      match r with
      | none => pure (none, .leaf h p k v vp, setErr .ECORRUPTION c)
      | some x =>
        if k = key then pure (some ⟨depth, [], .exists x⟩, .leaf h p k v vp, c)
        else pure (some ⟨depth, [], .collision k (E.H x)⟩, .leaf h p k v vp, c)
    | .hash h p => do
      let r ← storeResolve s h p
      let c := libc tls c
      match r with
      | none => pure (none, .hash h p, setErr .ECORRUPTION c)
      | some rn => do
        let (pf, _, c) ← cTreeProve tls E s key fuel rn depth pushed c
        pure (pf, .hash h p, libc tls c)

/-- `urkel_inject` (tree.c:646-665). -/
def cInject (tls : Bool) (E : Env) (db : Db) (h : B32) (c : Caller) : Res (Db × Bool × Caller) := do
  let (s, ok) ← hasHistory E db.store h
  let c := libc tls c
  if ok then pure ({ db with store := s, hash := h, revert := true }, true, libc tls c)
  else pure ({ db with store := s }, false, libc tls (setErr .ENOTFOUND c))

/-- `urkel_tx_create` (tree.c:831-871); `none` is NULL. -/
def cTxCreate (tls : Bool) (E : Env) (db : Db) (h : Option B32) (c : Caller) : Res (Db × Option Tx × Caller) := do
  let (s, root) ← match h with
    | some h => readHistory E db.store h
    | none => if db.revert then readHistory E db.store db.hash else .ok (db.store, some db.store.state.rootNode)
  let c := libc tls c
  match root with
  | some n => pure ({ db with store := s }, some ⟨some n⟩, libc tls c)
  | none => pure ({ db with store := s }, none, libc tls (setErr .ENOTFOUND c))

/-- `urkel_tx_root` (tree.c:896-917). -/
def cTxRoot (tls : Bool) (E : Env) (t : Tx) (c : Caller) : Res (Tx × Caller) := do
  let n ← t.node
  let (h, n) ← nodeHash E.H n
  pure (⟨some n⟩, libc tls { c with hash := h.bytes })

/-- `urkel_tx_inject` (tree.c:919-940). -/
def cTxInject (tls : Bool) (E : Env) (db : Db) (t : Tx) (h : B32) (c : Caller) : Res (Db × Tx × Bool × Caller) := do
  let (s, root) ← readHistory E db.store h
  let c := libc tls c
  match root with
  | some n => do
    let _ ← t.node
    pure ({ db with store := s }, ⟨some n⟩, true, libc tls c)
  | none => pure ({ db with store := s }, t, false, libc tls (setErr .ENOTFOUND c))

/-- `urkel_tx_get` (tree.c:942-961). -/
def cTxGet (tls : Bool) (db : Db) (t : Tx) (key : B32) (c : Caller) : Res (Bool × Caller) := do
  let n ← t.node
  let (ret, c) ← cTreeGet tls db.store key true treeFuel n 0 (libc tls c)
  let c := if !ret then { c with size := 0 } else c
  pure (ret, libc tls c)

/-- `urkel_tx_has` (tree.c:963-976). -/
def cTxHas (tls : Bool) (db : Db) (t : Tx) (key : B32) (c : Caller) : Res (Bool × Caller) := do
  let n ← t.node
  let (ret, c) ← cTreeGet tls db.store key false treeFuel n 0 (libc tls c)
  pure (ret, libc tls c)

/-- `urkel_tx_insert` (tree.c:978-1002): the return value looks at `urkel_errno`, after
the locks have been released. -/
def cTxInsert (tls : Bool) (E : Env) (db : Db) (t : Tx) (key : B32) (value : Bytes) (c : Caller) : Res (Tx × Bool × Caller) :=
  if value.length > valueSize then .ok (t, false, setErr .EINVAL c)
  else do
    let n ← t.node
    let (root, c) ← cTreeInsert tls E db.store key value treeFuel n 0 (libc tls c)
    let t := match root with | some n' => ⟨some n'⟩ | none => t
    let c := libc tls c
    pure (t, root.isSome || c.errno == Err.ENOUPDATE.code, c)

/-- `urkel_tx_remove` (tree.c:1004-1020). -/
def cTxRemove (tls : Bool) (db : Db) (t : Tx) (key : B32) (c : Caller) : Res (Tx × Bool × Caller) := do
  let n ← t.node
  let (root, c) ← cTreeRemove tls db.store key treeFuel n 0 (libc tls c)
  let t := match root with | some n' => ⟨some n'⟩ | none => t
  pure (t, root.isSome, libc tls c)

/-- `urkel_tx_prove` (tree.c:1022-1066). -/
def cTxProve (tls : Bool) (E : Env) (db : Db) (t : Tx) (key : B32) (c : Caller) : Res (Tx × Bool × Caller) := do
  let n ← t.node
  let (r, n, c) ← cTreeProve tls E db.store key treeFuel n 0 0 (libc tls c)
  match r with
  | none => pure (⟨some n⟩, false, libc tls { c with proofLen := 0, proof := none })
  | some pf => do
    let size ← proofSize pf
    let raw ← proofWrite pf
    if raw.length ≠ size then .ub
    else pure (⟨some n⟩, true, libc tls { c with proofLen := size, proof := some raw })

/-- `urkel_tx_commit` with `urkel_tree_commit` (tree.c:556-575, 1068-1084). -/
def cTxCommit (tls : Bool) (E : Env) (db : Db) (t : Tx) (c : Caller) : Res (Db × Tx × Bool × Caller) := do
  let n ← t.node
  let (s, r) ← treeWrite E n db.store
  let c := libc tls c
  match r with
  | none => pure ({ db with store := s }, ⟨none⟩, false, libc tls (setErr .EBADWRITE c))
  | some root => do
    let (s, ok) ← storeCommit E s root
    let c := libc tls c
    if !ok then pure ({ db with store := s }, ⟨none⟩, false, libc tls (setErr .EBADWRITE c))
    else pure ({ db with store := s, hash := rootNodeHash root }, ⟨some root⟩, true, libc tls c)

/-- `urkel_open` (tree.c:581-602); `none` is NULL. -/
def cOpen (tls : Bool) (E : Env) (d : Dir) (rand : B32) (c : Caller) : Res (Dir × Option Db × Caller) := do
  let (d, r) ← openStore E d rand
  let c := libc tls c
  match r with
  | none => pure (d, none, setErr .EBADOPEN c)
  | some s => pure (d, some ⟨s, rootHash s, false⟩, libc tls c)

/-- `urkel_get` (tree.c:667-686). -/
def cGet (tls : Bool) (E : Env) (db : Db) (key : B32) (root : Option B32) (c : Caller) : Res (Db × Bool × Caller) := do
  let (db, t, c) ← cTxCreate tls E db root c
  match t with
  | none => pure (db, false, { c with size := 0 })
  | some t => do
    let (ret, c) ← cTxGet tls db t key c
    txDestroy t
    pure (db, ret, libc tls c)

/-- `urkel_has` (tree.c:688-703). -/
def cHas (tls : Bool) (E : Env) (db : Db) (key : B32) (root : Option B32) (c : Caller) : Res (Db × Bool × Caller) := do
  let (db, t, c) ← cTxCreate tls E db root c
  match t with
  | none => pure (db, false, c)
  | some t => do
    let (ret, c) ← cTxHas tls db t key c
    txDestroy t
    pure (db, ret, libc tls c)

/-- `urkel_insert` (tree.c:705-727). -/
def cInsert (tls : Bool) (E : Env) (db : Db) (key : B32) (value : Bytes) (c : Caller) : Res (Db × Bool × Caller) := do
  let (db, t, c) ← cTxCreate tls E db none c
  match t with
  | none => pure (db, false, c)
  | some t => do
    let (t, ok, c) ← cTxInsert tls E db t key value c
    if !ok then do
      txDestroy t
      pure (db, false, libc tls c)
    else do
      let (db, t, ok, c) ← cTxCommit tls E db t c
      txDestroy t
      pure (db, ok, libc tls c)

/-- `urkel_remove` (tree.c:729-748). -/
def cRemove (tls : Bool) (E : Env) (db : Db) (key : B32) (c : Caller) : Res (Db × Bool × Caller) := do
  let (db, t, c) ← cTxCreate tls E db none c
  match t with
  | none => pure (db, false, c)
  | some t => do
    let (t, ok, c) ← cTxRemove tls db t key c
    if !ok then do
      txDestroy t
      pure (db, false, libc tls c)
    else do
      let (db, t, ok, c) ← cTxCommit tls E db t c
      txDestroy t
      pure (db, ok, libc tls c)

/-- `urkel_prove` (tree.c:750-768). -/
def cProve (tls : Bool) (E : Env) (db : Db) (key : B32) (root : Option B32) (c : Caller) : Res (Db × Bool × Caller) := do
  let (db, t, c) ← cTxCreate tls E db root c
  match t with
  | none => pure (db, false, { c with proof := none, proofLen := 0 })
  | some t => do
    let (t, ret, c) ← cTxProve tls E db t key c
    txDestroy t
    pure (db, ret, libc tls c)

/-- `urkel_verify` (tree.c:770-810); `none` is a NULL root. -/
def cVerify (tls : Bool) (H : HashFn) (raw : Bytes) (key : B32) (root : Option B32) (c : Caller) : Res (Bool × Caller) :=
  let c := { c with found := false, size := 0 }
  match root with
  | none => .ok (false, setErr .EINVAL c)
  | some root => do
    let r ← proofRead raw
    let c := libc tls c
    match r with
    | none => pure (false, setErr .EINVAL c)
    | some p => do
      let ret ← catchErr (proofVerify H p key root)
      let (code, c) ← match ret with
        | .ok () => match p.body with
          | .exists v => do
            let b ← if v.length > 0 then bufCopy c.value 0 v else pure c.value
            pure (0, { c with found := true, value := b, size := v.length })
          | _ => pure (0, c)
        | .error e => pure (e.code, c)
      let c := libc tls c
      pure (code == 0, { c with errno := code })

/-- One call of a program, as `step`, with the caller's variables. Calls without a
return value return `true`. -/
def cStep (tls : Bool) (E : Env) (s : Sys) (op : Op) (c : Caller) : Res (Sys × Bool × Caller) :=
  match op with
  | .root => .ok (s, true, libc tls { c with hash := s.db.hash.bytes })
  | .inject h => do
    let (db, r, c) ← cInject tls E s.db h c
    pure ({ s with db := db }, r, c)
  | .create id h => do
    let (db, t, c) ← cTxCreate tls E s.db h c
    match t with
    | some t => pure (({ s with db := db } : Sys).setTx id (some t), true, c)
    | none => pure ({ s with db := db }, false, c)
  | .destroy id => do
    let t ← s.tx id
    txDestroy t
    pure (s.setTx id none, true, libc tls c)
  | .clear id => do
    let t ← s.tx id
    let t ← txClear s.db t
    pure (s.setTx id (some t), true, libc tls c)
  | .txRoot id => do
    let t ← s.tx id
    let (t, c) ← cTxRoot tls E t c
    pure (s.setTx id (some t), true, c)
  | .txInject id h => do
    let t ← s.tx id
    let (db, t, r, c) ← cTxInject tls E s.db t h c
    pure (({ s with db := db } : Sys).setTx id (some t), r, c)
  | .get id k => do
    let t ← s.tx id
    let (r, c) ← cTxGet tls s.db t k c
    pure (s, r, c)
  | .has id k => do
    let t ← s.tx id
    let (r, c) ← cTxHas tls s.db t k c
    pure (s, r, c)
  | .insert id k v => do
    let t ← s.tx id
    let (t, r, c) ← cTxInsert tls E s.db t k v c
    pure (s.setTx id (some t), r, c)
  | .remove id k => do
    let t ← s.tx id
    let (t, r, c) ← cTxRemove tls s.db t k c
    pure (s.setTx id (some t), r, c)
  | .prove id k => do
    let t ← s.tx id
    let (t, r, c) ← cTxProve tls E s.db t k c
    pure (s.setTx id (some t), r, c)
  | .commit id => do
    let t ← s.tx id
    let (db, t, r, c) ← cTxCommit tls E s.db t c
    pure (({ s with db := db } : Sys).setTx id (some t), r, c)
  | .reopen rand => do
    let (_, db, c) ← cOpen tls E s.db.dir rand (libc tls c)
    match db with
    | some db => pure (⟨db, fun _ => none⟩, true, c)
    | none => .err .EBADOPEN
  | .get1 k h => do
    let (db, r, c) ← cGet tls E s.db k h c
    pure ({ s with db := db }, r, c)
  | .has1 k h => do
    let (db, r, c) ← cHas tls E s.db k h c
    pure ({ s with db := db }, r, c)
  | .insert1 k v => do
    let (db, r, c) ← cInsert tls E s.db k v c
    pure ({ s with db := db }, r, c)
  | .remove1 k => do
    let (db, r, c) ← cRemove tls E s.db k c
    pure ({ s with db := db }, r, c)
  | .prove1 k h => do
    let (db, r, c) ← cProve tls E s.db k h c
    pure ({ s with db := db }, r, c)

/-! ### Iterators -/

/-- The loop of `urkel_iter_seek` (tree.c:1188-1246). -/
def cSeekLoop (tls : Bool) (s : Store) : Nat → Iter → Caller → Res (Iter × Bool × Caller)
  | 0, _, _ => .ub
  | fuel + 1, it, c =>
    match it.stack with
    | [] => .abort
    | f :: rest =>
      match f.node with
      | .null => .ok ({ it with node := some .null }, true, c)
      | .internal _ _ pre l r =>
        if f.child ≥ 2 then .ok (it, true, c)
        else do
          let it := { it with stack := { f with child := f.child + 1 } :: rest }
          let it ← iterPush it (if f.child + 1 = 2 then r else l) (f.depth + pre.size + 1) false
          cSeekLoop tls s fuel it c
      | .leaf h p k v vp => .ok ({ it with node := some (.leaf h p k v vp) }, true, c)
      | .hash h p =>
        if f.child ≥ 1 then .ok (it, true, c)
        else do
          let it := { it with stack := { f with child := f.child + 1 } :: rest }
          let r ← storeResolve s h p
          let c := libc tls c
          match r with
          | none => pure (it, false, setErr .ECORRUPTION c)
          | some rn => do
            let it ← iterPush it rn f.depth true
            cSeekLoop tls s fuel it c

/-- `urkel_iter_seek` (tree.c:1163-1247). -/
def cIterSeek (tls : Bool) (s : Store) (it : Iter) (c : Caller) : Res (Iter × Bool × Caller) :=
  let it := { it with node := none }
  if it.done then .ok (it, false, setErr .EITEREND c)
  else
    match it.stack with
    | [] => do
      let it ← iterPush it it.root 0 false
      cSeekLoop tls s iterFuel it c
    | _ :: rest =>
      let it := { it with stack := rest }
      let c := libc tls c
      if rest.isEmpty then .ok ({ it with done := true }, false, setErr .EITEREND c)
      else cSeekLoop tls s iterFuel it c

/-- The loop of `urkel_iter_next` (tree.c:1258-1275); `want` is whether `value` and
`size` are not NULL. The key is copied before the value is looked for. -/
def cNextLoop (tls : Bool) (s : Store) (want : Bool) : Nat → Iter → Caller → Res (Iter × Bool × Caller)
  | 0, _, _ => .ub
  | fuel + 1, it, c => do
    let (it, ok, c) ← cIterSeek tls s it c
    if !ok then pure (it, false, c)
    else
      match it.node with
      | some (.leaf _ _ k v vp) => do
        let b ← bufCopy c.key 0 k.bytes
        let c := { c with key := b }
        if want then do
          let (ok, c) ← cRetrieve tls s v vp c
          if !ok then pure (it, false, setErr .ECORRUPTION c) else pure (it, true, c)
        else pure (it, true, c)
      | _ => cNextLoop tls s want fuel it c

/-- `urkel_iter_next` (tree.c:1249-1285). -/
def cIterNext (tls : Bool) (db : Db) (want : Bool) (it : Iter) (c : Caller) : Res (Iter × Bool × Caller) := do
  let (it, ok, c) ← cNextLoop tls db.store want iterFuel it (libc tls c)
  pure (it, ok, libc tls c)

end Urkel
