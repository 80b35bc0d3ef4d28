import Verif.Model.Api
/-
store.c: several processes that open, use and close one database directory. `urkel_store_init`
(store.c:1069-1116) reads or creates the key, counts the data files, and only then takes the lock.
-/
namespace Urkel

/-- How far a process has got: it does not use the database; it has looked whether the key file
is there (store.c:925); it has the key (926-930); it has counted the data files (1079); it has
the database open. -/
inductive Phase where
  | out
  | saw (there : Bool)
  | keyed (key : B32)
  | counted (key : B32) (n : Nat)
  | inside (s : Sys)

/-- The directory, the process that has the lock, and the processes. The lock is a plain mutex
here; how far the lock file is one is C44 and C55. -/
structure World where
  dir : Dir
  holder : Option Nat
  proc : Nat → Phase

/-- Process `p` gets on to `x`. -/
def World.set (w : World) (p : Nat) (x : Phase) : World := { w with proc := fun q => if q = p then x else w.proc q }

/-- What a process can do next: look for the key file, read or create it (`rand` is the key it
draws), count the data files, take the lock and finish opening, make a call of the API, close
the database or be killed between two calls. -/
inductive ProcEv where
  | look (p : Nat)
  | key (p : Nat) (rand : B32)
  | count (p : Nat)
  | enter (p : Nat)
  | call (p : Nat) (op : Op)
  | leave (p : Nat)

/-- The data files after recovery of files 1 to `n`, of which `fs` is left: file 1 is created if
none is left (store.c:1098-1099, O_CREAT without O_TRUNC), files above `n` stay. `none`: a gap in the numbers, which
is not modelled. -/
def afterRecovery (files : List Bytes) (n : Nat) (fs : List Bytes) : Option (List Bytes) :=
  let rest := files.drop n
  if n = 0 then some (if rest = [] then [[]] else rest)
  else
    let fs := if fs = [] then [[]] else fs
    if fs.length = n ∨ rest = [] then some (fs ++ rest) else none

/-- `urkel_store_init` from taking the lock on (store.c:1085-1115), with the key and the count that
were found before. If there are fewer files than were counted, removing the missing one
fails (1051). Returns the data files and the store. -/
def openAt (E : Env) (key : B32) (n : Nat) (files : List Bytes) : Res (List Bytes × Option Store) :=
  if files.length < n then .ok (files, none)
  else do
    let (st, lm, fs, index) ← recoverState E key files n Meta.init
    match afterRecovery files n fs with
    | none => .ub
    | some files =>
      let cur := files.getD (index - 1) []
      let s : Store :=
        { key := key, files := files, index := index, curSize := cur.length,
          slab := { Slab.init with filePos := cur.length, fileIndex := index },
          cache := [], state := st, lastMeta := lm, faults := [], io := [] }
      let (s, r) ← storeReadRoot E s st.rootPtr
      match r with
      | none => pure (s.files, none)
      | some n => pure (s.files, some { s with state := { s.state with rootNode := n } })

/-- One event, and what the process gets back. Taking the lock never waits: if another process has it,
`urkel_open` fails (store.c:1082, io_posix.c:1035-1067). Writing the key file is one step here (a kill in
between is C28). Events that do not fit the phase, and `reopen`, which is `leave` and the
four events of an open, do nothing. -/
def procStep (E : Env) (w : World) : ProcEv → Res (World × Ret)
  | .look p =>
    match w.proc p with
    | .out => .ok (w.set p (.saw w.dir.keyFile.isSome), .unit)
    | _ => .ok (w, .unit)
  | .key p rand =>
    match w.proc p with
    | .saw true =>
      match w.dir.keyFile with
      | none => .ok (w.set p .out, .fail .EBADOPEN)
      | some _ =>
        match w.dir.key rand with
        | none => .ok (w.set p .out, .fail .EBADOPEN)
        | some k => .ok (w.set p (.keyed k), .unit)
    | .saw false => .ok (({ w with dir := { w.dir with keyFile := some rand.bytes } } : World).set p (.keyed rand), .unit)
    | _ => .ok (w, .unit)
  | .count p =>
    match w.proc p with
    | .keyed k => .ok (w.set p (.counted k w.dir.files.length), .unit)
    | _ => .ok (w, .unit)
  | .enter p =>
    match w.proc p with
    | .counted k n =>
      if w.holder ≠ none then .ok (w.set p .out, .fail .EBADOPEN)
      else do
        let (files, r) ← openAt E k n w.dir.files
        let w := { w with dir := { w.dir with files := files } }
        match r with
        | none => pure (w.set p .out, .fail .EBADOPEN)
        | some s => pure (({ w with holder := some p } : World).set p (.inside ⟨⟨s, rootHash s, false⟩, fun _ => none⟩), .unit)
    | _ => .ok (w, .unit)
  | .call p op =>
    match w.proc p with
    | .inside s =>
      match op with
      | .reopen _ => .ok (w, .unit)
      | op => do
        let (s, r) ← step E s op
        pure (({ w with dir := { w.dir with files := s.db.store.files } } : World).set p (.inside s), r)
    | _ => .ok (w, .unit)
  | .leave p =>
    match w.proc p with
    | .inside _ => .ok (({ w with holder := none } : World).set p .out, .unit)
    | _ => .ok (w.set p .out, .unit)

/-- Events in the given order, with what each gave back. -/
def procRun (E : Env) : World → List ProcEv → Res (World × List Ret)
  | w, [] => .ok (w, [])
  | w, ev :: evs => do
    let (w, r) ← procStep E w ev
    let (w, rs) ← procRun E w evs
    pure (w, r :: rs)

/-- A directory nobody uses. -/
def World.idle (d : Dir) : World := ⟨d, none, fun _ => .out⟩

end Urkel
