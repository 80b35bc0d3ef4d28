import Verif.Model.Api
import Verif.Model.Iter
import Verif.Model.Util
/-
urkel.c: the command line tool. C strings are byte lists without their terminator.
-/
namespace Urkel

/-- Text of the messages. -/
def txt (s : String) : Bytes := s.toUTF8.toList

/-- `urkel_usage` (urkel.c:171-212). -/
def usageText : Bytes := txt "
  Usage: urkel [options] [action] [args]

  Actions:

    create                create a new database
    destroy               destroy database
    info                  print database information
    root                  print root hash
    get <key>             retrieve value
    insert <key> <value>  insert value
    remove <key>          remove value
    list                  list all keys
    prove <key>           create proof
    verify <key> <proof>  verify proof (requires --root)

  Options:

    -p, --path <path>     path to database (default: $URKEL_PATH)
    -r, --root <hash>     root hash to use for snapshots
    -H, --hash            hash key with BLAKE2b-256
    -h, --help            output usage information

  Environment Variables:

    URKEL_PATH            path to database (default: ./)

  Example:

    $ urkel create -p db
    $ cd db
    $ urkel insert foo 'deadbeef' -H
    $ urkel get foo -H
    $ urkel prove foo -H
    $ urkel verify foo $(urkel prove foo -H) -r $(urkel root) -H
    $ urkel destroy

"

/-- The action with the operands it needs (`action`, `key`, `value`, `proof` of
`urkel_options_t`, urkel.c:218-230). -/
inductive Cmd where
  | create
  | destroy
  | info
  | root
  | get (k : B32)
  | insert (k : B32) (v : Bytes)
  | remove (k : B32)
  | list
  | prove (k : B32)
  | verify (k : B32) (proof : Bytes)

/-- The loop variables of `urkel_options_init` (urkel.c:233-245). -/
structure CliOpts where
  path : Option Bytes
  root : Option B32
  hashKey : Bool
  args : List Bytes

/-- Outcome of `urkel_options_init`: print the usage and leave, fail with this on stdout and
stderr, or go on. -/
inductive Parsed where
  | help
  | fail (out err : Bytes)
  | run (path : Bytes) (root : Option B32) (cmd : Cmd)

/-- `urkel_base16_decode32` into a 32-byte array (urkel.c:101-109). -/
def hex32 (s : Bytes) : Option B32 :=
  match base16Decode32 s with
  | none => none
  | some b => if h : b.length = 32 then some ⟨b, h⟩ else none

/-- The loop over `argv` (urkel.c:247-295). -/
def optLoop (o : CliOpts) : List Bytes → Parsed ⊕ CliOpts
  | [] => .inr o
  | a :: rest =>
    if a = txt "--path" ∨ a = txt "-p" then
      match rest with
      | [] => .inl (.fail [] (txt "Invalid argument: " ++ a ++ txt "\n"))
      | p :: rest => optLoop { o with path := some p } rest
    else if a = txt "--root" ∨ a = txt "-r" then
      match rest with
      | [] => .inl (.fail [] (txt "Invalid argument: " ++ a ++ txt "\n"))
      | r :: rest =>
        match hex32 r with
        | none => .inl (.fail [] (txt "Invalid hex string for root.\n"))
        | some h => optLoop { o with root := some h } rest
    else if a = txt "--hash" ∨ a = txt "-H" then optLoop { o with hashKey := true } rest
    else if a = txt "--help" ∨ a = txt "-h" then .inl .help
    else if a.headD 0 = 45 then .inl (.fail [] (txt "Unknown argument: " ++ a ++ txt "\n"))
    else if o.args.length = 32 then .inl (.fail [] (txt "Too many arguments.\n"))
    else optLoop { o with args := o.args ++ [a] } rest

/-- The key operand (urkel.c:333-350). -/
def keyArg (H : HashFn) (hashKey : Bool) (a : Bytes) : Option B32 :=
  if hashKey then some (H a) else hex32 a

/-- The operands of an action that has a key (urkel.c:322-395); `mk` gets the remaining
arguments. -/
def withKey (H : HashFn) (o : CliOpts) (path : Bytes) (args : List Bytes) (mk : B32 → List Bytes → Bytes ⊕ Cmd) : Parsed :=
  match args with
  | [] => .fail [] (txt "Must provide a key.\n")
  | a :: args =>
    match keyArg H o.hashKey a with
    | none => .fail [] (txt "Invalid hex string for key.\n")
    | some k =>
      match mk k args with
      | .inl e => .fail [] e
      | .inr c => .run path o.root c

/-- The value operand (urkel.c:358-372); the buffer has 1024 bytes. -/
def mkInsert (k : B32) : List Bytes → Bytes ⊕ Cmd
  | [] => .inl (txt "Must provide a value.\n")
  | v :: _ =>
    match base16Decode 1024 v with
    | none => .inl (txt "Invalid hex string for value.\n")
    | some v => .inr (.insert k v)

/-- The proof operand (urkel.c:374-394); the buffer has half the length of the string. -/
def mkVerify (k : B32) : List Bytes → Bytes ⊕ Cmd
  | [] => .inl (txt "Must provide proof data.\n")
  | p :: _ =>
    match base16Decode (p.length / 2) p with
    | none => .inl (txt "Invalid hex string for proof data.\n")
    | some p => .inr (.verify k p)

/-- `urkel_options_init` (urkel.c:232-398): `argv` without the program's name; `env` is
`URKEL_PATH`. -/
def cliParse (H : HashFn) (env : Option Bytes) (argv : List Bytes) : Parsed :=
  match optLoop ⟨none, none, false, []⟩ argv with
  | .inl p => p
  | .inr o =>
    let path := match o.path with | some p => p | none => match env with | some p => p | none => txt "."
    match o.args with
    | [] => .fail usageText []
    | name :: args =>
      if name = txt "create" then .run path o.root .create
      else if name = txt "destroy" then .run path o.root .destroy
      else if name = txt "info" then .run path o.root .info
      else if name = txt "root" then .run path o.root .root
      else if name = txt "get" then withKey H o path args fun k _ => .inr (.get k)
      else if name = txt "insert" then withKey H o path args mkInsert
      else if name = txt "remove" then withKey H o path args fun k _ => .inr (.remove k)
      else if name = txt "list" then .run path o.root .list
      else if name = txt "prove" then withKey H o path args fun k _ => .inr (.prove k)
      else if name = txt "verify" then withKey H o path args mkVerify
      else .fail [] (txt "Invalid action.\n")

/-- What a run of the tool leaves behind: stdout, stderr, exit status. -/
structure Exit where
  out : Bytes
  err : Bytes
  code : Nat
deriving DecidableEq

/-- `urkel_base16_print` (urkel.c:111-131). -/
def hexLine (b : Bytes) : Bytes := base16Encode b ++ [10]

/-- `printf("%lu")`. -/
def ulong (n : Nat) : Bytes := txt (toString n)

/-- The loop of `urkel_iter_next` without value and size (tree.c:1260-1273): the value is
not read. -/
def keyLoop (s : Store) : Nat → Iter → Res (Iter × Except Err B32)
  | 0, _ => .ub
  | fuel + 1, it => do
    let (it, r) ← iterSeek s it
    match r with
    | .error e => pure (it, .error e)
    | .ok () =>
      match it.node with
      | some (.leaf _ _ k _ _) => pure (it, .ok k)
      | _ => keyLoop s fuel it

/-- `urkel_iter_next(iter, key, NULL, NULL)` (tree.c:1249-1285). -/
def iterNextKey (db : Db) (it : Iter) : Res (Iter × Except Err B32) := keyLoop db.store iterFuel it

/-- The loop of `list` (urkel.c:546-547): what it has printed and `urkel_errno`. It ends
after as many rounds as there are keys and one more, so any larger `fuel` is enough. -/
def listLoop (db : Db) : Nat → Iter → Bytes → Res (Bytes × Err)
  | 0, _, _ => .ub
  | fuel + 1, it, out => do
    let (it, r) ← iterNextKey db it
    match r with
    | .ok k => listLoop db fuel it (out ++ hexLine k.bytes)
    | .error e => pure (out, e)

/-- The loop of `info` (urkel.c:475-479): `items`, `size` and `urkel_errno`. -/
def infoLoop (db : Db) : Nat → Iter → Nat → Nat → Res (Nat × Nat × Err)
  | 0, _, _, _ => .ub
  | fuel + 1, it, items, size => do
    let (it, r) ← iterNext db it
    match r with
    | .ok (_, v) => infoLoop db fuel it (items + 1) (size + 32 + v.length)
    | .error e => pure (items, size, e)

/-- `goto fail` with a message, and the end of `urkel_main` with `ret = 1`, as seen by
`main` (urkel.c:596-633). -/
def Exit.bad (m : String) : Exit := ⟨[], txt m, 1⟩
def Exit.good (out : Bytes) : Exit := ⟨out, [], 0⟩

/-- `info` (urkel.c:458-493). The root printed is the current one even if another snapshot
is counted. -/
def cmdInfo (E : Env) (fuel : Nat) (db : Db) (root : Option B32) : Res (Db × Exit) := do
  let (db, r) ← urkelIterate E db root
  match r with
  | .error _ => pure (db, .bad "Could not create iterator.\n")
  | .ok it => do
    let (items, size, e) ← infoLoop db fuel it 0 0
    pure (db, if e ≠ .EITEREND then .bad "Iteration failed.\n"
      else .good (txt "Items: " ++ ulong items ++ [10] ++ txt "Size:  " ++ ulong size ++ [10] ++ txt "Root:  " ++ hexLine (dbRoot db).bytes))

/-- `list` (urkel.c:536-555). -/
def cmdList (E : Env) (fuel : Nat) (db : Db) (root : Option B32) : Res (Db × Exit) := do
  let (db, r) ← urkelIterate E db root
  match r with
  | .error _ => pure (db, .bad "Could not create iterator.\n")
  | .ok it => do
    let (out, e) ← listLoop db fuel it []
    pure (db, if e ≠ .EITEREND then ⟨out, txt "Iteration failed.\n", 1⟩ else .good out)

/-- `verify` (urkel.c:573-594). -/
def cmdVerify (H : HashFn) (k : B32) (proof : Bytes) (root : Option B32) : Res Exit :=
  match root with
  | none => .ok (.bad "Must provide a root.\n")
  | some h => do
    let r ← urkelVerify H proof k h
    pure (match r.ret with
      | .error _ => .bad "Invalid proof.\n"
      | .ok () => .good (if r.exists_ then hexLine r.value else []))

/-- The actions on an open database (urkel.c:437-571), with the database that is closed at
the end. -/
def cmdOn (E : Env) (fuel : Nat) (db : Db) (root : Option B32) : Cmd → Res (Db × Exit)
  | .create => .ok (db, .good [])
  | .info => cmdInfo E fuel db root
  | .root => .ok (db, .good (hexLine (dbRoot db).bytes))
  | .get k => do
    let (db, r) ← urkelGet E db k root
    pure (db, match r with | .ok v => .good (hexLine v) | .error _ => .bad "Value not found.\n")
  | .insert k v => do
    let (db, r) ← urkelInsert E db k v
    pure (db, match r with | .ok () => .good [] | .error _ => .bad "Could not write value.\n")
  | .remove k => do
    let (db, r) ← urkelRemove E db k
    pure (db, match r with | .ok () => .good [] | .error _ => .bad "Could not remove value.\n")
  | .list => cmdList E fuel db root
  | .prove k => do
    let (db, r) ← urkelProve E db k root
    pure (db, match r with | .ok raw => .good (hexLine raw) | .error _ => .bad "Could not write value.\n")
  | .destroy | .verify _ _ => .ub

/-- `urkel_main` (urkel.c:412-606) on the directory that the path names; `rand` is the key
that a new database gets, `destroy` is `urkel_destroy` (Model/Destroy.lean). Simplified: a
directory is its key file and data files. -/
def cliMain (E : Env) (fuel : Nat) (rand : B32) (destroy : Dir → Res (Dir × Bool)) (d : Dir) (root : Option B32) : Cmd → Res (Dir × Exit)
  | .destroy => do
    let (d, ok) ← destroy d
    pure (d, if ok then .good [] else .bad "Could not destroy database.\n")
  | .verify k proof => do
    let e ← cmdVerify E.H k proof root
    pure (d, e)
  | .create => do
    let (d, r) ← dbOpen E d rand
    match r with
    | .error _ => pure (d, .bad "Could not create database.\n")
    | .ok db => do
      let (db, e) ← cmdOn E fuel db root .create
      pure (db.dir, e)
  | cmd => do
    let (d, r) ← dbOpen E d rand
    match r with
    | .error _ => pure (d, .bad "Could not open database.\n")
    | .ok db => do
      let (db, e) ← cmdOn E fuel db root cmd
      pure (db.dir, e)

/-- `main` (urkel.c:612-633): the directories by path. Simplified: different paths name
different directories. -/
def cli (E : Env) (fuel : Nat) (rand : B32) (destroy : Dir → Res (Dir × Bool)) (fs : Bytes → Dir) (env : Option Bytes) (argv : List Bytes) :
    Res ((Bytes → Dir) × Exit) :=
  match cliParse E.H env argv with
  | .help => .ok (fs, .good usageText)
  | .fail out err => .ok (fs, ⟨out, err, 1⟩)
  | .run path root cmd => do
    let (d, e) ← cliMain E fuel rand destroy (fs path) root cmd
    pure (fun p => if p = path then d else fs p, e)

end Urkel
