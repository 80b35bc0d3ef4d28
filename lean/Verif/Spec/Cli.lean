import Verif.Model.Cli
import Verif.Spec.Log
import Verif.Spec.Iter
import Verif.Spec.Db
/-
What the command line of the tool means, and what a directory holds.
-/
namespace Urkel

/-- One item of a command line; options have a long and a short form. -/
inductive Item where
  | path (long : Bool) (p : Bytes)
  | root (long : Bool) (s : Bytes)
  | hash (long : Bool)
  | operand (s : Bytes)

/-- The arguments that an item consists of. -/
def Item.words : Item → List Bytes
  | .path long p => [if long then txt "--path" else txt "-p", p]
  | .root long s => [if long then txt "--root" else txt "-r", s]
  | .hash long => [if long then txt "--hash" else txt "-H"]
  | .operand s => [s]

def Item.path? : Item → Option Bytes
  | .path _ p => some p
  | _ => none

def Item.root? : Item → Option Bytes
  | .root _ s => some s
  | _ => none

def Item.operand? : Item → Option Bytes
  | .operand s => some s
  | _ => none

def Item.isHash : Item → Bool
  | .hash _ => true
  | _ => false

/-- The number a hexadecimal digit of either case denotes. -/
def digit (c : UInt8) : Option Nat :=
  if 48 ≤ c.toNat ∧ c.toNat ≤ 57 then some (c.toNat - 48)
  else if 65 ≤ c.toNat ∧ c.toNat ≤ 70 then some (c.toNat - 55)
  else if 97 ≤ c.toNat ∧ c.toNat ≤ 102 then some (c.toNat - 87)
  else none

/-- The string is the hexadecimal form of the bytes, in lower or upper case. -/
inductive IsHex : Bytes → Bytes → Prop
  | nil : IsHex [] []
  | cons {a b : UInt8} {x y : Nat} {s d : Bytes} : digit a = some x → digit b = some y → IsHex s d →
      IsHex (a :: b :: s) (UInt8.ofNat (16 * x + y) :: d)

/-- Operands do not begin with a dash, and roots are 64 hexadecimal digits. -/
def Item.ok : Item → Prop
  | .root _ s => ∃ h : B32, IsHex s h.bytes
  | .operand s => ∀ s', s ≠ 45 :: s'
  | _ => True

/-- The operand `s` denotes the key `k`. -/
def IsKey (H : HashFn) (hashed : Bool) (s : Bytes) (k : B32) : Prop :=
  if hashed then k = H s else IsHex s k.bytes

/-- The operands denote the command. Operands that the action does not need are ignored. -/
inductive Means (H : HashFn) (hashed : Bool) : List Bytes → Cmd → Prop
  | create (more : List Bytes) : Means H hashed (txt "create" :: more) .create
  | destroy (more : List Bytes) : Means H hashed (txt "destroy" :: more) .destroy
  | info (more : List Bytes) : Means H hashed (txt "info" :: more) .info
  | root (more : List Bytes) : Means H hashed (txt "root" :: more) .root
  | list (more : List Bytes) : Means H hashed (txt "list" :: more) .list
  | get {s : Bytes} {k : B32} (more : List Bytes) : IsKey H hashed s k → Means H hashed (txt "get" :: s :: more) (.get k)
  | remove {s : Bytes} {k : B32} (more : List Bytes) : IsKey H hashed s k → Means H hashed (txt "remove" :: s :: more) (.remove k)
  | prove {s : Bytes} {k : B32} (more : List Bytes) : IsKey H hashed s k → Means H hashed (txt "prove" :: s :: more) (.prove k)
  | insert {s t : Bytes} {k : B32} {v : Bytes} (more : List Bytes) : IsKey H hashed s k → IsHex t v → v.length ≤ 1024 →
      Means H hashed (txt "insert" :: s :: t :: more) (.insert k v)
  | verify {s t : Bytes} {k : B32} {p : Bytes} (more : List Bytes) : IsKey H hashed s k → IsHex t p →
      Means H hashed (txt "verify" :: s :: t :: more) (.verify k p)

/-- The command line `argv` means the command `cmd` on the database at `path` with the
snapshot `root`: options may stand anywhere; of several paths or roots the last one counts;
the path defaults to `URKEL_PATH` and then to the current directory. -/
def Line (H : HashFn) (env : Option Bytes) (argv : List Bytes) (path : Bytes) (root : Option B32) (cmd : Cmd) : Prop :=
  ∃ items : List Item, argv = items.flatMap Item.words ∧ (∀ i ∈ items, i.ok) ∧ (items.filterMap Item.operand?).length ≤ 32 ∧
    path = ((items.filterMap Item.path?).getLast?.or env).getD (txt ".") ∧
    (match (items.filterMap Item.root?).getLast? with | none => root = none | some s => ∃ h : B32, root = some h ∧ IsHex s h.bytes) ∧
    Means H (items.any Item.isHash) (items.filterMap Item.operand?) cmd

/-- The directory is what a program that made the commits in `log` (newest first) has left
behind, or was never used. -/
def HoldsLog (E : Env) (d : Dir) (log : List (B32 × Contents)) : Prop :=
  (d = Dir.fresh ∧ log = []) ∨ ∃ s, Logged E log s ∧ d = s.db.dir

/-- The last file ends at a multiple of the record size (see defect 6 in DESIGN.md). -/
def Dir.Aligned (d : Dir) : Prop := (d.files.getLastD []).length % 38 = 0

/-- The contents last committed. -/
def newest (log : List (B32 × Contents)) : Contents := (log.map Prod.snd).headD Contents.empty

/-- `c` is what the option `-r` selects. -/
def Selects (log : List (B32 × Contents)) (root : Option B32) (c : Contents) : Prop :=
  match root with
  | none => c = newest log
  | some h => (h, c) ∈ (B32.zero, Contents.empty) :: log

/-- A key can be added to the contents within the limits: values have at most 255 bytes,
and there is room in the files. -/
def Fits (E : Env) (d : Dir) (c : Contents) : Prop :=
  (∀ k v, c k = some v → v.length ≤ 255) ∧ ∃ ks : List B32, (∀ k, c k ≠ none → k ∈ ks) ∧
    (d.files.length + 1) * E.cfg.maxFile + (d.files.getLastD []).length + 2 * (408 * (ks.length + 1) + 76) < E.cfg.maxFile * E.cfg.maxFiles

/-- `f` holds of the contents that `-r` selects, or nothing is selected and `g` holds. -/
def AtRoot (log : List (B32 × Contents)) (root : Option B32) (f : Contents → Prop) (g : Prop) : Prop :=
  (∃ c, Selects log root c ∧ f c) ∨ ((∀ c, ¬ Selects log root c) ∧ g)

/-- A hexadecimal digit in lower case. -/
def lowerDigit (n : Nat) : UInt8 := UInt8.ofNat (if n < 10 then 48 + n else 87 + n)

/-- A line with the hexadecimal form of the bytes. -/
def hexText (b : Bytes) : Bytes := (b.flatMap fun x => [lowerDigit (x.toNat / 16), lowerDigit (x.toNat % 16)]) ++ [10]

/-- The tool prints this and exits with 0. -/
def Exit.prints (out : Bytes) : Exit := ⟨out, [], 0⟩

/-- The tool writes this message to stderr and exits with 1. -/
def Exit.complains (m : String) : Exit := ⟨[], txt m, 1⟩

/-- What a command prints and returns, and what has been committed afterwards. (`verify`
needs no database, `destroy` leaves none: see the theorems about them.) -/
def Effect (H : HashFn) (log : List (B32 × Contents)) (root : Option B32) (cmd : Cmd) (e : Exit) (log' : List (B32 × Contents)) : Prop :=
  match cmd with
  | .create => e = .prints [] ∧ log' = log
  | .root => (∃ h, IsRoot H (newest log) h ∧ e = .prints (hexText h.bytes)) ∧ log' = log
  | .get k => AtRoot log root (fun c => e = match c k with | some v => .prints (hexText v) | none => .complains "Value not found.\n")
      (e = .complains "Value not found.\n") ∧ log' = log
  | .insert k v =>
    if v.length ≤ 1023 then e = .prints [] ∧ ∃ h, IsRoot H ((newest log).set k (some v)) h ∧ log' = (h, (newest log).set k (some v)) :: log
    else e = .complains "Could not write value.\n" ∧ log' = log
  | .remove k =>
    match newest log k with
    | some _ => e = .prints [] ∧ ∃ h, IsRoot H ((newest log).set k none) h ∧ log' = (h, (newest log).set k none) :: log
    | none => e = .complains "Could not remove value.\n" ∧ log' = log
  | .list => AtRoot log root (fun c => ∃ l, Lists l c ∧ e = .prints (l.flatMap fun p => hexText p.1.bytes)) (e = .complains "Could not create iterator.\n") ∧ log' = log
  | .info => AtRoot log root (fun c => ∃ l h, Lists l c ∧ IsRoot H (newest log) h ∧
      e = .prints (txt "Items: " ++ txt (toString l.length) ++ [10] ++ txt "Size:  " ++ txt (toString (l.map fun p => 32 + p.2.length).sum) ++ [10] ++ txt "Root:  " ++ hexText h.bytes))
      (e = .complains "Could not create iterator.\n") ∧ log' = log
  | .prove k => AtRoot log root (fun c => ∃ raw, GoodProof H c k raw ∧ e = .prints (hexText raw)) (e = .complains "Could not write value.\n") ∧ log' = log
  | .destroy | .verify _ _ => False

/-- The limits within which the commands are claimed to work. -/
def CmdOk (E : Env) (d : Dir) (log : List (B32 × Contents)) (root : Option B32) : Cmd → Prop
  | .insert _ v => (v.length ≤ 255 ∧ Fits E d (newest log)) ∨ 1023 < v.length
  | .remove _ => Fits E d (newest log)
  | .list | .info => ∀ c, Selects log root c → Shallow 127 c
  | .destroy | .verify _ _ => False
  | _ => True

end Urkel
