import Verif.Model.Errno
import Verif.Spec.Iter
import Verif.Spec.Db
/-
What a caller of the library finds in its variables after a call.
-/
namespace Urkel

/-- The errors of include/urkel.h in the order in which they are numbered, from 1. -/
def errorNames : List Err :=
  [.EHASHMISMATCH, .ESAMEKEY, .ESAMEPATH, .ENEGDEPTH, .EPATHMISMATCH, .ETOODEEP, .EINVAL, .ENOTFOUND,
   .ECORRUPTION, .ENOUPDATE, .EBADWRITE, .EBADOPEN, .EITEREND]

/-- `n` is the number of the error `e`. -/
def IsCode (n : Nat) (e : Err) : Prop := 0 < n ∧ errorNames[n - 1]? = some e

/-- The buffers are as large as the interface demands: 1023 bytes for values, 32 for keys. -/
def Caller.Room (c : Caller) : Prop := 1023 ≤ c.value.length ∧ 32 ≤ c.key.length

/-- The value `v` stands at the beginning of the buffer, the rest of the buffer and all
other variables are as before. -/
def Caller.gets (c : Caller) (v : Bytes) : Caller :=
  { c with value := v ++ c.value.drop v.length, size := v.length }

/-- The result `r` of the call `op`, as it reaches the caller: `ret` is the return value
(a pointer counts as true if it is not NULL), `c` and `c'` the caller's variables before
and after. -/
def Delivered (op : Op) (r : Ret) (c : Caller) (ret : Bool) (c' : Caller) : Prop :=
  match r with
  | .fail e => ret = false ∧ ∃ n, IsCode n e ∧
    match op with
    | .get _ _ | .get1 _ _ => c' = { c with errno := n, size := 0 }
    | .prove _ _ | .prove1 _ _ => c' = { c with errno := n, proof := none, proofLen := 0 }
    | _ => c' = { c with errno := n }
  | .bytes b => ret = true ∧
    match op with
    | .get _ _ | .get1 _ _ => c' = c.gets b
    | .prove _ _ | .prove1 _ _ => c' = { c with proof := some b, proofLen := b.length }
    | _ => False
  | .hash h => ret = true ∧ c' = { c with hash := h.bytes }
  | .unit => ret = true ∧
    match op with
    | .insert _ _ _ | .insert1 _ _ => c' = c ∨ ∃ n, IsCode n .ENOUPDATE ∧ c' = { c with errno := n }
    | _ => c' = c

/-- The current file has at least the bytes the store counts. -/
def Store.Backed (s : Store) : Prop := ∀ f, s.files[s.index - 1]? = some f → s.curSize ≤ f.length

/-- What a program may have reached after opening any directory, with any content: calls
succeed or fail as they do, and system calls that write fail whenever they like. -/
inductive Used (E : Env) : Sys → Prop
  | opened {d d' : Dir} {rand : B32} {db : Db} : dbOpen E d rand = .ok (d', .ok db) → Used E ⟨db, fun _ => none⟩
  | call {s s' : Sys} {op : Op} {r : Ret} : Used E s → step E s op = .ok (s', r) → Used E s'
  | faults {s : Sys} (fs : List (Option Fault)) : Used E s → Used E ⟨{ s.db with store := { s.db.store with faults := fs } }, s.txs⟩

/-- A call as a C program makes it: the call, the program's variables before it, the return
value and the variables after it. -/
structure CCall where
  op : Op
  before : Caller
  ret : Bool
  after : Caller

/-- Executions of a C program that opens a new directory; between the calls the program may
do with its variables what it likes, but the buffers have the sizes the interface demands. -/
inductive CExec (E : Env) : List CCall → Sys → Prop
  | start {s : Sys} : Started E s → CExec E [] s
  | call {cs : List CCall} {s s' : Sys} {x : CCall} :
      CExec E cs s → Allowed E s x.op → x.before.Room → cStep true E s x.op x.before = .ok (s', x.ret, x.after) → CExec E (cs ++ [x]) s'

/-- The results `tr` of the specification are what the program got. -/
def Got : List (Op × Ret) → List CCall → Prop
  | [], [] => True
  | (op, r) :: tr, x :: cs => op = x.op ∧ Delivered op r x.before x.ret x.after ∧ Got tr cs
  | _, _ => False

/-- Call `urkel_iter_next` once in each of the given database states, in turn, always with
the same variables, and look at return value and variables after each call; `want` is
whether the caller asks for values. -/
def cIterCalls (tls want : Bool) : Iter → List Db → Caller → Res (List (Bool × Caller))
  | _, [], _ => .ok []
  | it, db :: dbs, c => do
    let (it, ret, c) ← cIterNext tls db want it c
    let rs ← cIterCalls tls want it dbs c
    pure ((ret, c) :: rs)

/-- What the caller sees after a call that should give the pair, or the end. -/
def Arrived (want : Bool) (p : Option (B32 × Bytes)) (o : Bool × Caller) : Prop :=
  match p with
  | some (k, v) => o.1 = true ∧ o.2.key.take 32 = k.bytes ∧
      (want = true → o.2.size = v.length ∧ o.2.value.take v.length = v)
  | none => o.1 = false ∧ IsCode o.2.errno .EITEREND

end Urkel
