import Verif.Model.Heap
/-
Programs whose use of memory is claimed to be right, and what is claimed.
-/
namespace Urkel

/-- What the caller has to do for the library to be able to give its memory back: a
handle is not overwritten while its transaction is open, and every transaction is
destroyed before `urkel_close`. -/
def Neat (s : Sys) : Op → Prop
  | .create id _ => s.txs id = none
  | .reopen _ => ∀ i, s.txs i = none
  | _ => True

/-- A sequence of calls of the functional model with their results, from one state to
another. Nothing is assumed about the calls except that each of them returns. -/
inductive NeatCalls (E : Env) : Sys → List (Op × Ret) → Sys → Prop
  | nil (s : Sys) : NeatCalls E s [] s
  | cons {s s1 s2 : Sys} {op : Op} {r : Ret} {tr : List (Op × Ret)} :
      Neat s op → step E s op = .ok (s1, r) → NeatCalls E s1 tr s2 → NeatCalls E s ((op, r) :: tr) s2

/-- Which handles are open after one more call. -/
def handlesStep (o : Nat → Bool) : Op × Ret → Nat → Bool
  | (.create id _, .unit) => fun i => i = id || o i
  | (.destroy id, _) => fun i => i != id && o i
  | (.reopen _, _) => fun _ => false
  | _ => o

/-- Which handles are open after a sequence of calls. -/
def handles (tr : List (Op × Ret)) : Nat → Bool := tr.foldl handlesStep fun _ => false

/-- `Neat` in terms of the calls made so far. -/
def NeatTrace (tr : List (Op × Ret)) : Prop :=
  (∀ pre id h r suf, tr = pre ++ (Op.create id h, r) :: suf → handles pre id = false) ∧
  (∀ pre rand r suf, tr = pre ++ (Op.reopen rand, r) :: suf → ∀ i, handles pre i = false)

/-- Opening the directory `d` and making the calls `ops`, in memory. -/
def hSession (A : Alloc) (E : Env) (d : Dir) (rand : B32) (ops : List Op) : HM (Except Err (HSys × List Ret)) := do
  let (_, r) ← hOpen A E d rand
  match r with
  | .error e => pure (.error e)
  | .ok s => do
    let x ← hRun A E s ops
    pure (.ok x)

end Urkel
