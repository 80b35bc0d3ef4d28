import Verif.Model.Nested
/-
What programs may do while an iterator is open, in terms of the calls.
-/
namespace Urkel

/-- The transactions a call changes. Asking for the root or for a proof changes a transaction with uncommitted changes (it computes the hashes: `write`). -/
def Call.changesTx : Call → List Nat
  | .txDestroy x | .txClear x | .txRoot x true | .txInject x _ | .txInsert x _ | .txRemove x _ | .txProve x true _ | .txCommit x _ _ => [x]
  | _ => []

/-- The transactions a call only reads. -/
def Call.readsTx : Call → List Nat
  | .txRoot x false | .txGet x _ | .txHas x _ | .txProve x false _ => [x]
  | _ => []

/-- Calls that need the database for themselves: commit and inject, and looking for an older root. -/
def Call.changesDb : Call → Bool
  | .inject _ | .txCreate _ true _ | .txInject _ _ | .txCommit _ _ _ => true
  | _ => false

def Use.changesTx : Use → List Nat
  | .call c => c.changesTx
  | .iterClose x _ true => [x]
  | _ => []

def Use.readsTx : Use → List Nat
  | .call c => c.readsTx
  | .iterOpen x _ => [x]
  | _ => []

def Use.changesDb : Use → Bool
  | .call c => c.changesDb
  | _ => false

/-- The iterators a thread uses. -/
def Use.iters : Use → List Nat
  | .iterOpen _ n | .iterNext _ n _ | .iterClose _ n _ => [n]
  | _ => []

/-- The open iterators, as (iterator, transaction), after a call. -/
def Use.after (o : List (Nat × Nat)) : Use → List (Nat × Nat)
  | .iterOpen x n => (n, x) :: o
  | .iterClose x n _ => o.erase (n, x)
  | _ => o

/-- The iterators that stay open during a call. -/
def Use.during (o : List (Nat × Nat)) : Use → List (Nat × Nat)
  | .iterClose x n _ => o.erase (n, x)
  | _ => o

/-- The thread uses and closes the iterators it has opened, and closes all of them. -/
def Proper : List (Nat × Nat) → List Use → Prop
  | o, [] => o = []
  | _, .call (.iterate _ _ _ _) :: _ => False
  | o, .call _ :: us => Proper o us
  | o, .iterOpen x n :: us => (∀ y, (n, y) ∉ o) ∧ Proper ((n, x) :: o) us
  | o, .iterNext x n _ :: us => (n, x) ∈ o ∧ Proper o us
  | o, .iterClose x n _ :: us => (n, x) ∈ o ∧ Proper (o.erase (n, x)) us

/-- The call changes a transaction that the thread has an open iterator on, or needs the database for itself while the thread has any iterator open. -/
def Use.Clashes (o : List (Nat × Nat)) (d : Use) : Prop :=
  (∃ x ∈ d.changesTx, ∃ n, (n, x) ∈ d.during o) ∨ (d.changesDb = true ∧ d.during o ≠ [])

/-- No call of the thread clashes with its own iterators. -/
def Unhindered : List (Nat × Nat) → List Use → Prop
  | _, [] => True
  | o, d :: us => ¬ d.Clashes o ∧ Unhindered (d.after o) us

/-- The open iterators after several calls. -/
def afterAll (o : List (Nat × Nat)) (us : List Use) : List (Nat × Nat) := us.foldl Use.after o

/-- A proof in a transaction with uncommitted changes. -/
def Use.upgrades : Use → Bool
  | .call (.txProve _ true _) => true
  | _ => false

/-- The calls a thread makes while it keeps an iterator open, and the proofs in transactions with uncommitted changes. -/
def nestedUses : List (Nat × Nat) → List Use → List Use
  | _, [] => []
  | o, d :: us => (if d.during o ≠ [] ∨ d.upgrades = true then [d] else []) ++ nestedUses (d.after o) us

/-- Some thread is not done and no thread can move. -/
def Jammed (pref : Bool) (ths : List Thread) : Prop := (∃ th ∈ ths, th.prog ≠ []) ∧ ∀ t, nestStep pref ths t = none

end Urkel
