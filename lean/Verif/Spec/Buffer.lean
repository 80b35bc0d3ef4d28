import Verif.Model.Store
/-
Specification for the write buffer: sequences of buffered records and flushes, and
where each record was said to be.
-/
namespace Urkel

/-- A call on the write buffer: put a record, or flush. -/
inductive BufOp where
  | write (d : Bytes)
  | flush

/-- The records put by a sequence of calls. -/
def records : List BufOp → List Bytes
  | [] => []
  | .write d :: ops => d :: records ops
  | .flush :: ops => records ops

/-- Make the calls, whatever the flushes return. For each record: the record and the
file index and position noted for it right after it was put (store.c:687-689,
704-706). Last component: whether the last call was a successful flush. -/
def runBuf (E : Env) : Store → List BufOp → Res (Store × List (Bytes × Nat × Nat) × Bool)
  | s, [] => .ok (s, [], false)
  | s, .write d :: ops => do
    let slab ← slabWrite E s.slab d
    let (s', ps, b) ← runBuf E { s with slab := slab } ops
    pure (s', (d, slab.fileIndex, slab.filePos - d.length) :: ps, b)
  | s, .flush :: ops => do
    let (s1, ok) ← storeFlush E s
    let (s', ps, b) ← runBuf E s1 ops
    pure (s', ps, match ops with | [] => ok | _ => b)

/-- The record `d` is in file number `i` at position `p`. -/
def InFile (files : List Bytes) (d : Bytes) (i p : Nat) : Prop :=
  1 ≤ i ∧ ∃ f, files[i - 1]? = some f ∧ p + d.length ≤ f.length ∧ (f.drop p).take d.length = d

/-- A fault that leaves no byte of the failed write in the file. -/
def Fault.Benign : Option Fault → Prop
  | none => True
  | some .openFail => True
  | some .syncFail => True
  | some (.writeFail k) => k = 0
  | some .mapFail => False

end Urkel
