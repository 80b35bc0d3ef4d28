import Verif.Model.Locks
/-
tree.c: programs that make other calls while an iterator is open. `urkel_iter_create` keeps the locks of the transaction and of the database for reading
until `urkel_iter_destroy`, so a thread can hold a lock several times.
-/
namespace Urkel

open Act

/-- What a thread does: a call of the API (not `iterate`, which is the three others in a row), or creating, using or destroying iterator `n` of transaction `x`. `transient`: the
iterator was made by `urkel_iterate` and destroys its transaction. -/
inductive Use where
  | call (c : Call)
  | iterOpen (x n : Nat)
  | iterNext (x n : Nat) (misses : List Bool)
  | iterClose (x n : Nat) (transient : Bool)

/-- Lock operations and accesses: `urkel_iter_create` (tree.c:1090-1107), `urkel_iter_next` (tree.c:1249-1284), `urkel_iter_destroy`
(tree.c:1109-1132; tree.c:873-881 if transient). `urkel_iterate` (tree.c:812-825) is `urkel_tx_create` and `urkel_iter_create`. -/
def Use.acts : Use → List Act
  | .call c => c.acts
  | .iterOpen x _ => [acq (.tx x) .rd, acq .tree .rd, rd (.tx x)]
  | .iterNext x n misses => acq (.iter n) .wr :: wr (.iter n) :: rd (.tx x) :: readsActs misses ++ [rel (.iter n)]
  | .iterClose x n transient =>
    [acq (.iter n) .wr, wr (.iter n), rel .tree, rel (.tx x)] ++ (if transient then [acq (.tx x) .wr, wr (.tx x), rel (.tx x)] else []) ++ [rel (.iter n)]

/-- One step of thread `t`, as `lockStep` (Model/Locks.lean), except that unlocking gives up one hold of the lock: `pthread_rwlock_rdlock` may be
called several times by a thread, and then has to be undone as often (io_posix.c:1514-1530). -/
def nestStep (pref : Bool) (ths : List Thread) (t : Nat) : Option (List Thread) :=
  match ths[t]? with
  | none => none
  | some th =>
    match th.prog with
    | [] => none
    | .acq l m :: p => if lockFree pref ths l m then some (ths.set t ⟨(l, m) :: th.held, p⟩) else none
    | .rel l :: p => some (ths.set t ⟨th.held.eraseP fun h => h.1 = l, p⟩)
    | .rd _ :: p => some (ths.set t ⟨th.held, p⟩)
    | .wr _ :: p => some (ths.set t ⟨th.held, p⟩)

/-- Threads taking steps in the order of the schedule; as in `lockRun`, readers never make way. -/
def nestRun : List Thread → List Nat → Option (List Thread)
  | ths, [] => some ths
  | ths, t :: sched => (nestStep false ths t).bind fun ths => nestRun ths sched

/-- Threads that will do what is listed. -/
def startUses (uses : List (List Use)) : List Thread := uses.map fun us => ⟨[], us.flatMap Use.acts⟩

end Urkel
