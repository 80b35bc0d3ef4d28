import Verif.Model.Procs
/-
store.c: processes that open, use, close and destroy one database directory. `urkel_store_destroy`
(store.c:1153-1212) takes the lock, removes the files and the directory; `urkel_store_init_prefix`
(store.c:893-917) makes the directory if it is not there.
-/
namespace Urkel

/-- The directory is there or not, what is in it, and the processes. -/
structure Life where
  w : World
  there : Bool

/-- A step of a process that opens, uses or closes the database, or a process that has nothing to do with
it so far calls `urkel_destroy`. -/
inductive LifeEv where
  | ev (e : ProcEv)
  | destroy (p : Nat)

/-- One event. Looking for the key file makes the directory first if it is missing (store.c:913-916);
a process whose directory goes away before it has the lock fails at its next step: the key file cannot be
written or read (926-930), the directory not scanned (941), the lock file not created (1082).
`urkel_destroy` (1153-1212) fails if the directory is not there or another process has the lock (1176-1179). Simplified: it removes everything in
one step (1181-1207: the lock is given up before the lock file and the directory are removed, see C44, C58), and
what becomes of files of others in the directory is C58. -/
def lifeStep (E : Env) (l : Life) : LifeEv → Res (Life × Ret)
  | .ev e =>
    if l.there then do
      let (w, r) ← procStep E l.w e
      pure (⟨w, true⟩, r)
    else
      match e with
      | .look p =>
        match l.w.proc p with
        | .out => .ok (⟨l.w.set p (.saw false), true⟩, .unit)
        | _ => .ok (l, .unit)
      | .key p _ =>
        match l.w.proc p with
        | .saw _ => .ok (⟨l.w.set p .out, false⟩, .fail .EBADOPEN)
        | _ => .ok (l, .unit)
      | .count p =>
        match l.w.proc p with
        | .keyed _ => .ok (⟨l.w.set p .out, false⟩, .fail .EBADOPEN)
        | _ => .ok (l, .unit)
      | .enter p =>
        match l.w.proc p with
        | .counted _ _ => .ok (⟨l.w.set p .out, false⟩, .fail .EBADOPEN)
        | _ => .ok (l, .unit)
      | .call _ _ => .ok (l, .unit)
      | .leave p => .ok (⟨l.w.set p .out, false⟩, .unit)
  | .destroy p =>
    match l.w.proc p with
    | .out =>
      if l.there ∧ l.w.holder = none then .ok (⟨{ l.w with dir := Dir.fresh }, false⟩, .unit)
      else .ok (l, .fail .EBADOPEN)
    | _ => .ok (l, .unit)

/-- Events in the given order, with what each gave back. -/
def lifeRun (E : Env) : Life → List LifeEv → Res (Life × List Ret)
  | l, [] => .ok (l, [])
  | l, ev :: evs => do
    let (l, r) ← lifeStep E l ev
    let (l, rs) ← lifeRun E l evs
    pure (l, r :: rs)

/-- There is no directory and nobody wants one yet. -/
def Life.fresh : Life := ⟨.idle Dir.fresh, false⟩

end Urkel
