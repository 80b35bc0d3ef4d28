import Verif.Model.FileMap
/-
store.c: several threads reading data files at the same time. All of them hold the
database read lock, so nothing is evicted or appended meanwhile; the table of handles
is the only shared state they write.
-/
namespace Urkel

/-- A thread performing reads of the files `todo`, in order. `held` is a file it has
opened (file number, handle) and not yet put into the table, `got` the finished reads
with the handle used (`none`: the read failed), newest first. -/
structure Reader where
  todo : List Nat
  held : Option (Nat × Nat)
  got : List (Nat × Option Nat)
deriving DecidableEq

/-- One atomic step of `urkel_store_read` (store.c:508-520) through
`urkel_store_open_file` with READ_FLAGS (store.c:461-491). The two sections under the
table's own lock are atomic: the lookup (store.c:245-259) and the insertion
(store.c:261-282); opening the file happens between them, without that lock.
Simplification: opening is in one step with the lookup, which gives no fewer
schedules of the accesses to the table. `opens` says whether it succeeds. -/
def readerStep (maxFiles : Nat) (s : Handles) (r : Reader) (opens : Bool) : Res (Handles × Reader) :=
  match r.held with
  | some (i, f) => do
    let s ← fmInsert maxFiles s i f
    pure (s, { r with held := none, got := (i, some f) :: r.got })
  | none =>
    match r.todo with
    | [] => .ok (s, r)
    | i :: todo =>
      if i = 0 ∨ i > s.index + 1 then .ok (s, { r with todo := todo, got := (i, none) :: r.got })
      else match fmLookup s i with
        | some f => .ok (s, { r with todo := todo, got := (i, some f) :: r.got })
        | none =>
          if opens then .ok ({ s with fresh := s.fresh + 1 }, { r with todo := todo, held := some (i, s.fresh) })
          else .ok (s, { r with todo := todo, got := (i, none) :: r.got })

/-- One step of thread `t`. -/
def readersStep (maxFiles : Nat) (s : Handles) (rs : List Reader) (t : Nat) (opens : Bool) : Res (Handles × List Reader) :=
  match rs[t]? with
  | none => .ok (s, rs)
  | some r => do
    let (s, r) ← readerStep maxFiles s r opens
    pure (s, rs.set t r)

/-- A schedule: which thread moves next, and whether the file it opens can be
opened. -/
def readersRun (maxFiles : Nat) : Handles → List Reader → List (Nat × Bool) → Res (Handles × List Reader)
  | s, rs, [] => .ok (s, rs)
  | s, rs, (t, opens) :: sched => do
    let (s, rs) ← readersStep maxFiles s rs t opens
    readersRun maxFiles s rs sched

end Urkel
