import Verif.Model.Locks
import Verif.Model.Api
/-
Concurrent calls with data: the shared state of Model/Locks.lean with its values, calls
as programs of accesses to it, and threads running them under the same locks.
-/
namespace Urkel

/-- What appending changes and reading a file looks at (store.c:79-92). -/
structure OutSt where
  key : B32
  files : List Bytes
  index : Nat
  curSize : Nat
  slab : Slab
  faults : List (Option Fault)
  io : List IoEv

/-- The values of the variables of Model/Locks.lean. The table of file handles and the
iterators carry no data here: which handles are open does not matter to what a read
returns (that opening one may abort the process is C41). -/
def Val : Var → Type
  | .head => B32 × Bool
  | .state => Meta
  | .history => List (B32 × Ptr) × Meta
  | .out => OutSt
  | .table => Unit
  | .tx _ => Option Tx
  | .iter _ => Unit

/-- The shared memory. -/
def Mem : Type := (v : Var) → Val v

def Mem.set (m : Mem) (v : Var) (x : Val v) : Mem := fun w => if h : w = v then h ▸ x else m w

/-- The shared memory of a database and its transactions. -/
def Sys.mem (s : Sys) : Mem
  | .head => (s.db.hash, s.db.revert)
  | .state => s.db.store.state
  | .history => (s.db.store.cache, s.db.store.lastMeta)
  | .out => ⟨s.db.store.key, s.db.store.files, s.db.store.index, s.db.store.curSize, s.db.store.slab, s.db.store.faults, s.db.store.io⟩
  | .table => ()
  | .tx n => s.txs n
  | .iter _ => ()

/-- And back. -/
def Mem.sys (m : Mem) : Sys :=
  let o : OutSt := m .out
  let h : List (B32 × Ptr) × Meta := m .history
  let d : B32 × Bool := m .head
  ⟨⟨⟨o.key, o.files, o.index, o.curSize, o.slab, h.1, m .state, h.2, o.faults, o.io⟩, d.1, d.2⟩, fun n => m (.tx n)⟩

/-- One step of a call, on the shared memory and the call's own variables `L`. `rd` and
`wr` may compute anything; `wr` may also look at the old value. `peek` is a read whose
result the rest of the call does not use. -/
inductive SAct (L : Type) where
  | acq (l : Lock) (m : Mode)
  | rel (l : Lock)
  | peek (v : Var)
  | rd (v : Var) (f : Val v → L → L)
  | wr (v : Var) (f : Val v → L → Val v × L)

/-- The step without its data. -/
def SAct.act {L : Type} : SAct L → Act
  | .acq l m => .acq l m
  | .rel l => .rel l
  | .peek v => .rd v
  | .rd v _ => .rd v
  | .wr v _ => .wr v

/-- The step without the locks. -/
def SAct.eff {L : Type} : SAct L → Mem × L → Mem × L
  | .acq _ _, x => x
  | .rel _, x => x
  | .peek _, x => x
  | .rd v f, x => (x.1, f (x.1 v) x.2)
  | .wr v f, x => (x.1.set v (f (x.1 v) x.2).1, (f (x.1 v) x.2).2)

/-- A program of a call run with nobody else around. -/
def alone {L : Type} (p : List (SAct L)) (x : Mem × L) : Mem × L := p.foldl (fun x a => a.eff x) x

/-- A call in progress: the locks it holds, what is left of its first part (`pre`: taking
locks) and of the rest (`body`), and its own variables. -/
structure CT (L : Type) where
  held : List (Lock × Mode)
  pre : List (SAct L)
  body : List (SAct L)
  loc : L

/-- The thread of Model/Locks.lean. -/
def CT.thread {L : Type} (c : CT L) : Thread := ⟨c.held, (c.pre ++ c.body).map SAct.act⟩

/-- The locks held after a step. -/
def heldAfter {L : Type} (held : List (Lock × Mode)) : SAct L → List (Lock × Mode)
  | .acq l m => (l, m) :: held
  | .rel l => held.filter fun h => h.1 ≠ l
  | _ => held

/-- Can the step be made now? Only taking a lock can have to wait. -/
def canStep {L : Type} (ths : List (CT L)) : SAct L → Bool
  | .acq l m => lockFree false (ths.map CT.thread) l m
  | _ => true

/-- One step of call `t`. -/
def cstep {L : Type} (s : Mem × List (CT L)) (t : Nat) : Option (Mem × List (CT L)) :=
  match s.2[t]? with
  | none => none
  | some c =>
    match c.pre, c.body with
    | a :: pre, body =>
      if canStep s.2 a then some ((a.eff (s.1, c.loc)).1, s.2.set t ⟨heldAfter c.held a, pre, body, (a.eff (s.1, c.loc)).2⟩) else none
    | [], a :: body =>
      if canStep s.2 a then some ((a.eff (s.1, c.loc)).1, s.2.set t ⟨heldAfter c.held a, [], body, (a.eff (s.1, c.loc)).2⟩) else none
    | [], [] => none

/-- Steps in the order of the schedule. -/
def crun {L : Type} : Mem × List (CT L) → List Nat → Option (Mem × List (CT L))
  | s, [] => some s
  | s, t :: sched => (cstep s t).bind fun s => crun s sched

/-- A call to be made: its program and the initial values of its variables. -/
structure CProg (L : Type) where
  pre : List (SAct L)
  body : List (SAct L)
  loc : L

def CProg.start {L : Type} (p : CProg L) : CT L := ⟨[], p.pre, p.body, p.loc⟩

/-- The calls one after the other, each alone: the final memory, and what each call ended
with. -/
def serial {L : Type} (calls : List (CProg L)) : List Nat → Mem → Mem × List (Nat × L)
  | [], m => (m, [])
  | i :: is, m =>
    match calls[i]? with
    | none => serial calls is m
    | some p =>
      let r := alone (p.pre ++ p.body) (m, p.loc)
      ((serial calls is r.1).1, (i, r.2) :: (serial calls is r.1).2)

end Urkel
