import Verif.Spec.Procs
import Verif.Spec.Histories
/-
Several processes on one directory, any of which may be killed at any moment, also in the middle of a call.
-/
namespace Urkel

/-- Process `p` has been killed and has left the data files `F`; the operating system has released its lock. -/
def World.killed (w : World) (p : Nat) (F : List Bytes) : World :=
  ({ w with dir := { w.dir with files := F }, holder := if w.holder = some p then none else w.holder } : World).set p .out

/-- As `Timely`, except that the files must end where a record starts when a process gives the database up, not when the next one opens it:
after a kill they end anywhere. -/
def Orderly (E : Env) (w : World) : ProcEv → Prop
  | .enter p => ∀ k n, w.proc p = .counted k n → w.holder = none → n = w.dir.files.length
  | .call p op => ∀ s, w.proc p = .inside s → Allowed E s op
  | .leave p => ∀ s, w.proc p = .inside s → (s.db.store.files.getLastD []).length % 38 = 0
  | _ => True

/-- What has become of the commits that were started: those that returned success are there, in order, and of those that were cut off each is there
as a whole or not at all. -/
inductive Settled : List ((B32 × Contents) × Bool) → List (B32 × Contents) → Prop
  | nil : Settled [] []
  | kept {x : B32 × Contents} {b : Bool} {l : List ((B32 × Contents) × Bool)} {m : List (B32 × Contents)} : Settled l m → Settled ((x, b) :: l) (x :: m)
  | lost {x : B32 × Contents} {l : List ((B32 × Contents) × Bool)} {m : List (B32 × Contents)} : Settled l m → Settled ((x, false) :: l) m

/-- Any number of processes, with the log of the commits they have started, newest first, and whether each of them has returned success.
The directory was made before, by a process that had it for itself. A process can be killed between two calls and while it waits for nothing (`leave`), in the middle of a committing call, which leaves a
prefix of the bytes it writes, or in the middle of an `urkel_open` that recovers the files, which leaves one of the states on the way. -/
inductive Killed (E : Env) : List ((B32 × Contents) × Bool) → World → Prop
  | start {log : List (B32 × Contents)} {s : Sys} : Logged E log s → (s.db.store.files.getLastD []).length % 38 = 0 →
      Killed E (log.map fun x => (x, true)) (.idle s.db.dir)
  | commit {log : List ((B32 × Contents) × Bool)} {w w' : World} {p : Nat} {op : Op} {s' : Sys} {c : Contents} :
      Killed E log w → Orderly E w (.call p op) → procStep E w (.call p op) = .ok (w', .unit) → w.Commits E (.call p op) c →
      w'.proc p = .inside s' → Killed E (((dbRoot s'.db, c), true) :: log) w'
  | other {log : List ((B32 × Contents) × Bool)} {w w' : World} {ev : ProcEv} {r : Ret} :
      Killed E log w → Orderly E w ev → procStep E w ev = .ok (w', r) → (r ≠ .unit ∨ ∀ c, ¬ w.Commits E ev c) → Killed E log w'
  | inCommit {log : List ((B32 × Contents) × Bool)} {w : World} {p : Nat} {s s' : Sys} {op : Op} {c : Contents} {F : List Bytes} :
      Killed E log w → w.proc p = .inside s → (s.db.store.files.getLastD []).length % 38 = 0 → Allowed E s op →
      step E s op = .ok (s', .unit) → Urkel.Commits E s op c → OnlyOwnRecord E s.db.store.key s.db.store.files s'.db.store.files →
      CrashImage s.db.store.files s'.db.store.files F → Killed E (((dbRoot s'.db, c), false) :: log) (w.killed p F)
  | inOpen {log : List ((B32 × Contents) × Bool)} {w : World} {p n : Nat} {k : B32} {F : List Bytes} :
      Killed E log w → w.proc p = .counted k n → w.holder = none → n = w.dir.files.length → OpenCut E k w.dir.files F →
      Killed E log (w.killed p F)

end Urkel
