import Verif.Model.Procs
import Verif.Spec.Log
/-
Several processes on one directory: what they committed together.
-/
namespace Urkel

/-- The count a process goes by when it takes the lock is still right, and the files end where a record
starts; calls are the allowed ones. Anything else a process does is fine. -/
def Timely (E : Env) (w : World) : ProcEv → Prop
  | .enter p => ∀ k n, w.proc p = .counted k n → w.holder = none →
      n = w.dir.files.length ∧ (w.dir.files.getLastD []).length % 38 = 0
  | .call p op => ∀ s, w.proc p = .inside s → Allowed E s op
  | _ => True

/-- The event commits the contents `c`. -/
def World.Commits (E : Env) (w : World) : ProcEv → Contents → Prop
  | .call p op, c => ∃ s, w.proc p = .inside s ∧ Urkel.Commits E s op c
  | _, _ => False

/-- Any number of processes, with the log of what they have committed together, newest first: the
root reported right after each commit, and its contents. The directory was made before, by a
process that had it for itself, and has all that process committed. -/
inductive Together (E : Env) : List (B32 × Contents) → World → Prop
  | start {log : List (B32 × Contents)} {s : Sys} : Logged E log s → Together E log (.idle s.db.dir)
  | commit {log : List (B32 × Contents)} {w w' : World} {p : Nat} {op : Op} {s' : Sys} {c : Contents} :
      Together E log w → Timely E w (.call p op) → procStep E w (.call p op) = .ok (w', .unit) → w.Commits E (.call p op) c →
      w'.proc p = .inside s' → Together E ((dbRoot s'.db, c) :: log) w'
  | other {log : List (B32 × Contents)} {w w' : World} {ev : ProcEv} {r : Ret} :
      Together E log w → Timely E w ev → procStep E w ev = .ok (w', r) → (r ≠ .unit ∨ ∀ c, ¬ w.Commits E ev c) → Together E log w'

/-- The four events of an `urkel_open`. -/
def opening (p : Nat) (rand : B32) : List ProcEv := [.look p, .key p rand, .count p, .enter p]

/-- The process that does it. -/
def ProcEv.by : ProcEv → Nat
  | .look p | .key p _ | .count p | .enter p | .call p _ | .leave p => p

end Urkel
