import Verif.Model.Life
import Verif.Spec.Procs
/-
Several processes on one directory that is made, used and destroyed, again and again.
-/
namespace Urkel

/-- What a process goes by is still right: the key it has and its count of the files when it takes the lock (and the files
end where a record starts), and that there is no key file when it makes one. Calls are the allowed ones. Anything else is fine, in particular
`urkel_destroy` at any time. -/
def Fair (E : Env) (l : Life) : LifeEv → Prop
  | .ev (.enter p) => ∀ k n, l.w.proc p = .counted k n → l.there = true → l.w.holder = none →
      l.w.dir.keyFile = some k.bytes ∧ n = l.w.dir.files.length ∧ (l.w.dir.files.getLastD []).length % 38 = 0
  | .ev (.key p _) => l.w.proc p = .saw false → l.there = true → l.w.dir.keyFile = none
  | .ev (.call p op) => ∀ s, l.w.proc p = .inside s → Allowed E s op
  | _ => True

/-- The event commits the contents `c`. -/
def Life.Commits (E : Env) (l : Life) : LifeEv → Contents → Prop
  | .ev e, c => l.w.Commits E e c
  | .destroy _, _ => False

/-- The event is an `urkel_destroy` that succeeds with the answer `r`. -/
def Life.Ends (l : Life) (ev : LifeEv) (r : Ret) : Prop := ∃ p, ev = .destroy p ∧ l.w.proc p = .out ∧ r = .unit

/-- Any number of processes and a directory that is not there at first, with the log of what has been committed since the
directory was made or last destroyed, newest first: the root reported right after each commit, and its contents. -/
inductive Lived (E : Env) : List (B32 × Contents) → Life → Prop
  | start : Lived E [] Life.fresh
  | commit {log : List (B32 × Contents)} {l l' : Life} {p : Nat} {op : Op} {s' : Sys} {c : Contents} :
      Lived E log l → Fair E l (.ev (.call p op)) → lifeStep E l (.ev (.call p op)) = .ok (l', .unit) →
      l.Commits E (.ev (.call p op)) c → l'.w.proc p = .inside s' → Lived E ((dbRoot s'.db, c) :: log) l'
  | ends {log : List (B32 × Contents)} {l l' : Life} {ev : LifeEv} {r : Ret} :
      Lived E log l → lifeStep E l ev = .ok (l', r) → l.Ends ev r → Lived E [] l'
  | other {log : List (B32 × Contents)} {l l' : Life} {ev : LifeEv} {r : Ret} :
      Lived E log l → Fair E l ev → lifeStep E l ev = .ok (l', r) → ¬ l.Ends ev r → (r ≠ .unit ∨ ∀ c, ¬ l.Commits E ev c) →
      Lived E log l'

/-- The process that does it. -/
def LifeEv.by : LifeEv → Nat
  | .ev e => e.by
  | .destroy p => p

/-- Every event is fair when its turn comes. -/
def FairRun (E : Env) : Life → List LifeEv → Prop
  | _, [] => True
  | l, ev :: evs => Fair E l ev ∧ ∀ l' r, lifeStep E l ev = .ok (l', r) → FairRun E l' evs

end Urkel
