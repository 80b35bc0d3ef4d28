import Verif.Spec.Life
import Verif.Spec.Killed
/-
Several processes on one directory that is made, used and destroyed, any of which may be killed at any moment.
-/
namespace Urkel

/-- As `Fair`, except that the files must end where a record starts when a process gives the database up, not when the next one
opens it: after a kill they end anywhere. -/
def FairK (E : Env) (l : Life) : LifeEv → Prop
  | .ev (.enter p) => ∀ k n, l.w.proc p = .counted k n → l.there = true → l.w.holder = none →
      l.w.dir.keyFile = some k.bytes ∧ n = l.w.dir.files.length
  | .ev (.key p _) => l.w.proc p = .saw false → l.there = true → l.w.dir.keyFile = none
  | .ev (.call p op) => ∀ s, l.w.proc p = .inside s → Allowed E s op
  | .ev (.leave p) => ∀ s, l.w.proc p = .inside s → (s.db.store.files.getLastD []).length % 38 = 0
  | _ => True

/-- Any number of processes and a directory that is not there at first, with the log of the commits that were started since the
directory was made or last destroyed, newest first, and whether each of them has returned success. A process can be killed between two calls and while
it waits for nothing (`leave`), in the middle of a committing call, which leaves a prefix of the bytes it writes, or in the middle of an `urkel_open`
that recovers the files, which leaves one of the states on the way, or writes the key file, which leaves a part of it, or in the middle of an `urkel_destroy`, which leaves the directory as it was, or the
key file alone, or an empty directory. (`C95_left`: the only other thing it can leave is a directory without the first data files, in which every
`urkel_open` fails until `urkel_destroy` is called again. That is not included.) -/
inductive Mortal (E : Env) : List ((B32 × Contents) × Bool) → Life → Prop
  | start : Mortal E [] Life.fresh
  | commit {log : List ((B32 × Contents) × Bool)} {l l' : Life} {p : Nat} {op : Op} {s' : Sys} {c : Contents} :
      Mortal E log l → FairK E l (.ev (.call p op)) → lifeStep E l (.ev (.call p op)) = .ok (l', .unit) →
      l.Commits E (.ev (.call p op)) c → l'.w.proc p = .inside s' → Mortal E (((dbRoot s'.db, c), true) :: log) l'
  | ends {log : List ((B32 × Contents) × Bool)} {l l' : Life} {ev : LifeEv} {r : Ret} :
      Mortal E log l → lifeStep E l ev = .ok (l', r) → l.Ends ev r → Mortal E [] l'
  | other {log : List ((B32 × Contents) × Bool)} {l l' : Life} {ev : LifeEv} {r : Ret} :
      Mortal E log l → FairK E l ev → lifeStep E l ev = .ok (l', r) → ¬ l.Ends ev r → (r ≠ .unit ∨ ∀ c, ¬ l.Commits E ev c) →
      Mortal E log l'
  | inCommit {log : List ((B32 × Contents) × Bool)} {l : Life} {p : Nat} {s s' : Sys} {op : Op} {c : Contents} {F : List Bytes} :
      Mortal E log l → l.w.proc p = .inside s → (s.db.store.files.getLastD []).length % 38 = 0 → Allowed E s op →
      step E s op = .ok (s', .unit) → Urkel.Commits E s op c → OnlyOwnRecord E s.db.store.key s.db.store.files s'.db.store.files →
      CrashImage s.db.store.files s'.db.store.files F → Mortal E (((dbRoot s'.db, c), false) :: log) ⟨l.w.killed p F, l.there⟩
  | inOpen {log : List ((B32 × Contents) × Bool)} {l : Life} {p n : Nat} {k : B32} {F : List Bytes} :
      Mortal E log l → l.w.proc p = .counted k n → l.there = true → l.w.holder = none → l.w.dir.keyFile = some k.bytes → n = l.w.dir.files.length →
      OpenCut E k l.w.dir.files F → Mortal E log ⟨l.w.killed p F, l.there⟩
  | inDestroy {log : List ((B32 × Contents) × Bool)} {l : Life} {p : Nat} {d : Dir} :
      Mortal E log l → l.w.proc p = .out → l.there = true → l.w.holder = none → d = ⟨l.w.dir.keyFile, []⟩ ∨ d = Dir.fresh →
      Mortal E [] ⟨{ l.w with dir := d }, true⟩
  | inKey {log : List ((B32 × Contents) × Bool)} {l : Life} {p : Nat} {rand : B32} {n : Nat} :
      Mortal E log l → l.w.proc p = .saw false → l.there = true → l.w.dir.keyFile = none → n < 32 →
      Mortal E log ⟨({ l.w with dir := { l.w.dir with keyFile := some (rand.bytes.take n) } } : World).set p .out, true⟩

end Urkel
