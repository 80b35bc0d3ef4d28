import Verif.Model.Interrupt
import Verif.Spec.Log
import Verif.Spec.Crash
import Verif.Spec.Power
/-
Executions in which the process is killed, any number of times, at any moment.
-/
namespace Urkel

/-- What a killed `urkel_open` of a directory with data files `F` can leave. -/
def OpenCut (E : Env) (key : B32) (F F' : List Bytes) : Prop :=
  ∃ tr, recoverTrace E key F F.length Meta.init = .ok tr ∧ F' ∈ tr

/-- Any number of killed opens, one after the other. -/
inductive OpensCut (E : Env) (key : B32) : List Bytes → List Bytes → Prop
  | nil (F : List Bytes) : OpensCut E key F F
  | cons {F F1 F2 : List Bytes} : OpenCut E key F F1 → OpensCut E key F1 F2 → OpensCut E key F F2

/-- Executions with kills. The log has an entry for every commit that was started,
newest first: the root it reported or would have reported, its contents, and whether its
call returned success. A kill in the middle of a committing call leaves a prefix of the
bytes it writes (`F`); killed opens may follow (`F'`), and then an open that is not
killed. -/
inductive Crashy (E : Env) : List ((B32 × Contents) × Bool) → Sys → Prop
  | start {s : Sys} : Started E s → Crashy E [] s
  | commit {log : List ((B32 × Contents) × Bool)} {s s' : Sys} {op : Op} {c : Contents} :
      Crashy E log s → Allowed E s op → step E s op = .ok (s', .unit) → Commits E s op c →
      Crashy E (((dbRoot s'.db, c), true) :: log) s'
  | other {log : List ((B32 × Contents) × Bool)} {s s' : Sys} {op : Op} {r : Ret} :
      Crashy E log s → Allowed E s op → step E s op = .ok (s', r) → (r ≠ .unit ∨ ∀ c, ¬ Commits E s op c) →
      Crashy E log s'
  | idle {log : List ((B32 × Contents) × Bool)} {s : Sys} {F' : List Bytes} {rand : B32} {d : Dir} {db : Db} :
      Crashy E log s → (s.db.store.files.getLastD []).length % 38 = 0 →
      OpensCut E s.db.store.key s.db.store.files F' →
      dbOpen E ⟨some s.db.store.key.bytes, F'⟩ rand = .ok (d, .ok db) → Crashy E log ⟨db, fun _ => none⟩
  | killed {log : List ((B32 × Contents) × Bool)} {s s' : Sys} {op : Op} {c : Contents} {F F' : List Bytes} {rand : B32}
      {d : Dir} {db : Db} :
      Crashy E log s → (s.db.store.files.getLastD []).length % 38 = 0 →
      Allowed E s op → step E s op = .ok (s', .unit) → Commits E s op c →
      OnlyOwnRecord E s.db.store.key s.db.store.files s'.db.store.files →
      CrashImage s.db.store.files s'.db.store.files F → OpensCut E s.db.store.key F F' →
      dbOpen E ⟨some s.db.store.key.bytes, F'⟩ rand = .ok (d, .ok db) →
      Crashy E (((dbRoot s'.db, c), false) :: log) ⟨db, fun _ => none⟩

end Urkel
