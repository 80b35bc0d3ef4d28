import Verif.Spec.Histories
/-
Which commits survive: records that start at a multiple of 38 bytes in their file, and
everything older.
-/
namespace Urkel

/-- The data files end where a record starts: at a multiple of 38 bytes in the last file. -/
def Sys.onBoundary (s : Sys) : Bool := decide ((s.db.store.files.getLastD []).length % 38 = 0)

/-- What is left of a log (newest first) after the database has been closed or its process killed:
every commit whose record is on a boundary, and every older one. -/
def survivors (log : List ((B32 × Contents) × Bool)) : List ((B32 × Contents) × Bool) := log.dropWhile fun e => !e.2

/-- No slot that has been completed between `old` and `new` looks like a commit record, except
the very last 38 bytes. When no commit is safe yet (`fresh`), none starts with the magic number
either. Unlike in `OnlyOwnRecord`, `old` need not end on a boundary: the slot it ends in
counts as new. -/
def NoImitation (E : Env) (key : B32) (fresh : Prop) (old new : List Bytes) : Prop :=
  ∀ j f n, new[j]? = some f → (old.getD j []).length < metaSize * n + metaSize → metaSize * n + metaSize ≤ f.length →
    ¬ (j + 1 = new.length ∧ metaSize * n + metaSize = f.length) →
    ¬ ValidRec E key (slot f n) ∧ (fresh → leNat ((slot f n).take 4) ≠ metaMagic)

/-- Executions in which the process may stop at any moment, wherever the files end. The log
has the commits that the database has now, newest first: the root it reported, the contents,
and whether its record ended on a boundary. When the process stops, in the middle of a
committing call or not, any number of killed opens may follow and then one that is not
killed; of the log the `survivors` are left. -/
inductive Stopped (E : Env) : List ((B32 × Contents) × Bool) → Sys → Prop
  | start {s : Sys} : Started E s → Stopped E [] s
  | commit {log : List ((B32 × Contents) × Bool)} {s s' : Sys} {op : Op} {c : Contents} :
      Stopped E log s → Allowed E s op → step E s op = .ok (s', .unit) → Commits E s op c →
      (s'.onBoundary = false → NoImitation E s.db.store.key (survivors log = []) s.db.store.files s'.db.store.files) →
      Stopped E (((dbRoot s'.db, c), s'.onBoundary) :: log) s'
  | other {log : List ((B32 × Contents) × Bool)} {s s' : Sys} {op : Op} {r : Ret} :
      Stopped E log s → Allowed E s op → step E s op = .ok (s', r) → (r ≠ .unit ∨ ∀ c, ¬ Commits E s op c) →
      Stopped E log s'
  | idle {log : List ((B32 × Contents) × Bool)} {s : Sys} {F' : List Bytes} {rand : B32} {d : Dir} {db : Db} :
      Stopped E log s → OpensCut E s.db.store.key s.db.store.files F' →
      dbOpen E ⟨some s.db.store.key.bytes, F'⟩ rand = .ok (d, .ok db) → Stopped E (survivors log) ⟨db, fun _ => none⟩
  | killed {log : List ((B32 × Contents) × Bool)} {s s' : Sys} {op : Op} {c : Contents} {F F' : List Bytes} {rand : B32}
      {d : Dir} {db : Db} :
      Stopped E log s → Allowed E s op → step E s op = .ok (s', .unit) → Commits E s op c →
      NoImitation E s.db.store.key (survivors log = []) s.db.store.files s'.db.store.files →
      CrashImage s.db.store.files s'.db.store.files F → OpensCut E s.db.store.key F F' →
      dbOpen E ⟨some s.db.store.key.bytes, F'⟩ rand = .ok (d, .ok db) →
      Stopped E (survivors (if F = s'.db.store.files then ((dbRoot s'.db, c), s'.onBoundary) :: log else log)) ⟨db, fun _ => none⟩

/-- Calls made one after the other, with the log as in `Stopped`. -/
inductive StopSeq (E : Env) : List ((B32 × Contents) × Bool) → Sys → List (Op × Ret) → List ((B32 × Contents) × Bool) → Sys → Prop
  | nil (log : List ((B32 × Contents) × Bool)) (s : Sys) : StopSeq E log s [] log s
  | commit {log log' : List ((B32 × Contents) × Bool)} {s s1 s' : Sys} {op : Op} {c : Contents} {t : List (Op × Ret)} :
      Allowed E s op → step E s op = .ok (s1, .unit) → Commits E s op c →
      NoImitation E s.db.store.key (survivors log = []) s.db.store.files s1.db.store.files →
      StopSeq E (((dbRoot s1.db, c), s1.onBoundary) :: log) s1 t log' s' → StopSeq E log s ((op, .unit) :: t) log' s'
  | other {log log' : List ((B32 × Contents) × Bool)} {s s1 s' : Sys} {op : Op} {r : Ret} {t : List (Op × Ret)} :
      Allowed E s op → step E s op = .ok (s1, r) → (r ≠ .unit ∨ ∀ c, ¬ Commits E s op c) → StopSeq E log s1 t log' s' →
      StopSeq E log s ((op, r) :: t) log' s'

end Urkel
