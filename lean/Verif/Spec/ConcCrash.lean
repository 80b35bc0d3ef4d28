import Verif.Spec.ConcApi
import Verif.Spec.Histories
import Verif.Spec.Db
/-
Being killed while several calls are in progress.
-/
namespace Urkel

/-- The files in the shared memory. -/
def Mem.files (m : Mem) : List Bytes := OutSt.files (m .out)

/-- Made alone on a database that a program can have, the call appends to the files: at every
moment they are what they were at the beginning with some of the bytes that it is going to
append. -/
def Gradual {L : Type} (E : Env) (out : L → Option Ret) (p : CProg L) (op : Op) : Prop :=
  ∀ (m : Mem) (r : Ret) (a rest : List (SAct L)), Reachable E m.sys → Allowed E m.sys op →
    out (alone (p.pre ++ p.body) (m, p.loc)).2 = some r → p.pre ++ p.body = a ++ rest →
    CrashImage m.files (alone (p.pre ++ p.body) (m, p.loc)).1.files (alone a (m, p.loc)).1.files

/-- Calls made one after the other within the limits of the theorems about kills (C25, C57): each is
allowed, the last file ends on a record boundary between the calls, and nothing that is
appended imitates a commit record. -/
inductive Careful (E : Env) : Sys → List (Op × Ret) → Prop
  | nil {s : Sys} : (s.db.store.files.getLastD []).length % 38 = 0 → Careful E s []
  | cons {s : Sys} {op : Op} {r : Ret} {t : List (Op × Ret)} : (s.db.store.files.getLastD []).length % 38 = 0 → Allowed E s op →
      (∀ s', step E s op = .ok (s', r) → op.Writes → OnlyOwnRecord E s.db.store.key s.db.store.files s'.db.store.files) →
      (∀ s', step E s op = .ok (s', r) → Careful E s' t) → Careful E s ((op, r) :: t)

/-- Calls made one after the other, with the log of commits as in `Crashy`: each commit that
returns success adds the root that the database then has and what was committed. -/
inductive LogSeq (E : Env) : List ((B32 × Contents) × Bool) → Sys → List (Op × Ret) → List ((B32 × Contents) × Bool) → Sys → Prop
  | nil (log : List ((B32 × Contents) × Bool)) (s : Sys) : LogSeq E log s [] log s
  | commit {log log' : List ((B32 × Contents) × Bool)} {s s1 s' : Sys} {op : Op} {c : Contents} {t : List (Op × Ret)} :
      Allowed E s op → step E s op = .ok (s1, .unit) → Commits E s op c → LogSeq E (((dbRoot s1.db, c), true) :: log) s1 t log' s' →
      LogSeq E log s ((op, .unit) :: t) log' s'
  | other {log log' : List ((B32 × Contents) × Bool)} {s s1 s' : Sys} {op : Op} {r : Ret} {t : List (Op × Ret)} :
      Allowed E s op → step E s op = .ok (s1, r) → (r ≠ .unit ∨ ∀ c, ¬ Commits E s op c) → LogSeq E log s1 t log' s' → LogSeq E log s ((op, r) :: t) log' s'

/-- The call has returned. -/
def CT.Done {L : Type} (c : CT L) : Prop := c.pre = [] ∧ c.body = []

end Urkel
