import Verif.Spec.Map
/-
Executions annotated with what has been committed so far.
-/
namespace Urkel

/-- `c` is what a successful `op` commits: the contents of the transaction, or
the current contents with one key set or removed. -/
def Commits (E : Env) (s : Sys) : Op → Contents → Prop
  | .commit id, c => ∃ tx, s.txs id = some tx ∧ Shows s.db tx c
  | .insert1 k v, c => ∃ db tx c0, txCreate E s.db none = .ok (db, .ok tx) ∧ Shows db tx c0 ∧ c = c0.set k (some v)
  | .remove1 k, c => ∃ db tx c0, txCreate E s.db none = .ok (db, .ok tx) ∧ Shows db tx c0 ∧ c = c0.set k none
  | _, _ => False

/-- Executions with the log of commits, newest first: the root the database
reported right after each commit, and the contents committed. -/
inductive Logged (E : Env) : List (B32 × Contents) → Sys → Prop
  | start {s : Sys} : Started E s → Logged E [] s
  | commit {log : List (B32 × Contents)} {s s' : Sys} {op : Op} {c : Contents} :
      Logged E log s → Allowed E s op → step E s op = .ok (s', .unit) → Commits E s op c →
      Logged E ((dbRoot s'.db, c) :: log) s'
  | other {log : List (B32 × Contents)} {s s' : Sys} {op : Op} {r : Ret} :
      Logged E log s → Allowed E s op → step E s op = .ok (s', r) → (r ≠ .unit ∨ ∀ c, ¬ Commits E s op c) →
      Logged E log s'

/-- The call can change what transaction `id` shows: it writes to it, replaces
it or ends it. -/
def Op.Changes (id : Nat) : Op → Prop
  | .create i _ | .destroy i | .clear i | .txInject i _ | .insert i _ _ | .remove i _ => i = id
  | .reopen _ => True
  | _ => False

/-- `urkel_inject` is not among the calls. -/
def NoInject (tr : List (Op × Ret)) : Prop := ∀ h r, (Op.inject h, r) ∉ tr

/-- A run of allowed calls from a given state. -/
inductive Run (E : Env) : Sys → List Op → Sys → Prop
  | nil (s : Sys) : Run E s [] s
  | cons {s s1 s2 : Sys} {op : Op} {ops : List Op} {r : Ret} :
      Allowed E s op → step E s op = .ok (s1, r) → Run E s1 ops s2 → Run E s (op :: ops) s2

/-- Any sequence of calls, allowed or not, whatever the operating system does to
the writes (`Store.faults`). -/
inductive Calls (E : Env) : Sys → List Op → Sys → Prop
  | nil (s : Sys) : Calls E s [] s
  | cons {s s1 s2 : Sys} {op : Op} {ops : List Op} {r : Ret} :
      step E s op = .ok (s1, r) → Calls E s1 ops s2 → Calls E s (op :: ops) s2

/-- Two opened databases that cannot be told apart by reading. -/
structure SameView (E : Env) (db db' : Db) : Prop where
  root : dbRoot db' = dbRoot db
  get : ∀ tx k, txGet db' tx k = txGet db tx k
  create : ∀ h r, (∃ a, txCreate E db' h = .ok (a, r)) ↔ ∃ a, txCreate E db h = .ok (a, r)

/-- The two opens had the same outcome. -/
def SameOutcome (E : Env) : Except Err Db → Except Err Db → Prop
  | .ok db, .ok db' => SameView E db db'
  | .error e, .error e' => e = e'
  | _, _ => False

end Urkel
