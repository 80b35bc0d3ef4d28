import Verif.Spec.ConcApi
import Verif.Spec.Iter
/-
Whole iterations among concurrent calls.
-/
namespace Urkel

/-- A call of the API, or a whole iteration: make an iterator on transaction `x`, ask it for the next pair `n` times, destroy it. -/
inductive Job where
  | call (op : Op)
  | scan (x n : Nat)

/-- What the caller gets. -/
inductive JobRet where
  | ret (r : Ret)
  | pairs (l : List (Except Err (B32 × Bytes)))

/-- The job done with nobody else around. An iteration leaves everything as it is. -/
def jobStep (E : Env) (s : Sys) : Job → Res (Sys × JobRet)
  | .call op => do
    let (s, r) ← step E s op
    pure (s, .ret r)
  | .scan x n => do
    let t ← s.tx x
    let it ← iterCreate t
    let l ← iterCalls it (List.replicate n s.db)
    pure (s, .pairs l)

/-- The lock operations and accesses of each job (Model/Locks.lean); `misses` for every one of the `n` calls of `urkel_iter_next`. -/
inductive JobOf : Job → Call → Prop
  | call {op : Op} {c : Call} : CallOf op c → JobOf (.call op) c
  | scan (x k : Nat) (nexts : List (List Bool)) : JobOf (.scan x nexts.length) (.iterate x k nexts false)

/-- Made alone, the program does the job whenever it returns something. -/
def DoesJob {L : Type} (E : Env) (out : L → Option JobRet) (p : CProg L) (j : Job) : Prop :=
  ∀ (m : Mem) (r : JobRet), out (alone (p.pre ++ p.body) (m, p.loc)).2 = some r →
    jobStep E m.sys j = .ok ((alone (p.pre ++ p.body) (m, p.loc)).1.sys, r)

/-- Jobs done one after the other, with what they return. -/
inductive JobSeq (E : Env) : Sys → List (Job × JobRet) → Sys → Prop
  | nil (s : Sys) : JobSeq E s [] s
  | cons {s s1 s' : Sys} {j : Job} {r : JobRet} {t : List (Job × JobRet)} : jobStep E s j = .ok (s1, r) → JobSeq E s1 t s' → JobSeq E s ((j, r) :: t) s'

/-- Job `j` began when job `i` had made its first `k` steps. -/
def BegunAfter (sched : List Nat) (k i j : Nat) : Prop := i ≠ j ∧ ∀ b : Nat, sched[b]? = some j → k ≤ (sched.take b).count i

end Urkel
