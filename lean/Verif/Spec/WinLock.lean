import Verif.Model.WinLock
/-
What a reader-writer lock is for.
-/
namespace Urkel

/-- Thread `t` has the lock for writing. -/
def RwState.Writes (s : RwState) (t : Nat) : Prop := ∃ th, s.ths[t]? = some th ∧ (th.pc = .writing ∨ th.pc = .wrPost)

/-- Thread `t` has the lock for reading. -/
def RwState.Reads (s : RwState) (t : Nat) : Prop := ∃ th, s.ths[t]? = some th ∧ th.holds > 0

/-- Thread `t` has called one of the functions, which has not returned. -/
def RwState.Busy (s : RwState) (t : Nat) : Prop := ∃ th, s.ths[t]? = some th ∧ th.pc ≠ .idle ∧ th.pc ≠ .writing

/-- Thread `t` wants the lock for writing. -/
def RwState.WantsWrite (s : RwState) (t : Nat) : Prop := ∃ th, s.ths[t]? = some th ∧ th.pc = .wrWait

/-- Thread `t` cannot take a step. -/
def RwState.Stuck (s : RwState) (t : Nat) : Prop := ∀ c, rwStep s t c = .wait

/-- States the lock can get into, with any number of threads and any schedule. -/
def RwState.Reached (s : RwState) : Prop := ∃ n sched, rwRun (.init n) sched = some s

end Urkel
