/-
io_win.c: the reader-writer lock that Windows builds of liburkel make from a critical section and a semaphore.
-/
namespace Urkel

/-- Where a thread is. `rdEnter`: about to enter the critical section in `urkel_rwlock_rdlock` (io_win.c:1043); `rdInc`: inside, before
`++mtx->readers` (1045); `rdWait`: inside, waiting for the semaphore (1046); `rdLeave`: about to leave it (1052). `unEnter`,
`unDec`, `unPost`, `unLeave`: the same places in `urkel_rwlock_rdunlock` (1057-1064). `wrWait`: waiting for the semaphore in
`urkel_rwlock_wrlock` (1029); `writing`: it has the lock for writing; `wrPost`: in `urkel_rwlock_wrunlock` (1037). `idle`:
in none of them. -/
inductive RwPc where
  | idle
  | rdEnter | rdInc | rdWait | rdLeave
  | unEnter | unDec | unPost | unLeave
  | wrWait | writing | wrPost
deriving DecidableEq

/-- A thread: where it is, and how often it has the lock for reading. -/
structure RwThread where
  pc : RwPc
  holds : Nat
deriving DecidableEq

/-- The lock (io_win.c:56-60): `readers`, whether a thread is in the critical section, whether the semaphore (which is 0 or 1) is 1; and the
threads. The counter is an `unsigned int` in the code; here it does not wrap. -/
structure RwState where
  readers : Nat
  inCs : Bool
  sem : Bool
  ths : List RwThread
deriving DecidableEq

/-- `urkel_rwlock_create` (io_win.c:996-1018), and `n` threads. -/
def RwState.init (n : Nat) : RwState := ⟨0, false, true, List.replicate n ⟨.idle, 0⟩⟩

/-- What a thread that is in none of the functions does next. -/
inductive RwCall where
  | rdlock | rdunlock | wrlock
deriving DecidableEq

/-- Result of a step: the thread has to wait; the library aborts; or the new state. -/
inductive RwRes where
  | wait
  | abort
  | go (s : RwState)
deriving DecidableEq

/-- Thread `t` moves to another place. -/
def RwState.goto (s : RwState) (t : Nat) (th : RwThread) (pc : RwPc) : RwState := { s with ths := s.ths.set t { th with pc := pc } }

/-- One step of thread `t` (io_win.c:1027-1065). A thread that is idle starts the call `c`, except that `rdunlock` is only called by a
thread that has the lock for reading; one that is `writing` calls `urkel_rwlock_wrunlock`. `EnterCriticalSection` and
`WaitForSingleObject` wait; `ReleaseSemaphore` fails if the semaphore is 1 already, and the library then aborts. -/
def rwStep (s : RwState) (t : Nat) (c : RwCall) : RwRes :=
  match s.ths[t]? with
  | none => .wait
  | some th =>
    match th.pc with
    | .idle =>
      match c with
      | .rdlock => .go (s.goto t th .rdEnter)
      | .rdunlock => if th.holds = 0 then .go s else .go (s.goto t th .unEnter)
      | .wrlock => .go (s.goto t th .wrWait)
    | .rdEnter => if s.inCs then .wait else .go { s.goto t th .rdInc with inCs := true }
    | .rdInc =>
      if s.readers + 1 = 1 then .go { s.goto t th .rdWait with readers := s.readers + 1 }
      else .go { s.goto t th .rdLeave with readers := s.readers + 1 }
    | .rdWait => if s.sem then .go { s.goto t th .rdLeave with sem := false } else .wait
    | .rdLeave => .go { s with inCs := false, ths := s.ths.set t ⟨.idle, th.holds + 1⟩ }
    | .unEnter => if s.inCs then .wait else .go { s.goto t th .unDec with inCs := true }
    | .unDec =>
      if s.readers - 1 = 0 then .go { s with readers := s.readers - 1, ths := s.ths.set t ⟨.unPost, th.holds - 1⟩ }
      else .go { s with readers := s.readers - 1, ths := s.ths.set t ⟨.unLeave, th.holds - 1⟩ }
    | .unPost => if s.sem then .abort else .go { s.goto t th .unLeave with sem := true }
    | .unLeave => .go { s.goto t th .idle with inCs := false }
    | .wrWait => if s.sem then .go { s.goto t th .writing with sem := false } else .wait
    | .writing => .go (s.goto t th .wrPost)
    | .wrPost => if s.sem then .abort else .go { s.goto t th .idle with sem := true }

/-- Steps in the given order; a thread that has to wait does so. `none`: the library has aborted. -/
def rwRun : RwState → List (Nat × RwCall) → Option RwState
  | s, [] => some s
  | s, (t, c) :: sched =>
    match rwStep s t c with
    | .wait => rwRun s sched
    | .abort => none
    | .go s => rwRun s sched

end Urkel
