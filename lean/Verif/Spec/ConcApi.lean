import Verif.Spec.Conc
/-
Concurrent API calls: which calls of Model/Locks.lean make which operations of
Model/Api.lean, and what it means that a program with the locking of the one computes the
other.
-/
namespace Urkel

open Act

/-- The beginning of each call: taking the locks, up to the last one that protects data
(Model/Locks.lean, tree.c:637-1107). What is looked at under a lock that is given back
again only decides whether the lock is taken again for writing (tree.c:838-845, 900-907,
1033-1041). `urkel_tx_create` makes a transaction that nobody else can use before the call
is over: we let it hold the lock of the new transaction all the time. -/
def Call.pre (L : Type) : Call → List (SAct L)
  | .root => [.acq .tree .rd]
  | .inject _ => [.acq .tree .wr]
  | .txCreate x write _ =>
    if write then [.acq (.tx x) .wr, .acq .tree .rd, .peek .head, .rel .tree, .acq .tree .wr] else [.acq (.tx x) .wr, .acq .tree .rd]
  | .txDestroy x => [.acq (.tx x) .wr]
  | .txClear x => [.acq (.tx x) .wr, .acq .tree .rd]
  | .txRoot x write => if write then [.acq (.tx x) .rd, .peek (.tx x), .rel (.tx x), .acq (.tx x) .wr] else [.acq (.tx x) .rd]
  | .txInject x _ => [.acq (.tx x) .wr, .acq .tree .wr]
  | .txGet x _ => [.acq (.tx x) .rd, .acq .tree .rd]
  | .txHas x _ => [.acq (.tx x) .rd, .acq .tree .rd]
  | .txInsert x _ => [.acq (.tx x) .wr, .acq .tree .rd]
  | .txRemove x _ => [.acq (.tx x) .wr, .acq .tree .rd]
  | .txProve x write _ =>
    if write then [.acq (.tx x) .rd, .acq .tree .rd, .peek (.tx x), .rel (.tx x), .acq (.tx x) .wr] else [.acq (.tx x) .rd, .acq .tree .rd]
  | .txCommit x _ _ => [.acq (.tx x) .wr, .acq .tree .wr]
  | .iterate x _ _ _ => [.acq (.tx x) .rd, .acq .tree .rd]

/-- The rest of each call. -/
def Call.body : Call → List Act
  | .root => [rd .head, rel .tree]
  | .inject misses => historyActs misses ++ [wr .head, rel .tree]
  | .txCreate x write misses =>
    (if write then rd .head :: historyActs misses else [rd .head, rd .head, rd .state]) ++ [rel .tree, wr (.tx x), rel (.tx x)]
  | .txDestroy x => [wr (.tx x), rel (.tx x)]
  | .txClear x => [wr (.tx x), rd .state, wr (.tx x), rel .tree, rel (.tx x)]
  | .txRoot x write => (if write then [wr (.tx x)] else [rd (.tx x), rd (.tx x)]) ++ [rel (.tx x)]
  | .txInject x misses => rd (.tx x) :: historyActs misses ++ [wr (.tx x), rel .tree, rel (.tx x)]
  | .txGet x misses => rd (.tx x) :: readsActs misses ++ [rel .tree, rel (.tx x)]
  | .txHas x misses => rd (.tx x) :: readsActs misses ++ [rel .tree, rel (.tx x)]
  | .txInsert x misses => rd (.tx x) :: readsActs misses ++ [wr (.tx x), rel .tree, rel (.tx x)]
  | .txRemove x misses => rd (.tx x) :: readsActs misses ++ [wr (.tx x), rel .tree, rel (.tx x)]
  | .txProve x write misses =>
    (if write then wr (.tx x) :: readsActs misses ++ [wr (.tx x)] else rd (.tx x) :: rd (.tx x) :: readsActs misses) ++ [rel .tree, rel (.tx x)]
  | .txCommit x rolls evicted =>
    wr (.tx x) :: wr .out :: rd .state :: rolls.flatMap appendActs ++ [wr .state, wr .history, rd .table] ++
      (List.replicate evicted [rd .table, acq .files .wr, wr .table, rel .files]).flatten ++ [wr .head, wr (.tx x), rel .tree, rel (.tx x)]
  | .iterate x n nexts transient =>
    rd (.tx x) :: (nexts.flatMap fun misses => acq (.iter n) .wr :: wr (.iter n) :: rd (.tx x) :: readsActs misses ++ [rel (.iter n)]) ++
      [acq (.iter n) .wr, wr (.iter n), rel .tree, rel (.tx x)] ++
      (if transient then [acq (.tx x) .wr, wr (.tx x), rel (.tx x)] else []) ++ [rel (.iter n)]

/-- Not the iteration that owns its transaction (`urkel_iterate`, tree.c:812-825): that is
several calls. -/
def Call.single : Call → Prop
  | .iterate _ _ _ transient => transient = false
  | _ => True

/-- The operations that each call can make. -/
inductive CallOf : Op → Call → Prop
  | root : CallOf .root .root
  | inject (h : B32) (misses : List Bool) : CallOf (.inject h) (.inject misses)
  | create (x : Nat) (h : Option B32) (write : Bool) (misses : List Bool) : CallOf (.create x h) (.txCreate x write misses)
  | destroy (x : Nat) : CallOf (.destroy x) (.txDestroy x)
  | clear (x : Nat) : CallOf (.clear x) (.txClear x)
  | txRoot (x : Nat) (write : Bool) : CallOf (.txRoot x) (.txRoot x write)
  | txInject (x : Nat) (h : B32) (misses : List Bool) : CallOf (.txInject x h) (.txInject x misses)
  | get (x : Nat) (k : B32) (misses : List Bool) : CallOf (.get x k) (.txGet x misses)
  | has (x : Nat) (k : B32) (misses : List Bool) : CallOf (.has x k) (.txHas x misses)
  | insert (x : Nat) (k : B32) (v : Bytes) (misses : List Bool) : CallOf (.insert x k v) (.txInsert x misses)
  | remove (x : Nat) (k : B32) (misses : List Bool) : CallOf (.remove x k) (.txRemove x misses)
  | prove (x : Nat) (k : B32) (write : Bool) (misses : List Bool) : CallOf (.prove x k) (.txProve x write misses)
  | commit (x : Nat) (rolls : List Bool) (evicted : Nat) : CallOf (.commit x) (.txCommit x rolls evicted)

/-- The program makes the lock operations and accesses of the call. -/
def Performs {L : Type} (p : CProg L) (c : Call) : Prop := p.pre = c.pre L ∧ p.body.map SAct.act = c.body

/-- Made alone, the program has the effect of the operation, whenever it returns a value
(`out`); it returns none where the code has undefined behaviour or aborts, or when the code
does not take this path. -/
def Implements {L : Type} (E : Env) (out : L → Option Ret) (p : CProg L) (op : Op) : Prop :=
  ∀ (m : Mem) (r : Ret), out (alone (p.pre ++ p.body) (m, p.loc)).2 = some r →
    step E m.sys op = .ok ((alone (p.pre ++ p.body) (m, p.loc)).1.sys, r)

/-- Calls made one after the other, with what they return. -/
inductive Seq (E : Env) : Sys → List (Op × Ret) → Sys → Prop
  | nil (s : Sys) : Seq E s [] s
  | cons {s s1 s' : Sys} {op : Op} {r : Ret} {t : List (Op × Ret)} : step E s op = .ok (s1, r) → Seq E s1 t s' → Seq E s ((op, r) :: t) s'

/-! ### What an operation depends on and what it changes -/

/-- `write_lock` in `urkel_tx_create`, `urkel_tx_root` and `urkel_tx_prove` (tree.c:838,
902, 1033-1034): the path that the code takes in the state `m`. -/
def Call.taken : Call → Op → Mem → Prop
  | .txCreate _ write _, .create _ h, m => write = (h.isSome || (show B32 × Bool from m .head).2)
  | .txRoot x write, _, m => ∀ (t : Tx) (n : Node), m (.tx x) = some t → t.root = some n →
      write = match n with | .internal none _ _ _ _ => true | .leaf none _ _ _ _ => true | _ => false
  | .txProve x write _, _, m => ∀ (t : Tx) (n : Node), m (.tx x) = some t → t.root = some n →
      write = match n with | .null => false | .hash _ _ => false | _ => true
  | _, _, _ => True

/-- The shared state on which the outcome depends. -/
def Call.needs : Call → List Var
  | .root => [.head]
  | .inject _ => [.state, .history, .out]
  | .txCreate _ write _ => if write then [.head, .state, .history, .out] else [.head, .state]
  | .txDestroy x => [.tx x]
  | .txClear x => [.tx x, .state]
  | .txRoot x _ => [.tx x]
  | .txInject x _ => [.tx x, .state, .history, .out]
  | .txGet x _ => [.tx x, .out]
  | .txHas x _ => [.tx x, .out]
  | .txInsert x _ => [.tx x, .out]
  | .txRemove x _ => [.tx x, .out]
  | .txProve x _ _ => [.tx x, .out]
  | .txCommit x _ _ => [.tx x, .out, .state]
  | .iterate x _ _ _ => [.tx x, .out]

/-- The shared state that may change. -/
def Call.changes : Call → List Var
  | .root => []
  | .inject _ => [.history, .head]
  | .txCreate x write _ => if write then [.history, .tx x] else [.tx x]
  | .txDestroy x => [.tx x]
  | .txClear x => [.tx x]
  | .txRoot x write => if write then [.tx x] else []
  | .txInject x _ => [.history, .tx x]
  | .txGet _ _ => []
  | .txHas _ _ => []
  | .txInsert x _ => [.tx x]
  | .txRemove x _ => [.tx x]
  | .txProve x write _ => if write then [.tx x] else []
  | .txCommit x _ _ => [.tx x, .out, .state, .history, .head]
  | .iterate _ _ _ _ => []

end Urkel
