import Verif.Model.Conc
/-
Serializability: a concurrent run has the results of the same calls made one after the
other, in an order that agrees with real time.
-/
namespace Urkel

/-- Call `i` ended before call `j` began. -/
def Before (sched : List Nat) (i j : Nat) : Prop :=
  i ≠ j ∧ ∀ a b : Nat, sched[a]? = some i → sched[b]? = some j → a < b

/-- `i` comes before `j` in the list. -/
def Precedes (order : List Nat) (i j : Nat) : Prop := ∃ x y z, order = x ++ i :: y ++ j :: z

/-- The lock that protects a variable. -/
def guardOf : Var → Lock
  | .tx n => .tx n
  | .iter n => .iter n
  | .table => .files
  | _ => .tree

/-- Variables that carry no data. -/
def NoData : Var → Prop
  | .table => True
  | .iter _ => True
  | _ => False

/-- The first part only takes and gives back locks, and looks at things it does not use. -/
def PreOk {L : Type} (pre : List (SAct L)) : Prop :=
  pre ≠ [] ∧ ∀ a ∈ pre, (∃ l m, a = .acq l m) ∨ (∃ l, a = .rel l) ∨ ∃ v, a = .peek v

/-- The rest touches data only under the locks held at its beginning and not yet given
back. -/
def Guarded {L : Type} : List (Lock × Mode) → List (SAct L) → Prop
  | _, [] => True
  | held, .acq l m :: p => (∀ v, guardOf v = l → NoData v) ∧ Guarded ((l, m) :: held) p
  | held, .rel l :: p => Guarded (held.filter fun h => h.1 ≠ l) p
  | held, .peek _ :: p => Guarded held p
  | held, .rd v _ :: p => (NoData v ∨ ∃ m, (guardOf v, m) ∈ held) ∧ Guarded held p
  | held, .wr v _ :: p => (NoData v ∨ (guardOf v, Mode.wr) ∈ held) ∧ Guarded held p

/-- Takes all its locks before touching any data (two-phase locking). -/
def TwoPhase {L : Type} (p : CProg L) : Prop := PreOk p.pre ∧ Guarded (p.pre.foldl heldAfter []) p.body

end Urkel
