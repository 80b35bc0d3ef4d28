import Verif.Model.HeapIter
/-
What a program with an iterator may do to memory.
-/
namespace Urkel

/-- An iterator over the transaction at address `t` is created, `urkel_iter_next` is called
once in each of the database states `dbs` and returns `rs`, and the iterator is destroyed.
While it is open, every block that was there before is unchanged and at most 770 blocks
are new; after it is destroyed, memory is exactly what it was. -/
def IterRun (A : Alloc) (t : Nat) (dbs : List Db) (rs : List (Except Err (B32 × Bytes))) (heap : Heap) : Prop :=
  ∃ it heap1 it' heap2 heap3, hIterCreate A t heap = .ok (it, heap1) ∧ hIterCalls A it dbs heap1 = .ok ((it', rs), heap2) ∧
    (∀ a c, heap.lookup a = some c → heap2.lookup a = some c) ∧
    (∃ new : List Nat, new.length ≤ 770 ∧ ∀ a, heap2.lookup a ≠ none → heap.lookup a ≠ none ∨ a ∈ new) ∧
    hIterDestroy it' heap2 = .ok ((), heap3) ∧ ∀ a, heap3.lookup a = heap.lookup a

/-- The same with `urkel_iterate`, which makes a transaction of its own. -/
def IterateRun (A : Alloc) (E : Env) (db db' : Db) (h : Option B32) (dbs : List Db) (rs : List (Except Err (B32 × Bytes))) (heap : Heap) : Prop :=
  ∃ it heap1 it' heap2 heap3, hIterate A E db h heap = .ok ((db', .ok it), heap1) ∧ hIterCalls A it dbs heap1 = .ok ((it', rs), heap2) ∧
    (∀ a c, heap.lookup a = some c → heap2.lookup a = some c) ∧
    (∃ new : List Nat, new.length ≤ 773 ∧ ∀ a, heap2.lookup a ≠ none → heap.lookup a ≠ none ∨ a ∈ new) ∧
    hIterDestroy it' heap2 = .ok ((), heap3) ∧ ∀ a, heap3.lookup a = heap.lookup a

end Urkel
