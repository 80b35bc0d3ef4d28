import Verif.Model.Resource
/-
What it means that a piece of the library gives back what it took from the system.
-/
namespace Urkel

/-- Whatever the environment answers and wherever the allocator puts things, `m` runs to its
end without using anything that is not there or not of the right kind, and afterwards
exactly the blocks, descriptors, mappings and directory streams exist that existed before,
at the same places. -/
def Restores {α : Type} (m : RM α) : Prop :=
  ∀ (w : List Nat) (heap : Heap), ∃ x w' heap', m w heap = .ok ((x, w'), heap') ∧ ∀ a, heap'.lookup a = heap.lookup a

/-- A store that is opened, used and closed. -/
def rStoreSession (A : Alloc) (as : List RAct) : RM Bool := do
  match ← rStoreOpen A with
  | none => pure false
  | some s => do
    let s ← rActs A s as
    rStoreClose s
    pure true

/-- A database that is opened, used and closed; if it could not be opened there is nothing
to close. -/
def rSession (A : Alloc) (as : List RAct) : RM Bool := do
  match ← rDbOpen A with
  | none => pure false
  | some d => do
    let s ← rActs A d.store as
    rDbClose { d with store := s }
    pure true

end Urkel
