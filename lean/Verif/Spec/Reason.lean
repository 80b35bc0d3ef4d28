import Verif.Spec.ProofFormat
/-
Why a proof proves nothing about a key and a root: what each error number of `urkel_verify` means.
-/
namespace Urkel

/-- How many bits of the key the branches take: the bits of each, and one more that selects the child. -/
def takes (steps : List (Stretch × B32)) : Nat := (steps.map fun s => s.1.count + 1).sum

/-- Counted back from bit `depth` of the key, the bits of all these branches are there and are those of the key. -/
def Agrees (key : B32) (depth : Nat) (steps : List (Stretch × B32)) : Prop :=
  ∀ a s b, steps = a ++ s :: b → takes (s :: b) ≤ depth ∧ s.1.bits <+: key.bits.drop (depth - takes (s :: b))

/-- What is wrong with a proof. Of several faults the verifier reports the one of the end of the way before those of the branches,
and of these the one farthest from the root; then the number of bits; the hash last. -/
inductive Wrong (H : HashFn) (key root : B32) (p : Paper) : Err → Prop
  /-- It says that there is another key, and gives the key itself. -/
  | sameKey {vh : B32} : p.ending = .other key vh → Wrong H key root p .ESAMEKEY
  /-- It says that the way ends at a branch, which has the bits of the key. -/
  | samePath {w : Stretch} {l r : B32} : p.ending = .branch w l r → w.bits <+: key.bits.drop p.depth → Wrong H key root p .ESAMEPATH
  /-- The branches have more bits than it says the way has. -/
  | negDepth {a b : List (Stretch × B32)} {s : Stretch × B32} : p.ending.fits key p.depth → p.steps = a ++ s :: b → Agrees key p.depth b →
      p.depth < takes (s :: b) → Wrong H key root p .ENEGDEPTH
  /-- The key does not lead through a branch. -/
  | pathMismatch {a b : List (Stretch × B32)} {s : Stretch × B32} : p.ending.fits key p.depth → p.steps = a ++ s :: b → Agrees key p.depth b →
      takes (s :: b) ≤ p.depth → ¬ s.1.bits <+: key.bits.drop (p.depth - takes (s :: b)) → Wrong H key root p .EPATHMISMATCH
  /-- The branches have fewer bits than it says the way has. -/
  | tooDeep : p.ending.fits key p.depth → Agrees key p.depth p.steps → takes p.steps < p.depth → Wrong H key root p .ETOODEEP
  /-- Everything is as it should be, but the root is another one. -/
  | hashMismatch : p.ending.fits key p.depth → LeadsTo key p.steps 0 p.depth → hashUp H key p.steps 0 (p.ending.hash H key) ≠ root →
      Wrong H key root p .EHASHMISMATCH

end Urkel
