import Verif.Spec.Damage
import Verif.Spec.Crash
/-
Opening any directory, and looking for an old root in any data files.
-/
namespace Urkel

/-- `prev` and `root` are the pointers in the 38 bytes `d` of a commit record: the commit record before it, and
its root node. -/
def Points (d : Bytes) (prev root : Ptr) : Prop :=
  (d.drop 4).take 7 = ptrWrite prev ∧ (d.drop 11).take 7 = ptrWrite root ∧
    (prev.index < 2 ^ 15 ∧ prev.pos < 2 ^ 31 ∧ prev.size < 2 ^ 10) ∧ (root.index < 2 ^ 15 ∧ root.pos < 2 ^ 31 ∧ root.size < 2 ^ 10)

/-- At `p` there is a commit record with these pointers. -/
def RecordAt (E : Env) (s : Store) (p prev root : Ptr) : Prop :=
  ∃ d, storeRead s 38 p.index p.pos = some d ∧ ValidRec E s.key d ∧ Points d prev root

/-- What somebody sees who reads the root at `p`: the hash of the root node, or nothing (the node
or the value of a leaf cannot be read), or a record with a path longer than a key. -/
inductive Sight where
  | root (h : B32)
  | lost
  | long
deriving DecidableEq

def seen (E : Env) (s : Store) (p : Ptr) : Sight :=
  if p.index = 0 then .root B32.zero
  else match storeResolve s B32.zero p with
    | .ok (some (.internal _ _ pre (.hash hl _) (.hash hr _))) => .root (hashInternal E.H pre hl hr)
    | .ok (some (.leaf _ _ k v vp)) => match storeRetrieve s v vp with
      | .ok (some x) => .root (hashValue E.H k x)
      | _ => .lost
    | .ok _ => .lost
    | _ => .long

/-- A step of the search for the root `h`: the commit record at `p` has another root; the one
before it is at `q`. -/
def Passes (E : Env) (s : Store) (h : B32) (p q : Ptr) : Prop :=
  p.index ≠ 0 ∧ ∃ root x, RecordAt E s p q root ∧ seen E s root = .root x ∧ x ≠ h

/-- The end of a search. -/
inductive Hunted where
  | found (root : Ptr)
  | missing
  | dies

/-- `Hunt E s h p o`: the search for the root `h` that begins with the commit record at `p` ends
with `o`. -/
inductive Hunt (E : Env) (s : Store) (h : B32) : Ptr → Hunted → Prop
  | first {p : Ptr} : p.index = 0 → Hunt E s h p .missing
  | broken {p : Ptr} : p.index ≠ 0 → (∀ prev root, ¬ RecordAt E s p prev root) → Hunt E s h p .missing
  | lost {p prev root : Ptr} : p.index ≠ 0 → RecordAt E s p prev root → seen E s root = .lost → Hunt E s h p .missing
  | long {p prev root : Ptr} : p.index ≠ 0 → RecordAt E s p prev root → seen E s root = .long → Hunt E s h p .dies
  | found {p prev root : Ptr} : p.index ≠ 0 → RecordAt E s p prev root → seen E s root = .root h → Hunt E s h p (.found root)
  | next {p q : Ptr} {o : Hunted} : Passes E s h p q → Hunt E s h q o → Hunt E s h p o

/-- The search does not end. -/
def Endless (E : Env) (s : Store) (h : B32) (p : Ptr) : Prop :=
  ∃ f : Nat → Ptr, f 0 = p ∧ ∀ i, Passes E s h (f i) (f (i + 1))

/-- The newest commit record in the files: slot `j` of file `i`. -/
def Newest (E : Env) (key : B32) (files : List Bytes) (i j : Nat) (prev root : Ptr) : Prop :=
  ∃ f, files[i]? = some f ∧ 38 * j + 38 ≤ f.length ∧ ValidRec E key (slot f j) ∧ Points (slot f j) prev root ∧
    (∀ j', j < j' → 38 * j' + 38 ≤ f.length → ¬ ValidRec E key (slot f j')) ∧
    ∀ (i' : Nat) (f' : Bytes) (j' : Nat), i < i' → files[i']? = some f' → 38 * j' + 38 ≤ f'.length → ¬ ValidRec E key (slot f' j')

/-- There is no commit record in the files. -/
def NoRecord (E : Env) (key : B32) (files : List Bytes) : Prop :=
  ∀ (i : Nat) (f : Bytes) (j : Nat), files[i]? = some f → 38 * j + 38 ≤ f.length → ¬ ValidRec E key (slot f j)

/-- The files up to and with slot `j` of file `i`. -/
def cutAt (files : List Bytes) (i j : Nat) : List Bytes := files.take i ++ [(files.getD i []).take (38 * j + 38)]

/-- A store with these files. -/
def storeOn (key : B32) (files : List Bytes) : Store :=
  { key := key, files := files, index := files.length, curSize := (files.getLastD []).length,
    slab := Slab.init, cache := [], state := Meta.init, lastMeta := Meta.init, faults := [], io := [] }

end Urkel
