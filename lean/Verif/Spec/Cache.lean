import Verif.Model.Khash
/-
A cache as its user sees it: the first value inserted for a key stays.
-/
namespace Urkel

/-- What the store does with its cache. -/
inductive CacheOp (K V : Type) where
  | insert (k : K) (v : V)
  | lookup (k : K)

/-- What it gets to see: whether an insertion was new, and what a lookup found. -/
inductive CacheRet (V : Type) where
  | inserted (new : Bool)
  | found (v : Option V)
deriving DecidableEq

section
variable {K V : Type} [DecidableEq K]

/-- The values inserted for a key, oldest first. -/
def insertsOf (key : K) (ops : List (CacheOp K V)) : List V :=
  ops.filterMap fun op => match op with
    | .insert k v => if k = key then some v else none
    | .lookup _ => none

/-- The results expected of `ops` after the operations `past`. -/
def expected (past : List (CacheOp K V)) : List (CacheOp K V) → List (CacheRet V)
  | [] => []
  | .insert k v :: ops => .inserted (insertsOf k past).isEmpty :: expected (past ++ [.insert k v]) ops
  | .lookup k :: ops => .found (insertsOf k past).head? :: expected (past ++ [.lookup k]) ops

/-- The same operations on the hash table. -/
def runTable (hash : K → Nat) : Kh K V → List (CacheOp K V) → Res (Kh K V × List (CacheRet V))
  | T, [] => .ok (T, [])
  | T, .insert k v :: ops => do
    let (T, b) ← tableInsert hash T k v
    let (T, rs) ← runTable hash T ops
    pure (T, .inserted b :: rs)
  | T, .lookup k :: ops => do
    let o ← tableLookup hash T k
    let (T, rs) ← runTable hash T ops
    pure (T, .found o :: rs)

/-- The number of insertions. -/
def insertions : List (CacheOp K V) → Nat
  | [] => 0
  | .insert _ _ :: ops => insertions ops + 1
  | .lookup _ :: ops => insertions ops

end

end Urkel
