import Verif.Spec.Db
/-
Damaged data files: what a call gets to see on its way down the tree, and the few kinds of
damage that it does not survive.
-/
namespace Urkel

/-- The record announces a path longer than a key. -/
def LongPath (d : Bytes) : Prop :=
  ∃ t a b rest, d = t :: a :: b :: rest ∧ t.toNat % 16 = 1 ∧ t.toNat / 16 % 4 = 3 ∧ 256 < a.toNat + 256 * b.toNat ∧
    (a.toNat + 256 * b.toNat + 7) / 8 ≤ rest.length

/-- A database after bytes of its data files have changed (bit rot, another
program); the files keep their lengths. -/
def Rotten (db db' : Db) : Prop :=
  ∃ files, files.map List.length = db.store.files.map List.length ∧ db' = { db with store := { db.store with files := files } }

/-- Programs whose database is damaged: it was opened from any directory whatsoever, there
were any calls with any results, and between them the data files may have changed in any way
and system calls may fail. -/
inductive Worn (E : Env) : Sys → Prop
  | opened {d d' : Dir} {rand : B32} {db : Db} : dbOpen E d rand = .ok (d', .ok db) → Worn E ⟨db, fun _ => none⟩
  | rot {s : Sys} {db : Db} : Worn E s → Rotten s.db db → Worn E { s with db := db }
  | faults {s : Sys} (fs : List (Option Fault)) : Worn E s → Worn E { s with db := { s.db with store := { s.db.store with faults := fs } } }
  | call {s s' : Sys} {op : Op} {r : Ret} : Worn E s → step E s op = .ok (s', r) → Worn E s'

/-- The bits of a compressed path. -/
def Bits.path (b : Bits) : List Bool := (bitsOf b.data).take b.size

/-- `Way s key n d n' d'`: somebody who looks for `key` and stands at the node `n`, having
used `d` bits of the key, comes to the node `n'` with `d'` bits used. A branch is followed
if its path agrees with the key and a bit of the key is left to choose the side; a node that
is not in memory is read from the files. -/
inductive Way (s : Store) (key : B32) : Node → Nat → Node → Nat → Prop
  | here (n : Node) (d : Nat) : Way s key n d n d
  | down {h : Option B32} {p : Option Ptr} {pre : Bits} {l r n : Node} {d d' : Nat} {b : Bool} :
      pre.path <+: key.bits.drop d → key.bits[d + pre.size]? = some b →
      Way s key (if b then r else l) (d + pre.size + 1) n d' → Way s key (.internal h p pre l r) d n d'
  | load {h : B32} {p : Ptr} {n n' : Node} {d d' : Nat} :
      storeResolve s h p = .ok (some n) → Way s key n d n' d' → Way s key (.hash h p) d n' d'

/-- The record at `p` can be read and announces a path longer than a key. -/
def LongRecord (s : Store) (p : Ptr) : Prop :=
  1 ≤ p.size ∧ p.size ≤ 113 ∧ ∃ d, storeRead s p.size p.index p.pos = some d ∧ LongPath d

/-- On the way of `key` there is a record with a path longer than a key. -/
def MeetsLong (s : Store) (key : B32) (n : Node) (d : Nat) : Prop := ∃ h p d', Way s key n d (.hash h p) d' ∧ LongRecord s p

/-- On the way of `key` there is a branch whose path is all the rest of the key. -/
def MeetsFull (s : Store) (key : B32) (n : Node) (d : Nat) : Prop :=
  ∃ h p pre l r d', Way s key n d (.internal h p pre l r) d' ∧ pre.path = key.bits.drop d'

/-- On the way of `key` there is a branch whose path begins with all the rest of the key. -/
def MeetsOver (s : Store) (key : B32) (n : Node) (d : Nat) : Prop :=
  ∃ h p pre l r d', Way s key n d (.internal h p pre l r) d' ∧ key.bits.drop d' <+: pre.path

/-- On the way of `key` there is a leaf in the wrong place: the keys are different, but not in
the bits that are left. -/
def MeetsTwin (s : Store) (key : B32) (n : Node) (d : Nat) : Prop :=
  ∃ h p k v vp d', Way s key n d (.leaf h p k v vp) d' ∧ k ≠ key ∧ k.bits.drop d' = key.bits.drop d'

/-- The last branch above the leaf of `key`: its path, the other side `y`, and the number of
bits used below it. -/
def LastBranch (s : Store) (key : B32) (n : Node) (d : Nat) (pre : Bits) (y : Node) (d' : Nat) : Prop :=
  ∃ h p l r d0 b, Way s key n d (.internal h p pre l r) d0 ∧ pre.path <+: key.bits.drop d0 ∧ key.bits[d0 + pre.size]? = some b ∧
    d' = d0 + pre.size + 1 ∧ y = (if b then l else r) ∧ ∃ h p v vp, Way s key (if b then r else l) d' (.leaf h p key v vp) d'

/-- The other side of the last branch is not in memory and its record cannot be used: it
cannot be read, is no record, or announces a path longer than a key. -/
def LostSibling (s : Store) (key : B32) (n : Node) (d : Nat) : Prop :=
  ∃ pre h p d', LastBranch s key n d pre (.hash h p) d' ∧ (storeResolve s h p = .ok none ∨ LongRecord s p)

/-- The other side of the last branch is a branch, and the two paths do not fit into one. -/
def LongSibling (s : Store) (key : B32) (n : Node) (d : Nat) : Prop :=
  ∃ pre y d' h p pre' l r, LastBranch s key n d pre y d' ∧ Way s key y d' (.internal h p pre' l r) d' ∧ 256 < pre.size + 1 + pre'.size

end Urkel
