import Verif.Spec.Log
/-
How much of the data files a call depends on.
-/
namespace Urkel

/-- The two sets of files are the same at the place `p` (a file index, a position and a size):
the file is there in both or missing in both, the bytes are the same, and the file either ends
before the end of the place in both or in neither. -/
def SameAt (files files' : List Bytes) (p : Ptr) : Prop :=
  files[p.index - 1]? = none ∧ files'[p.index - 1]? = none ∨
  ∃ f f', files[p.index - 1]? = some f ∧ files'[p.index - 1]? = some f' ∧ (f.drop p.pos).take p.size = (f'.drop p.pos).take p.size ∧
    (p.pos + p.size ≤ f.length ↔ p.pos + p.size ≤ f'.length)

/-- The program with other contents of the data files. -/
def Sys.withFiles (s : Sys) (files : List Bytes) : Sys :=
  { s with db := { s.db with store := { s.db.store with files := files } } }

/-- The call does the same with other contents of the files: it ends in the same way (result, error,
abort, undefined), and the program then differs in nothing but the files. -/
def SameCall (E : Env) (s : Sys) (op : Op) (files' : List Bytes) : Prop :=
  match step E s op with
  | .ok (s2, r) => step E (s.withFiles files') op = .ok (s2.withFiles files', r)
  | .err e => step E (s.withFiles files') op = .err e
  | .abort => step E (s.withFiles files') op = .abort
  | .ub => step E (s.withFiles files') op = .ub

/-- The calls through a transaction that concern one key. -/
def keyCalls (id : Nat) (k : B32) (v : Bytes) : List Op := [.get id k, .has id k, .prove id k, .insert id k v, .remove id k]

/-- How many node records and values such a call may depend on. -/
def Op.nodeReads : Op → Nat
  | .remove _ _ => 258
  | _ => 257
def Op.valueReads : Op → Nat
  | .get _ _ => 1
  | .prove _ _ => 1
  | _ => 0

/-- The byte at position `j` of the file number `i` (counted from 0). -/
def byteAt (files : List Bytes) (i j : Nat) : Option UInt8 := files[i]?.bind (·[j]?)

end Urkel
