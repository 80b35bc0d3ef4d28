import Verif.Spec.Answers
/-
Databases opened from any directory.
-/
namespace Urkel

/-- A program that opened any directory whatsoever (the files may be damaged, but there are
not more files, and none is longer, than the library writes) and has made any calls since;
the files are left alone while it runs and system calls do not fail. -/
inductive FromDir (E : Env) : Sys → Prop
  | opened {d d' : Dir} {rand : B32} {db : Db} : (∀ f ∈ d.files, f.length ≤ E.cfg.maxFile) → d.files.length < E.cfg.maxFiles → 1 < E.cfg.maxFiles →
      dbOpen E d rand = .ok (d', .ok db) → FromDir E ⟨db, fun _ => none⟩
  | call {s s' : Sys} {op : Op} {r : Ret} : FromDir E s → step E s op = .ok (s', r) → FromDir E s'

/-- On the way of the key there is its leaf, which is new: it has not been written to the
files yet, and its value is `x`. -/
def FindsNew (s : Store) (key : B32) (n : Node) (x : Bytes) : Prop := ∃ h vp d, Way s key n 0 (.leaf h none key (some x) vp) d

/-- How many pieces a commit of this tree appends to the files: for each new leaf its value and its
record, for each new branch its record. -/
def appends : Node → Nat
  | .null => 0
  | .hash _ _ => 0
  | .leaf _ p _ _ _ => if p.isNone then 2 else 0
  | .internal _ p _ l r => appends l + appends r + if p.isNone then 1 else 0

end Urkel
