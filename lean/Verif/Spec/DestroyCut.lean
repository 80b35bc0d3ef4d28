import Verif.Spec.Destroy
/-
What a file system holds as the database in the directory `d`.
-/
namespace Urkel

/-- `name` is the name of data file number `k`: ten decimal digits. -/
def FileName (name : Bytes) (k : Nat) : Prop :=
  name.length = 10 ∧ (∀ x ∈ name, 48 ≤ x.toNat ∧ x.toNat ≤ 57) ∧ name.foldl (fun a x => 10 * a + (x.toNat - 48)) 0 = k

/-- The key file and the data files in the directory `d` are those of `c`, which are numbered from 1, and there is no other data file. -/
def HoldsFiles (fs : Fs) (d : Bytes) (c : Dir) : Prop :=
  fs.at (inDir d "meta".toUTF8.toList) = c.keyFile.map .file ∧ c.files.length ≤ 0x7fff ∧
    ∀ name k, FileName name k → k < 2 ^ 32 → fs.at (inDir d name) = if k = 0 then none else (c.files[k - 1]?).map .file

/-- Data files before the key file, data files in the order of their numbers. -/
def RemovedBefore (m n : Bytes) : Prop :=
  (∃ i j, FileName m i ∧ FileName n j ∧ i < j) ∨ ((∃ i, FileName m i) ∧ n = "meta".toUTF8.toList)

/-- The first `j` of the data files of `c` are missing; the other ones are there. -/
def Beheaded (fs : Fs) (d : Bytes) (c : Dir) (j : Nat) : Prop :=
  ∀ name k, FileName name k → k < 2 ^ 32 → fs.at (inDir d name) = if k ≤ j then none else (c.files[k - 1]?).map .file

end Urkel
