import Verif.Model.Destroy
import Verif.Model.Store
/-
What `urkel_destroy` may touch, and what a database directory looks like in the file
system.
-/
namespace Urkel

/-- The path of `name` in the directory `d`. -/
def inDir (d name : Bytes) : Bytes := d ++ [47] ++ name

/-- The names the library uses in its directory, except "lock": "meta" and ten decimal
digits below 2^32. -/
def OwnName (name : Bytes) : Prop :=
  name = "meta".toUTF8.toList ∨
    (name.length = 10 ∧ (∀ c ∈ name, 48 ≤ c.toNat ∧ c.toNat ≤ 57) ∧
      name.foldl (fun a c => 10 * a + (c.toNat - 48)) 0 < 2 ^ 32)

/-- The directory, its lock file, its key file and its numbered files. -/
def OwnPath (d p : Bytes) : Prop :=
  p = d ∨ p = inDir d "lock".toUTF8.toList ∨ ∃ name, OwnName name ∧ p = inDir d name

/-- Every path below `d` is an own one, and a file. -/
def OnlyOurs (fs : Fs) (d : Bytes) : Prop :=
  ∀ q e, fs.at (d ++ [47] ++ q) = some e → OwnPath d (d ++ [47] ++ q) ∧ ∃ data, e = .file data

/-- The file system as files of a database (what the store model starts from). -/
def DirAt (fs : Fs) (d : Bytes) (c : Dir) : Prop :=
  fs.at (inDir d "meta".toUTF8.toList) = c.keyFile.map .file ∧
    c.files.length ≤ 0x7fff ∧
    ∀ k, k < c.files.length → ∃ name : Bytes, name.length = 10 ∧ (∀ x ∈ name, 48 ≤ x.toNat ∧ x.toNat ≤ 57) ∧
      name.foldl (fun a x => 10 * a + (x.toNat - 48)) 0 = k + 1 ∧
      fs.at (inDir d name) = (c.files[k]?).map .file

end Urkel
