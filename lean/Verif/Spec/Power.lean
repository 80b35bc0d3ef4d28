import Verif.Model.Api
/-
What a power loss can leave of the data files. A file has the bytes written to it so
far and a length that `fdatasync` has put on stable storage.
-/
namespace Urkel

/-- A data file as the operating system holds it: what has been written, and how much
of it is known to be on stable storage. -/
structure DiskFile where
  data : Bytes
  durable : Nat
deriving DecidableEq

/-- The files 1, 2, 3, ... of a database directory. -/
abbrev Disk := List DiskFile

/-- The effect of one system call. -/
def Disk.apply (disk : Disk) : IoEv → Disk
  | .create j => if disk.length + 1 = j then disk ++ [⟨[], 0⟩] else disk
  | .append j d => disk.modify (j - 1) fun f => { f with data := f.data ++ d }
  | .sync j => disk.modify (j - 1) fun f => { f with durable := f.data.length }

/-- The effect of a sequence of system calls, the newest at the head. -/
def Disk.replay (disk : Disk) (evs : List IoEv) : Disk := evs.foldr (fun e d => d.apply e) disk

/-- What can be found in a file after a power loss: the synced bytes are there; of the
rest each byte is the one written or zero (a block that never arrived), and the end may
be missing. -/
structure Survives (f : DiskFile) (b : Bytes) : Prop where
  least : f.durable ≤ b.length
  most : b.length ≤ f.data.length
  synced : ∀ i < f.durable, b[i]? = f.data[i]?
  rest : ∀ i < b.length, b[i]? = f.data[i]? ∨ b[i]? = some 0

/-- What can be found in the directory after a power loss. Files none of whose bytes
have been synced may be missing. -/
structure PowerLoss (disk : Disk) (files : List Bytes) : Prop where
  most : files.length ≤ disk.length
  missing : ∀ f ∈ disk.drop files.length, f.durable = 0
  there : ∀ (j : Nat) (f : DiskFile) (b : Bytes), disk[j]? = some f → files[j]? = some b → Survives f b

/-- Everything in the file has been synced. -/
def DiskFile.Synced (f : DiskFile) : Prop := f.durable = f.data.length

/-- The disk under an opened database: it holds the database's files, every file before
the one being appended to has been synced, and files after it (left by a failed call)
are empty. -/
structure Holds (disk : Disk) (s : Store) : Prop where
  data : disk.map DiskFile.data = s.files
  pos : 1 ≤ s.index
  le : s.index ≤ s.files.length
  before : ∀ (j : Nat) (f : DiskFile), disk[j]? = some f → j + 1 < s.index → f.Synced
  after : ∀ (j : Nat) (f : DiskFile), disk[j]? = some f → s.index ≤ j → f = ⟨[], 0⟩

/-- No byte has been written to a file before all earlier files were synced. -/
def Ordered (disk : Disk) : Prop :=
  ∀ (j k : Nat) (f g : DiskFile), j < k → disk[j]? = some f → disk[k]? = some g → g.data ≠ [] → f.Synced

/-- Calls that commit when they succeed. -/
def Op.Writes : Op → Prop
  | .commit _ | .insert1 _ _ | .remove1 _ => True
  | _ => False

/-- Calls on one opened database: any sequence that does not close it, allowed or not,
whatever the operating system does to the writes. -/
inductive Session (E : Env) : Sys → List Op → Sys → Prop
  | nil (s : Sys) : Session E s [] s
  | cons {s s1 s2 : Sys} {op : Op} {ops : List Op} {r : Ret} : (∀ rand, op ≠ .reopen rand) →
      step E s op = .ok (s1, r) → Session E s1 ops s2 → Session E s (op :: ops) s2

end Urkel
