import Verif.Spec.Db
import Verif.Spec.Tree
/-
The format of the data files, byte by byte, as the library's own files and those of other programs have it. Nothing here uses
the model's readers and writers.
-/
namespace Urkel

/-- A number in `n` bytes, the least significant one first. -/
def num : Nat → Nat → Bytes
  | 0, _ => []
  | n + 1, x => UInt8.ofNat (x % 256) :: num n (x / 256)

/-- A reference to a record takes seven bytes: the number of the file (from 1), the position in the file and the length of the
record, whose two highest bits share bytes with the other two numbers. -/
def refBytes (p : Ptr) : Bytes := num 2 (2 * p.index + p.size / 512) ++ num 4 (2 * p.pos + p.size / 256 % 2) ++ num 1 (p.size % 256)

/-- No record. -/
def nowhere : Ptr := ⟨0, 0, 0⟩

/-- The record of a key: the byte 2, where its value is, the key. -/
def leafBytes (k : B32) (v : Ptr) : Bytes := [2] ++ refBytes v ++ k.bytes

/-- The record of a branch: the byte 1; if its path has bits, 17 instead and the number of bits (49 and two bytes for 256 bits) and
the bits; where the left child is and its hash; the same for the right child. -/
def branchBytes (path : List Bool) (l r : Ptr) (hl hr : B32) : Bytes :=
  (if path = [] then [1] else if path.length < 256 then [17] ++ num 1 path.length else [49] ++ num 2 path.length) ++ pack path ++
    refBytes l ++ hl.bytes ++ refBytes r ++ hr.bytes

/-- A commit record: the letters `lkrm`, where the previous commit record is, where the root is, and the keyed checksum of
all that. -/
def commitBytes (E : Env) (key : B32) (prev root : Ptr) : Bytes :=
  let body := [0x6c, 0x6b, 0x72, 0x6d] ++ refBytes prev ++ refBytes root
  body ++ E.mac key body

/-- Append a record to the last file, or begin a new file if it does not fit; and the reference to it. -/
def put (max : Nat) (files : List Bytes) (d : Bytes) : List Bytes × Ptr :=
  let last := files.getLastD []
  if last.length + d.length ≤ max then (files.dropLast ++ [last ++ d], ⟨files.length, last.length, d.length⟩)
  else (files ++ [d], ⟨files.length + 1, 0, d.length⟩)

/-- A tree of which parts are new; the others are in the files already, and where. -/
inductive Draft where
  | old (t : PTree) (p : Ptr)
  | leaf (k : B32) (v : Bytes)
  | node (path : List Bool) (l r : Draft)

/-- The whole tree. -/
def Draft.tree : Draft → PTree
  | .old t _ => t
  | .leaf k v => .leaf k v
  | .node path l r => .node path l.tree r.tree

/-- Saving a tree: the new parts only, children before their parents, left before right, values before keys. -/
def Draft.save (H : HashFn) (max : Nat) : Draft → List Bytes → List Bytes × Ptr
  | .old _ p, files => (files, p)
  | .leaf k v, files => let a := put max files v; put max a.1 (leafBytes k a.2)
  | .node path l r, files =>
    let a := l.save H max files
    let b := r.save H max a.1
    put max b.1 (branchBytes path a.2 b.2 (l.tree.hash H) (r.tree.hash H))

/-- Before a commit record the file is filled up with zeros to a multiple of 38. -/
def fill (max : Nat) (files : List Bytes) : List Bytes :=
  if (files.getLastD []).length % 38 = 0 then files else (put max files (List.replicate (38 - (files.getLastD []).length % 38) 0)).1

/-- Where the newest commit record is: at the end of the last file, if there is any. -/
def newestAt (files : List Bytes) : Ptr := if files = [[]] then nowhere else ⟨files.length, (files.getLastD []).length - 38, 0⟩

/-- A commit: the new parts of the tree, zeros, the commit record, which refers to the previous one. The result is the files and where the commit record is. -/
def Draft.commit (E : Env) (key : B32) (d : Draft) (files : List Bytes) : List Bytes × Ptr :=
  let a := d.save E.H E.cfg.maxFile files
  let c := put E.cfg.maxFile (fill E.cfg.maxFile a.1) (commitBytes E key (newestAt files) a.2)
  (c.1, ⟨c.2.index, c.2.pos, 0⟩)

/-- The bytes that a reference refers to (where no bytes are does not matter). -/
def bytesAt (files : List Bytes) (p : Ptr) (d : Bytes) : Prop :=
  1 ≤ p.index ∧ p.size = d.length ∧ ∃ f, files[p.index - 1]? = some f ∧ (d = [] ∧ p.pos < 2 ^ 31 ∨ ∃ a b, f = a ++ d ++ b ∧ a.length = p.pos)

/-- The tree is in the files, with its root at `p`. -/
def Saved (H : HashFn) (files : List Bytes) : PTree → Ptr → Prop
  | .null, p => p = nowhere
  | .leaf k v, p => ∃ vp, bytesAt files p (leafBytes k vp) ∧ bytesAt files vp v
  | .node path l r, p => ∃ lp rp, bytesAt files p (branchBytes path lp rp (l.hash H) (r.hash H)) ∧ Saved H files l lp ∧ Saved H files r rp

/-- What a draft refers to is there. -/
def Draft.Rests (H : HashFn) (files : List Bytes) : Draft → Prop
  | .old t p => Saved H files t p
  | .leaf _ _ => True
  | .node _ l r => l.Rests H files ∧ r.Rests H files

/-- The commits are in the files: the newest record at `p`, each record refers to the one before. -/
def CommitChain (E : Env) (key : B32) (files : List Bytes) : List PTree → Ptr → Prop
  | [], p => p = nowhere
  | t :: ts, p => p.size = 0 ∧ ∃ prev root, bytesAt files ⟨p.index, p.pos, 38⟩ (commitBytes E key prev root) ∧ Saved E.H files t root ∧ CommitChain E key files ts prev

/-- A directory as this format says: the key file has the key, the files are within the limits, the last of them ends with the newest
commit record, which begins at a multiple of 38, and `trees` are the commits, newest first. (Without commits there is one empty file.) -/
structure Conforms (E : Env) (key : B32) (dir : Dir) (trees : List PTree) : Prop where
  keyFile : dir.keyFile = some key.bytes
  nonempty : dir.files ≠ []
  few : dir.files.length < E.cfg.maxFiles
  short : ∀ f ∈ dir.files, f.length ≤ E.cfg.maxFile
  aligned : (dir.files.getLastD []).length % 38 = 0
  commits : CommitChain E key dir.files trees (newestAt dir.files)
  proper : ∀ t ∈ trees, t.Top ∧ t.ValsLe 1023

/-- A run of allowed calls and what they return, from a given state. -/
inductive ExecFrom (E : Env) (s0 : Sys) : List (Op × Ret) → Sys → Prop
  | nil : ExecFrom E s0 [] s0
  | step {tr : List (Op × Ret)} {s s' : Sys} {op : Op} {r : Ret} :
      ExecFrom E s0 tr s → Allowed E s op → step E s op = .ok (s', r) → ExecFrom E s0 (tr ++ [(op, r)]) s'

end Urkel
