import Verif.Model.Api
/-
Specification of a database as a list of committed maps and one map per open
transaction, and the conditions under which the library is claimed to follow it.
-/
namespace Urkel

/-- The empty map. -/
def Contents.empty : Contents := fun _ => none

/-- `h` is the root hash of the contents `c`: the Merkle hash of a well-formed
tree holding exactly `c` (there is only one such tree, `Top.unique`). -/
def IsRoot (H : HashFn) (c : Contents) (h : B32) : Prop :=
  ∃ t : PTree, t.Top ∧ t.find = c ∧ t.hash H = h

/-- State of the specification: committed maps, newest first; the root hash the
database reports; the map seen by each open transaction. -/
structure SpecDb where
  hist : List Contents
  root : B32
  txs : Nat → Option Contents

def SpecDb.setTx (s : SpecDb) (id : Nat) (c : Option Contents) : SpecDb :=
  { s with txs := fun i => if i = id then c else s.txs i }

/-- A new database. -/
def SpecDb.new : SpecDb := ⟨[], B32.zero, fun _ => none⟩

/-- `c` is a snapshot with root `h`: the empty map or a committed one. -/
def SpecDb.Snapshot (H : HashFn) (s : SpecDb) (h : B32) (c : Contents) : Prop :=
  c ∈ Contents.empty :: s.hist ∧ IsRoot H c h

/-- The last committed map. -/
def SpecDb.last (s : SpecDb) : Contents := s.hist.headD Contents.empty

/-- Outcome of a read. -/
def Contents.getRet (c : Contents) (k : B32) : Ret :=
  match c k with | some v => .bytes v | none => .fail .ENOTFOUND

def Contents.hasRet (c : Contents) (k : B32) : Ret :=
  match c k with | some _ => .unit | none => .fail .ENOTFOUND

/-- A proof that convinces `urkel_verify` of the truth about `k`. -/
def GoodProof (H : HashFn) (c : Contents) (k : B32) (raw : Bytes) : Prop :=
  ∃ h, IsRoot H c h ∧
    urkelVerify H raw k h = .ok ⟨.ok (), (c k).isSome, (c k).getD []⟩

/-- Inserting into a map, or refusing an oversized value. -/
def InsertTo (c : Contents) (k : B32) (v : Bytes) (r : Ret) (c' : Contents) : Prop :=
  if v.length ≤ 1023 then r = .unit ∧ c' = c.set k (some v) else r = .fail .EINVAL ∧ c' = c

/-- Removing from a map. -/
def RemoveTo (c : Contents) (k : B32) (r : Ret) (c' : Contents) : Prop :=
  match c k with
  | some _ => r = .unit ∧ c' = c.set k none
  | none => r = .fail .ENOTFOUND ∧ c' = c

/-- Committing `c`: it becomes the newest committed map and its root the current root. -/
def CommitTo (H : HashFn) (s : SpecDb) (c : Contents) (s' : SpecDb) : Prop :=
  ∃ h, IsRoot H c h ∧ s' = { s with hist := c :: s.hist, root := h }

/-- Reading from the snapshot with root `h` (NULL: the current root), if there is one. -/
def ReadAt (H : HashFn) (s : SpecDb) (h : Option B32) (r : Ret) (f : Contents → Ret → Prop) : Prop :=
  (∃ c, s.Snapshot H (h.getD s.root) c ∧ f c r) ∨
  ((∀ c, ¬ s.Snapshot H (h.getD s.root) c) ∧ r = .fail .ENOTFOUND)

/-- One call of the specification: state, call, result, new state. -/
def SpecStep (H : HashFn) (s : SpecDb) : Op → Ret → SpecDb → Prop
  | .root, r, s' => r = .hash s.root ∧ s' = s
  | .inject h, r, s' => (∃ c, s.Snapshot H h c) ∧ r = .unit ∧ s' = { s with root := h }
  | .create id h, r, s' =>
    (∃ c, s.Snapshot H (h.getD s.root) c ∧ r = .unit ∧ s' = s.setTx id (some c)) ∨
    ((∀ c, ¬ s.Snapshot H (h.getD s.root) c) ∧ r = .fail .ENOTFOUND ∧ s' = s)
  | .destroy id, r, s' => r = .unit ∧ s' = s.setTx id none
  | .clear id, r, s' => r = .unit ∧ s' = s.setTx id (some s.last)
  | .txRoot id, r, s' => ∃ c h, s.txs id = some c ∧ IsRoot H c h ∧ r = .hash h ∧ s' = s
  | .txInject id h, r, s' =>
    (∃ c, s.Snapshot H h c ∧ r = .unit ∧ s' = s.setTx id (some c)) ∨
    ((∀ c, ¬ s.Snapshot H h c) ∧ r = .fail .ENOTFOUND ∧ s' = s)
  | .get id k, r, s' => ∃ c, s.txs id = some c ∧ r = c.getRet k ∧ s' = s
  | .has id k, r, s' => ∃ c, s.txs id = some c ∧ r = c.hasRet k ∧ s' = s
  | .insert id k v, r, s' => ∃ c c', s.txs id = some c ∧ InsertTo c k v r c' ∧ s' = s.setTx id (some c')
  | .remove id k, r, s' => ∃ c c', s.txs id = some c ∧ RemoveTo c k r c' ∧ s' = s.setTx id (some c')
  | .prove id k, r, s' => ∃ c raw, s.txs id = some c ∧ r = .bytes raw ∧ GoodProof H c k raw ∧ s' = s
  | .commit id, r, s' => ∃ c, s.txs id = some c ∧ r = .unit ∧ CommitTo H s c s'
  | .reopen _, r, s' => r = .unit ∧ ∃ h, IsRoot H s.last h ∧ s' = ⟨s.hist, h, fun _ => none⟩
  | .get1 k h, r, s' => ReadAt H s h r (fun c r => r = c.getRet k) ∧ s' = s
  | .has1 k h, r, s' => ReadAt H s h r (fun c r => r = c.hasRet k) ∧ s' = s
  | .prove1 k h, r, s' => ReadAt H s h r (fun c r => ∃ raw, r = .bytes raw ∧ GoodProof H c k raw) ∧ s' = s
  | .insert1 k v, r, s' => ∃ c c', s.Snapshot H s.root c ∧ InsertTo c k v r c' ∧
      (r = .unit → CommitTo H s c' s') ∧ (r ≠ .unit → s' = s)
  | .remove1 k, r, s' => ∃ c c', s.Snapshot H s.root c ∧ RemoveTo c k r c' ∧
      (r = .unit → CommitTo H s c' s') ∧ (r ≠ .unit → s' = s)

/-- Executions of the specification. -/
inductive SpecExec (H : HashFn) : SpecDb → List (Op × Ret) → SpecDb → Prop
  | nil (s : SpecDb) : SpecExec H s [] s
  | snoc {s s1 s2 : SpecDb} {tr : List (Op × Ret)} {op : Op} {r : Ret} :
      SpecExec H s tr s1 → SpecStep H s1 op r s2 → SpecExec H s (tr ++ [(op, r)]) s2

/-! ### When the library is claimed to follow the specification -/

/-- Enough data files are left for `n` bytes of records: the total never needs
file number MAX_FILES. Every record may waste the rest of a file, hence the
factor 2. -/
def HasRoom (E : Env) (files : List Bytes) (n : Nat) : Prop :=
  files.length * E.cfg.maxFile + (files.getLastD []).length + 2 * n < E.cfg.maxFile * E.cfg.maxFiles

/-- A commit of `tx` is covered: every stored value has at most 255 bytes (see
defect 1 in DESIGN.md), and the files have room: `ks` lists the keys, and a
key needs at most 408 bytes. -/
def CanCommit (E : Env) (db : Db) (tx : Tx) : Prop :=
  (∀ k v, txGet db tx k = .ok v → v.length ≤ 255) ∧
  ∃ ks : List B32, (∀ k, txHas db tx k = .ok () → k ∈ ks) ∧
    HasRoom E db.store.files (408 * ks.length + 76)

/-- The current root can be committed on top of with one more key. -/
def CanCommit1 (E : Env) (db : Db) : Prop :=
  ∀ db' tx, txCreate E db none = .ok (db', .ok tx) →
    (∀ k v, txGet db' tx k = .ok v → v.length ≤ 255) ∧
    ∃ ks : List B32, (∀ k, txHas db' tx k = .ok () → k ∈ ks) ∧
      HasRoom E db.store.files (408 * (ks.length + 1) + 76)

/-- Calls covered by the refinement theorem: handles are valid, `urkel_inject`
gets a known root (defect 2), commits are within the limits, and the database is
closed when its last file ends at a multiple of the record size (defect 6). -/
def Allowed (E : Env) (s : Sys) : Op → Prop
  | .inject h => ∃ db' tx, txCreate E s.db (some h) = .ok (db', .ok tx)
  | .destroy id | .clear id | .txRoot id | .txInject id _ | .get id _ | .has id _
  | .insert id _ _ | .remove id _ | .prove id _ => s.txs id ≠ none
  | .commit id => ∃ tx, s.txs id = some tx ∧ CanCommit E s.db tx
  | .reopen _ => (s.db.store.files.getLastD []).length % 38 = 0
  | .insert1 _ v => (v.length ≤ 255 ∨ 1023 < v.length) ∧ CanCommit1 E s.db
  | .remove1 _ => CanCommit1 E s.db
  | _ => True

/-- Executions of the library from a new directory, with the calls made and
their results. -/
inductive Exec (E : Env) : List (Op × Ret) → Sys → Prop
  | start {s : Sys} : Started E s → Exec E [] s
  | step {tr : List (Op × Ret)} {s s' : Sys} {op : Op} {r : Ret} :
      Exec E tr s → Allowed E s op → step E s op = .ok (s', r) → Exec E (tr ++ [(op, r)]) s'

/-- States a program can reach. -/
def Reachable (E : Env) (s : Sys) : Prop := ∃ tr, Exec E tr s

end Urkel
