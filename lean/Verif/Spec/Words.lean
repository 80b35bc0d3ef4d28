import Verif.Model.Words
/-
What the machine integers stand for.
-/
namespace Urkel

/-- The numbers that the machine integers of the write buffer stand for. -/
def MSlab.nat {w : Nat} (s : MSlab w) : Slab :=
  ⟨s.data, s.dataOff.toNat, s.offsets.map BitVec.toNat, s.offsetsLen.toNat, s.start.toNat, s.filePos.toNat, s.fileIndex.toNat⟩

/-- The store with unbounded numbers. -/
def MStore.nat {w : Nat} (s : MStore w) : Store :=
  ⟨s.key, s.files, s.index.toNat, s.curSize.toNat, s.slab.nat, s.cache, s.state, s.lastMeta, s.faults, s.io⟩

def MDb.nat {w : Nat} (d : MDb w) : Db := ⟨d.store.nat, d.hash, d.revert⟩

/-- The numbers of nodes of a tree that are in memory. -/
def Node.inMemory : Node → Nat
  | .null => 0
  | .hash _ _ => 1
  | .leaf _ _ _ _ _ => 1
  | .internal _ _ _ l r => 1 + l.inMemory + r.inMemory

/-- The limits are those of store.c:23-28 (with or without URKEL_FSYNC). -/
def RealLimits (E : Env) : Prop := E.cfg.maxFile = 0x7ffff000 ∧ E.cfg.maxFiles = 0x7fff ∧ E.cfg.writeBuf = 67108864

/-- The write buffer is in order: the lengths agree with what it holds, and the blocks are as big as the lengths say. -/
structure MSlab.Ok {w : Nat} (s : MSlab w) : Prop where
  len : s.dataLen.toNat = s.data.length
  room : s.data.length ≤ s.dataSize.toNat
  sum : (s.offsets.map BitVec.toNat).sum + s.dataOff.toNat = s.data.length
  off : s.dataOff.toNat ≤ s.filePos.toNat
  offs : ∀ o ∈ s.offsets, o.toNat ≤ 0x7ffff000
  pos : s.filePos.toNat ≤ 2 ^ 33
  cap : s.offsetsLen.toNat ≤ s.fileIndex.toNat + 1
  used : s.offsets.length ≤ s.offsetsLen.toNat
  offRoom : s.offRoom = if s.offsetsLen.toNat = 0 then 0 else s.offsetsLen.toNat + 1
  start : s.start.toNat ≤ s.offsets.length
  dmax : s.dataOff.toNat ≤ 0x7ffff000

/-- The files are in order: the index is that of a file, and files yet to be written to are not longer than 4 GB. -/
structure MStore.Ok {w : Nat} (s : MStore w) : Prop where
  slab : s.slab.Ok
  index : s.index.toNat < 2 ^ 31
  cur : s.curSize.toNat ≤ 2 ^ 34
  next : ∀ (j : Nat) (f : Bytes), s.index.toNat ≤ j → s.files[j]? = some f → f.length ≤ 2 ^ 32

/-- A bound on how many bytes have gone through the write buffer: files that are full have at least 1 GB. -/
def MSlab.written {w : Nat} (s : MSlab w) : Nat := 2 ^ 30 * s.fileIndex.toNat + s.filePos.toNat

end Urkel
