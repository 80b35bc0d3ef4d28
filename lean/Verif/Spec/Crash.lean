import Verif.Model.Store
/-
What a crash can leave in the files, and which records a scan accepts.
-/
namespace Urkel

/-- `b` is `a` after more bytes were appended, in order: the last file has grown at
its end, and files may have been added after it. -/
def FExt (a b : List Bytes) : Prop :=
  a = b ∨ ∃ i l junk extra, a = i ++ [l] ∧ b = i ++ [l ++ junk] ++ extra

/-- A crash while the files grew from `old` to `new` left `f`: a prefix of the
bytes that were being appended has arrived. -/
def CrashImage (old new f : List Bytes) : Prop := FExt old f ∧ FExt f new

/-- A 38-byte record whose magic and keyed checksum are right. -/
def ValidRec (E : Env) (key : B32) (d : Bytes) : Prop :=
  leNat (d.take 4) = metaMagic ∧ (d.drop 18).take 20 = E.mac key (d.take 18)

instance (E : Env) (key : B32) (d : Bytes) : Decidable (ValidRec E key d) := by
  unfold ValidRec; infer_instance

/-- Slot `n` of a file: the 38 bytes a scan looks at. -/
def slot (f : Bytes) (n : Nat) : Bytes := (f.drop (metaSize * n)).take metaSize

/-- No complete slot beyond the committed part `old` of the files `new` is a valid record. -/
def NoForge (E : Env) (key : B32) (old new : List Bytes) : Prop :=
  ∀ j f n, new[j]? = some f → (old.getD j []).length ≤ metaSize * n → metaSize * n + metaSize ≤ f.length →
    ¬ ValidRec E key (slot f n)

/-- No complete slot beyond `old` even starts with the magic number of commit records. -/
def NoMagic (old new : List Bytes) : Prop :=
  ∀ j f n, new[j]? = some f → (old.getD j []).length ≤ metaSize * n → metaSize * n + metaSize ≤ f.length →
    leNat ((slot f n).take 4) ≠ metaMagic

/-- Among the slots appended between `old` and `new`, only the very last 38 bytes
may hold a valid record: no value or node imitates one. When nothing had been
committed before, none of the others may start with the magic number either. -/
def OnlyOwnRecord (E : Env) (key : B32) (old new : List Bytes) : Prop :=
  ∀ j f n, new[j]? = some f → (old.getD j []).length ≤ metaSize * n → metaSize * n + metaSize ≤ f.length →
    ¬ (j + 1 = new.length ∧ metaSize * n + metaSize = f.length) →
    ¬ ValidRec E key (slot f n) ∧ (old = [[]] → leNat ((slot f n).take 4) ≠ metaMagic)

/-- Every file is still there and has only grown at its end. -/
def Grew (a b : List Bytes) : Prop := ∀ (j : Nat) (f : Bytes), a[j]? = some f → ∃ d, b[j]? = some (f ++ d)

/-- What a crash during the first `urkel_open` of a new directory can leave
(store.c:919-931, 1069-1095): nothing, a key file of which a prefix has been
written, or the key file and an empty first data file. -/
inductive CreateImage (rand : B32) : Dir → Prop
  | nothing : CreateImage rand ⟨none, []⟩
  | key (n : Nat) : n ≤ 32 → CreateImage rand ⟨some (rand.bytes.take n), []⟩
  | all : CreateImage rand ⟨some rand.bytes, [[]]⟩

end Urkel
