import Verif.Model.Io
import Verif.Props.Blake2b
/-
C48: whatever counts and interruptions the system answers with, reads and writes that
report success transferred exactly the bytes asked for.
-/
namespace Urkel

theorem sysRead_le (f : Bytes) (pos len n : Nat) : sysRead f pos len n ≤ len ∧ sysRead f pos len n ≤ f.length - pos := by
  unfold sysRead; omega

/-- The first `k` bytes come from the file, the rest is as it was. -/
def Filled (f buf : Bytes) (pos k : Nat) : Bytes := (f.drop pos).take k ++ buf.drop k

theorem bufCopy_filled (f buf : Bytes) (pos off n : Nat) (h1 : off + n ≤ buf.length) (h2 : pos + off + n ≤ f.length) :
    bufCopy (Filled f buf pos off) off ((f.drop (pos + off)).take n) = .ok (Filled f buf pos (off + n)) := by
  have l : ((f.drop pos).take off).length = off := by rw [List.length_take, List.length_drop]; omega
  have ln : ((f.drop (pos + off)).take n).length = n := by rw [List.length_take, List.length_drop]; omega
  have lf : (Filled f buf pos off).length = buf.length := by unfold Filled; rw [List.length_append, l, List.length_drop]; omega
  unfold bufCopy
  rw [if_pos (by rw [lf, ln]; exact h1), ln]
  congr 1
  unfold Filled
  rw [List.take_left' l, List.drop_append, List.drop_eq_nil_of_le (as := (f.drop pos).take off) (by rw [l]; omega), l, List.nil_append, List.drop_drop]
  have e : off + (off + n - off) = off + n := by omega
  rw [e, List.take_add, List.drop_drop]

theorem length_filled (f buf : Bytes) (pos k : Nat) (h1 : k ≤ buf.length) (h2 : pos + k ≤ f.length ∨ k = 0) : (Filled f buf pos k).length = buf.length := by
  unfold Filled
  rw [List.length_append, List.length_take, List.length_drop, List.length_drop]; omega

theorem fsPread_inv (f buf : Bytes) (pos : Nat) (rs : List SysAns) (off : Nat) (h1 : off ≤ buf.length) (h2 : pos + off ≤ f.length ∨ off = 0)
    (r : Res (Bool × Bytes)) (h : fsPread f (Filled f buf pos off) off (pos + off) rs = some r) :
    ∃ k, r = .ok (decide (k = buf.length), Filled f buf pos k) ∧ off ≤ k ∧ k ≤ buf.length ∧ (pos + k ≤ f.length ∨ k = 0) ∧
      (k = buf.length ∨ SysAns.fail ∈ rs ∨ pos + k ≥ f.length) := by
  induction rs generalizing off with
  | nil =>
    rw [fsPread, length_filled f buf pos off h1 h2] at h
    split at h
    · simp at h
    · rename_i hz
      cases h
      exact ⟨off, by congr 2; simp; omega, Nat.le_refl _, h1, h2, .inl (by omega)⟩
  | cons s rs ih =>
    unfold fsPread at h
    rw [length_filled f buf pos off h1 h2] at h
    split at h
    · rename_i hz
      cases s with
      | intr =>
        obtain ⟨k, a, b, c, d, e⟩ := ih off h1 h2 h
        exact ⟨k, a, b, c, d, by rcases e with e | e | e <;> simp [e]⟩
      | again =>
        obtain ⟨k, a, b, c, d, e⟩ := ih off h1 h2 h
        exact ⟨k, a, b, c, d, by rcases e with e | e | e <;> simp [e]⟩
      | fail =>
        cases h
        exact ⟨off, by congr 2; simp; omega, Nat.le_refl _, h1, h2, .inr (.inl (by simp))⟩
      | count n =>
        obtain ⟨s1, s2⟩ := sysRead_le f (pos + off) (buf.length - off) n
        simp only at h
        by_cases h0 : sysRead f (pos + off) (buf.length - off) n = 0
        · rw [if_pos h0] at h
          cases h
          refine ⟨off, by congr 2; simp; omega, Nat.le_refl _, h1, h2, .inr (.inr ?_)⟩
          unfold sysRead at h0; omega
        · rw [if_neg h0, if_neg (by omega), bufCopy_filled f buf pos off _ (by omega) (by omega)] at h
          obtain ⟨k, a, b, c, d, e⟩ := ih (off + sysRead f (pos + off) (buf.length - off) n) (by omega) (.inl (by omega)) (by rw [← Nat.add_assoc]; exact h)
          exact ⟨k, a, by omega, c, d, by rcases e with e | e | e <;> simp [e]⟩
    · rename_i hz
      cases h
      exact ⟨off, by congr 2; simp; omega, Nat.le_refl _, h1, h2, .inl (by omega)⟩

theorem filled_zero (f buf : Bytes) (pos : Nat) : Filled f buf pos 0 = buf := by simp [Filled]

theorem filled_all (f buf : Bytes) (pos : Nat) : Filled f buf pos buf.length = (f.drop pos).take buf.length := by simp [Filled]

/-- C48: a positioned read. Whatever the system answers, if the call returns then it
succeeded with exactly the bytes of the file at that position, or it failed because of
an error or because the file ends before; only a prefix of the destination has then
been written. -/
theorem C48_pread (f buf : Bytes) (pos : Nat) (rs : List SysAns) (r : Res (Bool × Bytes)) (h : fsPread f buf 0 pos rs = some r) :
    (r = .ok (true, (f.drop pos).take buf.length) ∧ (buf = [] ∨ pos + buf.length ≤ f.length)) ∨
    (∃ k < buf.length, r = .ok (false, (f.drop pos).take k ++ buf.drop k) ∧ (SysAns.fail ∈ rs ∨ f.length < pos + buf.length)) := by
  obtain ⟨k, a, -, c, d, e⟩ := fsPread_inv f buf pos rs 0 (Nat.zero_le _) (.inr rfl) r (by rw [filled_zero]; exact h)
  by_cases hk : k = buf.length
  · left
    rw [a, hk, filled_all]
    refine ⟨by simp, ?_⟩
    rcases d with d | d
    · right; omega
    · left; apply List.eq_nil_of_length_eq_zero; omega
  · right
    refine ⟨k, by omega, ?_, ?_⟩
    · rw [a]; simp [hk, Filled]
    · rcases e with e | e | e
      · exact absurd e hk
      · exact .inl e
      · right; omega

theorem fsRead_inv (f buf : Bytes) (pos : Nat) (rs : List SysAns) (off : Nat) (h1 : off ≤ buf.length) (h2 : pos + off ≤ f.length ∨ off = 0)
    (r : Res (Bool × Bytes × Nat)) (h : fsRead f (Filled f buf pos off) off (pos + off) rs = some r) :
    ∃ k, r = .ok (decide (k = buf.length), Filled f buf pos k, pos + k) ∧ off ≤ k ∧ k ≤ buf.length ∧ (pos + k ≤ f.length ∨ k = 0) ∧
      (k = buf.length ∨ SysAns.fail ∈ rs ∨ pos + k ≥ f.length) := by
  induction rs generalizing off with
  | nil =>
    rw [fsRead, length_filled f buf pos off h1 h2] at h
    split at h
    · simp at h
    · rename_i hz
      cases h
      exact ⟨off, by congr 2; simp; omega, Nat.le_refl _, h1, h2, .inl (by omega)⟩
  | cons s rs ih =>
    unfold fsRead at h
    rw [length_filled f buf pos off h1 h2] at h
    split at h
    · rename_i hz
      cases s with
      | intr =>
        obtain ⟨k, a, b, c, d, e⟩ := ih off h1 h2 h
        exact ⟨k, a, b, c, d, by rcases e with e | e | e <;> simp [e]⟩
      | again =>
        obtain ⟨k, a, b, c, d, e⟩ := ih off h1 h2 h
        exact ⟨k, a, b, c, d, by rcases e with e | e | e <;> simp [e]⟩
      | fail =>
        cases h
        exact ⟨off, by congr 2; simp; omega, Nat.le_refl _, h1, h2, .inr (.inl (by simp))⟩
      | count n =>
        obtain ⟨s1, s2⟩ := sysRead_le f (pos + off) (buf.length - off) n
        simp only at h
        by_cases h0 : sysRead f (pos + off) (buf.length - off) n = 0
        · rw [if_pos h0] at h
          cases h
          refine ⟨off, by congr 2; simp; omega, Nat.le_refl _, h1, h2, .inr (.inr ?_)⟩
          unfold sysRead at h0; omega
        · rw [if_neg h0, if_neg (by omega), bufCopy_filled f buf pos off _ (by omega) (by omega)] at h
          obtain ⟨k, a, b, c, d, e⟩ := ih (off + sysRead f (pos + off) (buf.length - off) n) (by omega) (.inl (by omega)) (by rw [← Nat.add_assoc]; exact h)
          exact ⟨k, a, by omega, c, d, by rcases e with e | e | e <;> simp [e]⟩
    · rename_i hz
      cases h
      exact ⟨off, by congr 2; simp; omega, Nat.le_refl _, h1, h2, .inl (by omega)⟩

/-- C48: a sequential read: as above, and the position has advanced by what was read. -/
theorem C48_read (f buf : Bytes) (pos : Nat) (rs : List SysAns) (r : Res (Bool × Bytes × Nat)) (h : fsRead f buf 0 pos rs = some r) :
    (r = .ok (true, (f.drop pos).take buf.length, pos + buf.length) ∧ (buf = [] ∨ pos + buf.length ≤ f.length)) ∨
    (∃ k < buf.length, r = .ok (false, (f.drop pos).take k ++ buf.drop k, pos + k) ∧ (SysAns.fail ∈ rs ∨ f.length < pos + buf.length)) := by
  obtain ⟨k, a, -, c, d, e⟩ := fsRead_inv f buf pos rs 0 (Nat.zero_le _) (.inr rfl) r (by rw [filled_zero]; exact h)
  by_cases hk : k = buf.length
  · left
    rw [a, hk, filled_all]
    refine ⟨by simp, ?_⟩
    rcases d with d | d
    · right; omega
    · left; apply List.eq_nil_of_length_eq_zero; omega
  · right
    refine ⟨k, by omega, ?_, ?_⟩
    · rw [a]; simp [hk, Filled]
    · rcases e with e | e | e
      · exact absurd e hk
      · exact .inl e
      · right; omega

/-- C48: appending. If the call returns, a prefix of the bytes has been appended: all
of them exactly if it reports success. -/
theorem C48_write (f src : Bytes) (rs : List SysAns) (r : Res (Bool × Bytes)) (h : fsWrite f src rs = some r) :
    ∃ k ≤ src.length, r = .ok (decide (k = src.length), f ++ src.take k) ∧ (k = src.length ∨ SysAns.fail ∈ rs ∨ SysAns.count 0 ∈ rs) := by
  induction rs generalizing f src with
  | nil =>
    rw [fsWrite] at h
    split at h
    · simp at h
    · rename_i hz
      cases h
      exact ⟨0, Nat.zero_le _, by simp [eq_comm], .inl (by omega)⟩
  | cons s rs ih =>
    unfold fsWrite at h
    split at h
    · rename_i hz
      cases s with
      | intr => obtain ⟨k, a, b, c⟩ := ih _ _ h; exact ⟨k, a, b, by rcases c with c | c | c <;> simp [c]⟩
      | again => obtain ⟨k, a, b, c⟩ := ih _ _ h; exact ⟨k, a, b, by rcases c with c | c | c <;> simp [c]⟩
      | fail => cases h; exact ⟨0, Nat.zero_le _, by simp [eq_comm], .inr (.inl (by simp))⟩
      | count n =>
        simp only at h
        by_cases h0 : min n src.length = 0
        · rw [if_pos h0] at h
          cases h
          have hn : n = 0 := by omega
          subst hn
          exact ⟨0, Nat.zero_le _, by simp [eq_comm], .inr (.inr (by simp))⟩
        · rw [if_neg h0, if_neg (by omega)] at h
          obtain ⟨k, a, b, c⟩ := ih _ _ h
          rw [List.length_drop] at a b c
          refine ⟨min n src.length + k, by omega, ?_, ?_⟩
          · rw [b, List.take_add, List.append_assoc]
            congr 2
            simp only [decide_eq_decide]; omega
          · rcases c with c | c | c
            · left; omega
            · right; left; simp [c]
            · right; right; simp [c]
    · rename_i hz
      cases h
      exact ⟨0, Nat.zero_le _, by simp [eq_comm], .inl (by omega)⟩

/-- Interruptions cannot keep the call from returning: it returns as soon as the system
has given one answer more than there are bytes that is not an interruption. -/
theorem C48_write_ends (f src : Bytes) (rs : List SysAns) (h : src.length < (rs.filter fun s => s ≠ .intr ∧ s ≠ .again).length) :
    (fsWrite f src rs).isSome := by
  induction rs generalizing f src with
  | nil => simp at h
  | cons s rs ih =>
    unfold fsWrite
    split
    · cases s with
      | intr => exact ih _ _ (by simpa using h)
      | again => exact ih _ _ (by simpa using h)
      | fail => rfl
      | count n =>
        simp only
        split
        · rfl
        · split
          · rfl
          · refine ih _ _ ?_
            simp at h ⊢
            omega
    · rfl

theorem C48_pread_ends (f buf : Bytes) (off pos : Nat) (rs : List SysAns) (h : buf.length - off < (rs.filter fun s => s ≠ .intr ∧ s ≠ .again).length) :
    (fsPread f buf off pos rs).isSome := by
  induction rs generalizing buf off pos with
  | nil => simp at h
  | cons s rs ih =>
    unfold fsPread
    split
    · cases s with
      | intr => exact ih _ _ _ (by simpa using h)
      | again => exact ih _ _ _ (by simpa using h)
      | fail => rfl
      | count n =>
        simp only
        split
        · rfl
        · split
          · rfl
          · split
            · rename_i b hb
              refine ih _ _ _ ?_
              unfold bufCopy at hb
              split at hb
              · cases hb
                simp at h ⊢
                omega
              · cases hb
            · rfl
    · rfl

theorem overwrite_append (f : Bytes) (pos : Nat) (a b : Bytes) :
    overwrite (overwrite f pos a) (pos + a.length) b = overwrite f pos (a ++ b) := by
  unfold overwrite
  by_cases ha : a.length = 0
  · have : a = [] := List.eq_nil_of_length_eq_zero ha
    subst this; simp
  by_cases hb : b.length = 0
  · have : b = [] := List.eq_nil_of_length_eq_zero hb
    subst this; simp [ha]
  rw [if_neg ha, if_neg hb, if_neg (by rw [List.length_append]; omega)]
  have l : ((f ++ List.replicate (pos - f.length) 0).take pos).length = pos := by simp; omega
  generalize (f ++ List.replicate (pos - f.length) 0).take pos = p at l
  have l2 : (p ++ a).length = pos + a.length := by rw [List.length_append, l]
  have e1 : (p ++ a ++ f.drop (pos + a.length) ++ List.replicate (pos + a.length - (p ++ a ++ f.drop (pos + a.length)).length) 0).take (pos + a.length) = p ++ a := by
    rw [List.append_assoc (p ++ a)]; exact List.take_left' l2
  have e2 : (p ++ a ++ f.drop (pos + a.length)).drop (pos + a.length + b.length) = f.drop (pos + (a ++ b).length) := by
    rw [← List.drop_drop, List.drop_left' l2, List.drop_drop, List.length_append, Nat.add_assoc]
  rw [e1, e2, ← List.append_assoc p a b]

/-- C48: positioned writing: a prefix of the bytes has been written at the position,
all of them exactly if it reports success. -/
theorem C48_pwrite (f src : Bytes) (pos : Nat) (rs : List SysAns) (r : Res (Bool × Bytes)) (h : fsPwrite f src pos rs = some r) :
    ∃ k ≤ src.length, r = .ok (decide (k = src.length), overwrite f pos (src.take k)) ∧ (k = src.length ∨ SysAns.fail ∈ rs ∨ SysAns.count 0 ∈ rs) := by
  have z : ∀ f pos, overwrite f pos [] = f := fun f pos => by simp [overwrite]
  induction rs generalizing f src pos with
  | nil =>
    rw [fsPwrite] at h
    split at h
    · simp at h
    · rename_i hz
      cases h
      exact ⟨0, Nat.zero_le _, by simp [eq_comm, z], .inl (by omega)⟩
  | cons s rs ih =>
    unfold fsPwrite at h
    split at h
    · rename_i hz
      cases s with
      | intr => obtain ⟨k, a, b, c⟩ := ih _ _ _ h; exact ⟨k, a, b, by rcases c with c | c | c <;> simp [c]⟩
      | again => obtain ⟨k, a, b, c⟩ := ih _ _ _ h; exact ⟨k, a, b, by rcases c with c | c | c <;> simp [c]⟩
      | fail => cases h; exact ⟨0, Nat.zero_le _, by simp [eq_comm, z], .inr (.inl (by simp))⟩
      | count n =>
        simp only at h
        by_cases h0 : min n src.length = 0
        · rw [if_pos h0] at h
          cases h
          have hn : n = 0 := by omega
          subst hn
          exact ⟨0, Nat.zero_le _, by simp [eq_comm, z], .inr (.inr (by simp))⟩
        · rw [if_neg h0, if_neg (by omega)] at h
          obtain ⟨k, a, b, c⟩ := ih _ _ _ h
          rw [List.length_drop] at a b c
          refine ⟨min n src.length + k, by omega, ?_, ?_⟩
          · have lt : (src.take (min n src.length)).length = min n src.length := by rw [List.length_take]; omega
            have oa := overwrite_append f pos (src.take (min n src.length)) ((src.drop (min n src.length)).take k)
            rw [lt] at oa
            rw [b, List.take_add, ← oa]
            congr 2
            simp only [decide_eq_decide]; omega
          · rcases c with c | c | c
            · left; omega
            · right; left; simp [c]
            · right; right; simp [c]
    · rename_i hz
      cases h
      exact ⟨0, Nat.zero_le _, by simp [eq_comm, z], .inl (by omega)⟩

/-- A handle that agrees with the contents `f` of its file: at least `size` bytes are
there, the mapping covers exactly `size`, and what is not mapped has a descriptor. -/
structure FileH.Ok (f : Bytes) (h : FileH) : Prop where
  size : h.size ≤ f.length
  base : ∀ b, h.base = some b → b = h.size
  fd : h.base = none → h.fd = true ∨ h.size = 0

theorem fileOpen_ok (f : Bytes) (rdonly mmap mapOk : Bool) (h : FileH) (e : fileOpen f rdonly mmap mapOk = some h) :
    h.Ok f ∧ h.size = f.length := by
  unfold fileOpen at e
  split at e
  · split at e
    · split at e
      · cases e; exact ⟨⟨Nat.le_refl _, fun b hb => by cases hb; rfl, fun h => by cases h⟩, rfl⟩
      · cases e
    · cases e; exact ⟨⟨Nat.le_refl _, fun b hb => by (cases hb), fun _ => .inl rfl⟩, rfl⟩
  · cases e; exact ⟨⟨Nat.le_refl _, fun b hb => by (cases hb), fun _ => .inl rfl⟩, rfl⟩

/-- C48: reading through a file handle, mapped or not: never outside the mapping or the
file; success gives exactly the bytes at the position; a failure means the range is not
in the file, or the system reported an error. -/
theorem C48_file_read (f buf : Bytes) (h : FileH) (pos : Nat) (rs : List SysAns) (hk : h.Ok f) (hs : h.size < 2 ^ 64)
    (r : Res (Bool × Bytes)) (e : filePread f h buf pos rs = some r) :
    ∃ ok out, r = .ok (ok, out) ∧ out.length = buf.length ∧ (ok = true → out = (f.drop pos).take buf.length) ∧
      (ok = false → h.size < pos + buf.length ∨ SysAns.fail ∈ rs) := by
  unfold filePread at e
  dsimp only at e
  split at e
  · rename_i h0
    cases e
    refine ⟨true, buf, rfl, rfl, fun _ => ?_, fun h => by cases h⟩
    have : buf = [] := List.eq_nil_of_length_eq_zero h0
    subst this; simp
  · split at e
    · cases e; exact ⟨false, buf, rfl, rfl, fun h => by (cases h), fun _ => .inl (by omega)⟩
    · split at e
      · cases e; exact ⟨false, buf, rfl, rfl, fun h => by (cases h), fun _ => .inl (by omega)⟩
      · split at e
        · rename_i b hb
          have := hk.base b hb
          have := hk.size
          rw [if_pos (by omega)] at e
          cases e
          refine ⟨true, _, rfl, ?_, fun _ => rfl, fun h => by cases h⟩
          rw [List.length_take, List.length_drop]; omega
        · rename_i hb
          have hf : h.fd = true := (hk.fd hb).elim id (fun h' => by omega)
          rw [if_pos hf] at e
          have := hk.size
          rcases C48_pread f buf pos rs r e with ⟨a, b⟩ | ⟨k, a, b, c⟩
          · refine ⟨true, _, a, ?_, fun _ => rfl, fun h => by cases h⟩
            rw [List.length_take, List.length_drop]; omega
          · refine ⟨false, _, b, ?_, fun h => by (cases h), fun _ => ?_⟩
            · rw [List.length_append, List.length_take, List.length_drop, List.length_drop]; omega
            · rcases c with c | c
              · exact .inr c
              · left; omega

/-- C48: appending through a file handle. The file grows by a prefix of the bytes, by
all of them if success is reported; the handle stays usable for reading and its size
grows exactly by what is completely written. This is what the fault model of
`storeWrite` (Model/Store.lean) injects: nothing written (`writeFail 0`), a prefix
written (`writeFail k`), everything written but the mapping lost (`mapFail`). -/
theorem C48_file_write (f src : Bytes) (h : FileH) (unmapOk mapOk : Bool) (rs : List SysAns) (hk : h.Ok f) (hfd : h.fd = true) (hend : h.size = f.length)
    (r : Res (Bool × Bytes × FileH)) (e : fileWrite f h src unmapOk mapOk rs = some r) :
    ∃ k ≤ src.length, ∃ ok h', r = .ok (ok, f ++ src.take k, h') ∧ h'.Ok (f ++ src.take k) ∧ h'.fd = true ∧ (ok = true → k = src.length) ∧
      (h'.size = if k = src.length then h.size + k else h.size) := by
  unfold fileWrite at e
  split at e
  · rename_i h0
    cases e
    have : src = [] := List.eq_nil_of_length_eq_zero h0
    subst this
    exact ⟨0, Nat.zero_le _, true, h, by simp, by simpa using hk, hfd, fun _ => rfl, by simp⟩
  · rename_i h0
    split at e
    · cases e
      exact ⟨0, Nat.zero_le _, false, h, by simp, by simpa using hk, hfd, fun h => by (cases h), by rw [if_neg (by omega)]⟩
    · dsimp only at e
      rw [if_neg (by simp [hfd])] at e
      cases hw : fsWrite f src rs with
      | none => rw [hw] at e; cases e
      | some w =>
        rw [hw] at e
        obtain ⟨k, a, b, -⟩ := C48_write f src rs w hw
        subst b
        by_cases hkl : k = src.length
        · subst hkl
          simp only [decide_true] at e
          have hlen : (f ++ src.take src.length).length = h.size + src.length := by simp [hend]
          split at e
          · split at e
            · cases e
              exact ⟨src.length, Nat.le_refl _, true, _, rfl, ⟨by rw [hlen]; exact Nat.le_refl _, fun b hb => by cases hb; rfl, fun h => by cases h⟩, hfd, fun _ => rfl, by simp⟩
            · cases e
              exact ⟨src.length, Nat.le_refl _, false, _, rfl, ⟨by rw [hlen]; exact Nat.le_refl _, fun b hb => by (cases hb), fun _ => .inl hfd⟩, hfd, fun h => by (cases h), by simp⟩
          · cases e
            exact ⟨src.length, Nat.le_refl _, true, _, rfl, ⟨by rw [hlen]; exact Nat.le_refl _, fun b hb => by (cases hb), fun _ => .inl hfd⟩, hfd, fun _ => rfl, by simp⟩
        · rw [decide_eq_false hkl] at e
          cases e
          refine ⟨k, a, false, _, rfl, ⟨?_, fun b hb => by (cases hb), fun _ => .inl hfd⟩, hfd, fun h => by (cases h), by rw [if_neg hkl]⟩
          have := hk.size
          simp; omega

/-- C48: when appending fails. It fails only if the old mapping cannot be removed, the new one
cannot be made, or a write fails or takes nothing; and if the old mapping cannot be removed nothing
is written. -/
theorem C48_write_fails (f src : Bytes) (h : FileH) (unmapOk mapOk : Bool) (rs : List SysAns) (f' : Bytes) (h' : FileH) (ok : Bool)
    (e : fileWrite f h src unmapOk mapOk rs = some (.ok (ok, f', h'))) :
    (ok = false → (h.base.isSome ∧ unmapOk = false) ∨ (h.mapped = true ∧ mapOk = false) ∨ SysAns.fail ∈ rs ∨ SysAns.count 0 ∈ rs) ∧
    (src ≠ [] → h.base.isSome → unmapOk = false → ok = false ∧ f' = f ∧ h' = h) := by
  unfold fileWrite at e
  split at e
  · next h0 =>
    cases e
    exact ⟨(nomatch ·), fun hs => absurd (List.eq_nil_of_length_eq_zero h0) hs⟩
  · split at e
    · next h1 =>
      cases e
      rw [Bool.and_eq_true] at h1
      exact ⟨fun _ => .inl ⟨h1.1, by simpa using h1.2⟩, fun _ _ _ => ⟨rfl, rfl, rfl⟩⟩
    · next h1 =>
      refine ⟨?_, fun _ h2 h3 => absurd (by rw [h2, h3]; rfl) h1⟩
      rintro rfl
      dsimp only at e
      split at e
      · cases e
      · cases hw : fsWrite f src rs with
        | none => rw [hw] at e; cases e
        | some w =>
          rw [hw] at e
          obtain ⟨k, a, b, c⟩ := C48_write f src rs w hw
          subst b
          rcases c with c | c
          · rw [decide_eq_true c] at e
            dsimp only at e
            split at e
            · next hm =>
              split at e
              · cases e
              · next hn => exact .inr (.inl ⟨hm, by simpa using hn⟩)
            · cases e
          · exact .inr (.inr c)

example : ∃ f' h', fileWrite [7] { fd := true, size := 1, mapped := true, base := some 1 } [1, 2] false true [.count 2] = some (.ok (false, f', h')) := ⟨_, _, rfl⟩

/-- C48: opening fails only if mapping a non-empty file fails; otherwise the handle has
the size of the file, and it can be written unless it was opened for reading and
mapped. -/
theorem C48_open (f : Bytes) (rdonly mmap mapOk : Bool) :
    (fileOpen f rdonly mmap mapOk = none ↔ mmap = true ∧ mapOk = false ∧ f ≠ []) ∧
    ∀ h, fileOpen f rdonly mmap mapOk = some h →
      h.Ok f ∧ h.size = f.length ∧ h.mapped = mmap ∧ (h.fd = true ↔ rdonly = false ∨ mmap = false ∨ f = []) := by
  refine ⟨?_, fun h e => ⟨(fileOpen_ok f rdonly mmap mapOk h e).1, (fileOpen_ok f rdonly mmap mapOk h e).2, ?_⟩⟩
  · cases f <;> cases mmap <;> cases mapOk <;> simp [fileOpen]
  · cases f <;> cases mmap <;> cases mapOk <;> cases rdonly <;> simp [fileOpen] at e ⊢ <;> subst e <;> simp

/-- C48: a file opened for writing, then written: the bytes arrive at its end, and can be
read back through the same handle. -/
theorem C48_open_write_read (f src : Bytes) (mmap mapOk unmapOk mapOk' : Bool) (rs rs' : List SysAns) (h : FileH)
    (eo : fileOpen f false mmap mapOk = some h) (f' : Bytes) (h' : FileH) (ew : fileWrite f h src unmapOk mapOk' rs = some (.ok (true, f', h')))
    (hs : f.length + src.length < 2 ^ 64) (buf : Bytes) (hb : buf.length = src.length) (out : Bytes) (ok : Bool)
    (hrs : SysAns.fail ∉ rs') (er : filePread f' h' buf f.length rs' = some (.ok (ok, out))) :
    f' = f ++ src ∧ ok = true ∧ out = src := by
  obtain ⟨h1, h2, -, h3⟩ := (C48_open f false mmap mapOk).2 h eo
  obtain ⟨k, hk, ok1, h1', e1, e2, -, e3, e4⟩ := C48_file_write f src h unmapOk mapOk' rs h1 (h3.2 (.inl rfl)) h2 _ ew
  injection e1 with e1
  injection e1 with ea eb
  injection eb with eb ec
  subst ec
  have hkk := e3 ea.symm
  subst hkk
  rw [List.take_length] at eb e2
  subst eb
  rw [if_pos rfl] at e4
  obtain ⟨ok2, out2, e5, e6, e7, e8⟩ := C48_file_read (f ++ src) buf h' f.length rs' e2 (by omega) _ er
  injection e5 with e5
  injection e5 with ea eb
  subst ea eb
  have hok : ok = true := by
    cases ok with
    | true => rfl
    | false => rcases e8 rfl with h | h
               · omega
               · exact absurd h hrs
  refine ⟨rfl, hok, ?_⟩
  rw [e7 hok, List.drop_append_of_le_length (Nat.le_refl _), List.drop_length, List.nil_append, hb, List.take_length]

example : ∃ h f' h', fileOpen [7] false true true = some h ∧ fileWrite [7] h [1, 2] true true [.count 1, .count 1] = some (.ok (true, f', h')) ∧
    filePread f' h' [0, 0] 1 [] = some (.ok (true, [1, 2])) := ⟨_, _, _, rfl, rfl, rfl⟩

/-- The hypotheses are met: five bytes arriving in pieces of two, one and two with
interruptions between; three written of which one, then two are taken. -/
example : fsPread [9, 1, 2, 3, 4, 5] [0, 0, 0, 0, 0] 0 1 [.intr, .count 2, .count 1, .again, .count 7] = some (.ok (true, [1, 2, 3, 4, 5])) := by decide
example : fsWrite [9] [1, 2, 3] [.count 1, .intr, .count 9] = some (.ok (true, [9, 1, 2, 3])) := by decide
example : fsWrite [9] [1, 2, 3] [.count 1, .intr, .fail] = some (.ok (false, [9, 1])) := by decide

end Urkel
