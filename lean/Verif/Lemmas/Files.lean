import Verif.Lemmas.Repr
import Verif.Spec.Crash
/-
Files as lists of byte strings, what can be read from them, and the write
buffer: every record written goes to the place its pointer says, and a flush
makes the files equal to the virtual files seen through the buffer.
-/
namespace Urkel

/-- Reading from a list of files (index 1 is the first). -/
def vrd (vf : List Bytes) : Rd := fun p =>
  if p.index = 0 then none
  else match vf[p.index - 1]? with
    | none => none
    | some f =>
      if p.size = 0 then some []
      else if p.pos + p.size > f.length then none
      else some ((f.drop p.pos).take p.size)

/-- Every file is still there and has only grown at its end. -/
theorem FExt.get {a b : List Bytes} (h : FExt a b) (j : Nat) (f : Bytes) (hf : a[j]? = some f) :
    ∃ f', b[j]? = some f' ∧ f <+: f' := by
  rcases h with rfl | ⟨i, l, junk, extra, rfl, rfl⟩
  · exact ⟨f, hf, List.prefix_refl _⟩
  · have hj := (List.getElem?_eq_some_iff.1 hf).1
    simp only [List.length_append, List.length_cons, List.length_nil] at hj
    rw [List.getElem?_append_left (by simpa using hj)]
    by_cases hi : j < i.length
    · rw [List.getElem?_append_left hi] at hf ⊢
      exact ⟨f, hf, List.prefix_refl _⟩
    · have : j = i.length := by omega
      subst this
      simp at hf ⊢
      subst hf; exact ⟨junk, rfl⟩

theorem FExt.refl (a : List Bytes) : FExt a a := Or.inl rfl
theorem FExt.trans {a b c : List Bytes} (h1 : FExt a b) (h2 : FExt b c) : FExt a c := by
  rcases h1 with rfl | ⟨i, l, junk, extra, rfl, rfl⟩
  · exact h2
  · rcases h2 with rfl | ⟨i', l', junk', extra', e, rfl⟩
    · exact Or.inr ⟨i, l, junk, extra, rfl, rfl⟩
    · right
      rcases List.eq_nil_or_concat extra with rfl | ⟨x, y, rfl⟩
      · rw [List.append_nil] at e
        obtain ⟨e1, e2⟩ := List.append_inj' e rfl
        subst e1
        simp only [List.cons.injEq, and_true] at e2
        subst e2
        exact ⟨i, l, junk ++ junk', extra', rfl, by simp⟩
      · rw [List.concat_eq_append, ← List.append_assoc] at e
        obtain ⟨e1, e2⟩ := List.append_inj' e rfl
        subst e1
        simp only [List.cons.injEq, and_true] at e2
        subst e2
        exact ⟨i, l, junk, x ++ [y ++ junk'] ++ extra', rfl, by simp⟩

theorem vrd_mono {a b : List Bytes} (h : FExt a b) : Rd.Le (vrd a) (vrd b) := by
  intro p d hd
  unfold vrd at *
  split at hd
  · cases hd
  · next h0 =>
    rw [if_neg h0]
    cases ha : a[p.index - 1]? with
    | none => rw [ha] at hd; cases hd
    | some f =>
      obtain ⟨f', hb, t, rfl⟩ := h.get _ f ha
      rw [ha] at hd
      rw [hb]
      simp only at hd ⊢
      split at hd
      · next hz => rw [if_pos hz]; exact hd
      · next hz =>
        rw [if_neg hz]
        split at hd
        · cases hd
        · next hs =>
          rw [if_neg (by simp; omega)]
          rw [List.drop_append_of_le_length (by omega), List.take_append_of_le_length (by simp; omega)]
          exact hd

/-- The store's file bookkeeping agrees with the files. -/
structure SOk (s : Store) : Prop where
  pos : 1 ≤ s.index
  idx : s.files.length = s.index
  cur : s.curSize = (s.files.getD (s.index - 1) []).length

theorem SOk.rd_eq {s : Store} (h : SOk s) : s.rd = vrd s.files := by
  funext p
  have h1 := h.pos; have h2 := h.idx; have h3 := h.cur
  unfold Store.rd storeRead vrd
  by_cases h0 : p.index = 0
  · simp [h0]
  · rw [if_neg h0]
    by_cases hi : p.index > s.index + 1
    · rw [if_pos (Or.inr hi), List.getElem?_eq_none (by omega)]
    · rw [if_neg (by omega)]
      cases hf : s.files[p.index - 1]? with
      | none => rfl
      | some f =>
        simp only
        by_cases e : p.index = s.index
        · have : s.curSize = f.length := by
            rw [h3, ← e, List.getD_eq_getElem?_getD, hf]; rfl
          simp [e, this]
        · simp [e]

/-! ### Appending records -/

/-- Length of the last file. -/
def lastLen (vf : List Bytes) : Nat := (vf.getLast?.getD []).length

/-- Append one record, starting a new file if it would not fit. -/
def vappend (max : Nat) (vf : List Bytes) (d : Bytes) : List Bytes :=
  if lastLen vf + d.length > max then vf ++ [d]
  else vf.dropLast ++ [vf.getLast?.getD [] ++ d]

theorem snoc_cases {vf : List Bytes} (h : vf ≠ []) : ∃ i l, vf = i ++ [l] :=
  ⟨vf.dropLast, vf.getLast h, (List.dropLast_concat_getLast h).symm⟩

@[simp] theorem lastLen_snoc (i : List Bytes) (l : Bytes) : lastLen (i ++ [l]) = l.length := by
  simp [lastLen]

theorem vappend_snoc (max : Nat) (i : List Bytes) (l d : Bytes) :
    vappend max (i ++ [l]) d = if l.length + d.length > max then i ++ [l] ++ [d] else i ++ [l ++ d] := by
  simp [vappend]

theorem vappend_ne (max : Nat) (vf : List Bytes) (d : Bytes) : vappend max vf d ≠ [] := by
  unfold vappend; split <;> simp

theorem fext_vappend (max : Nat) {vf : List Bytes} (h : vf ≠ []) (d : Bytes) :
    FExt vf (vappend max vf d) := by
  obtain ⟨i, l, rfl⟩ := snoc_cases h
  rw [vappend_snoc]
  split
  · exact Or.inr ⟨i, l, [], [d], rfl, by simp⟩
  · exact Or.inr ⟨i, l, d, [], rfl, by simp⟩

/-- The record just appended can be read back. -/
theorem vrd_vappend (max : Nat) {vf : List Bytes} (h : vf ≠ []) (d : Bytes) (n : Nat) (hn : n = d.length) :
    vrd (vappend max vf d) ⟨(vappend max vf d).length, lastLen (vappend max vf d) - n, n⟩ = some d := by
  subst hn
  obtain ⟨i, l, rfl⟩ := snoc_cases h
  rw [vappend_snoc]
  have key : ∀ (i : List Bytes) (x : Bytes), vrd (i ++ [x ++ d]) ⟨(i ++ [x ++ d]).length, lastLen (i ++ [x ++ d]) - d.length, d.length⟩ = some d := by
    intro i x
    unfold vrd
    simp only [List.length_append, List.length_cons, List.length_nil, lastLen_snoc]
    rw [if_neg (by omega)]
    rw [List.getElem?_append_right (by omega)]
    simp only [Nat.zero_add, Nat.add_sub_cancel, Nat.sub_self, List.getElem?_cons_zero]
    split
    · next h0 => rw [List.length_eq_zero_iff.1 h0]
    · rw [if_neg (by simp)]
      simp
  split
  · have := key (i ++ [l]) []
    simpa using this
  · exact key i l

/-- Bytes used, counting every file but the last as full. -/
def used (max : Nat) (vf : List Bytes) : Nat := vf.length * max + lastLen vf

theorem used_vappend (max : Nat) {vf : List Bytes} (h : vf ≠ []) (d : Bytes) :
    used max (vappend max vf d) ≤ used max vf + 2 * d.length := by
  obtain ⟨i, l, rfl⟩ := snoc_cases h
  rw [vappend_snoc]
  unfold used
  split
  · next hr =>
    simp only [lastLen_snoc, List.length_append, List.length_cons, List.length_nil, Nat.zero_add]
    rw [Nat.add_mul (i.length + 1) 1 max]; omega
  · simp only [lastLen_snoc, List.length_append, List.length_cons, List.length_nil]; omega

theorem length_le_vappend (max : Nat) {vf : List Bytes} (h : vf ≠ []) (d : Bytes) :
    vf.length ≤ (vappend max vf d).length := by
  obtain ⟨i, l, rfl⟩ := snoc_cases h
  rw [vappend_snoc]; split <;> simp

theorem totalBytes_append (a b : List Bytes) : totalBytes (a ++ b) = totalBytes a + totalBytes b := by
  simp [totalBytes]

theorem totalBytes_vappend (max : Nat) {vf : List Bytes} (h : vf ≠ []) (d : Bytes) :
    totalBytes (vappend max vf d) = totalBytes vf + d.length := by
  obtain ⟨i, l, rfl⟩ := snoc_cases h
  rw [vappend_snoc]; split <;> simp [totalBytes] <;> omega

/-- All files respect the size limit. -/
def FilesLe (max : Nat) (vf : List Bytes) : Prop := ∀ f ∈ vf, f.length ≤ max

theorem filesLe_vappend {max : Nat} {vf : List Bytes} (h : vf ≠ []) (hl : FilesLe max vf) {d : Bytes}
    (hd : d.length ≤ max) : FilesLe max (vappend max vf d) := by
  obtain ⟨i, l, rfl⟩ := snoc_cases h
  rw [vappend_snoc]
  intro f hf
  split at hf
  · simp only [List.mem_append, List.mem_singleton] at hf
    rcases hf with (hf | hf) | hf
    · exact hl f (by simp [hf])
    · exact hl f (by simp [hf])
    · subst hf; exact hd
  · next hr =>
    simp only [List.mem_append, List.mem_singleton] at hf
    rcases hf with hf | hf
    · exact hl f (by simp [hf])
    · subst hf; simp; omega

theorem lastLen_le {max : Nat} {vf : List Bytes} (h : vf ≠ []) (hl : FilesLe max vf) : lastLen vf ≤ max := by
  obtain ⟨i, l, rfl⟩ := snoc_cases h
  rw [lastLen_snoc]; exact hl l (by simp)

/-- Several records. -/
def vappends (max : Nat) (vf : List Bytes) (rs : List Bytes) : List Bytes := rs.foldl (vappend max) vf

@[simp] theorem vappends_nil (max : Nat) (vf : List Bytes) : vappends max vf [] = vf := rfl
@[simp] theorem vappends_cons (max : Nat) (vf : List Bytes) (r : Bytes) (rs : List Bytes) :
    vappends max vf (r :: rs) = vappends max (vappend max vf r) rs := rfl
theorem vappends_append (max : Nat) (vf : List Bytes) (a b : List Bytes) :
    vappends max vf (a ++ b) = vappends max (vappends max vf a) b := by
  simp [vappends]

theorem vappends_ne (max : Nat) {vf : List Bytes} (h : vf ≠ []) (rs : List Bytes) : vappends max vf rs ≠ [] := by
  induction rs generalizing vf with
  | nil => exact h
  | cons r rs ih => exact ih (vappend_ne _ _ _)

theorem fext_vappends (max : Nat) {vf : List Bytes} (h : vf ≠ []) (rs : List Bytes) :
    FExt vf (vappends max vf rs) := by
  induction rs generalizing vf with
  | nil => exact FExt.refl _
  | cons r rs ih => exact (fext_vappend max h r).trans (ih (vappend_ne _ _ _))

/-! ### The slab -/

/-- Chunks for the following files: each starts because it did not fit the file
before it. -/
def Roll (max : Nat) : Nat → List Bytes → Prop
  | _, [] => True
  | pos, c :: cs => pos + c.length > max ∧ c.length ≤ max ∧ Roll max c.length cs

/-- Size of the last file after the chunks. -/
def lastPos : Nat → List Bytes → Nat
  | pos, [] => pos
  | _, c :: cs => lastPos c.length cs

theorem roll_snoc {max pos : Nat} {cs : List Bytes} {d : Bytes} (h : Roll max pos cs)
    (h1 : lastPos pos cs + d.length > max) (h2 : d.length ≤ max) : Roll max pos (cs ++ [d]) := by
  induction cs generalizing pos with
  | nil => exact ⟨h1, h2, trivial⟩
  | cons c cs ih => exact ⟨h.1, h.2.1, ih h.2.2 h1⟩

theorem lastPos_snoc (pos : Nat) (cs : List Bytes) (d : Bytes) : lastPos pos (cs ++ [d]) = d.length := by
  induction cs generalizing pos with
  | nil => rfl
  | cons c cs ih => exact ih _

theorem roll_grow {max pos : Nat} {cs : List Bytes} {c d : Bytes} (h : Roll max pos (cs ++ [c]))
    (h1 : c.length + d.length ≤ max) : Roll max pos (cs ++ [c ++ d]) := by
  induction cs generalizing pos with
  | nil =>
    obtain ⟨a, b, _⟩ := h
    exact ⟨by simp; omega, by simpa using h1, trivial⟩
  | cons c' cs ih => exact ⟨h.1, h.2.1, ih h.2.2⟩

/-- The buffer holds chunk `c0` for the current file and `cs` for the following ones. -/
structure SlabInv (E : Env) (s : Store) (c0 : Bytes) (cs : List Bytes) : Prop where
  sok : SOk s
  data : s.slab.data = c0 ++ cs.flatten
  offs : s.slab.offsets ++ [s.slab.dataOff] = (c0 :: cs).map List.length
  start : s.slab.start = 0
  fidx : s.slab.fileIndex = s.index + cs.length
  fpos : s.slab.filePos = lastPos (s.curSize + c0.length) cs
  fit : s.curSize + c0.length ≤ E.cfg.maxFile
  roll : Roll E.cfg.maxFile (s.curSize + c0.length) cs
  ol : s.slab.offsets.length ≤ s.slab.offsetsLen ∧ s.slab.offsetsLen ≤ s.slab.fileIndex + 1
  faults : s.faults = []

/-- The files as they will be after a flush. -/
def vfOf (s : Store) (c0 : Bytes) (cs : List Bytes) : List Bytes := appendFile s.files s.index c0 ++ cs

/-- The store with its buffer stands for the virtual files `vf`. -/
def Slabbed (E : Env) (s : Store) (vf : List Bytes) : Prop :=
  ∃ c0 cs, SlabInv E s c0 cs ∧ vf = vfOf s c0 cs

theorem SOk.files_snoc {s : Store} (h : SOk s) :
    ∃ i l, s.files = i ++ [l] ∧ i.length + 1 = s.index ∧ s.curSize = l.length := by
  have h1 := h.pos; have h2 := h.idx; have h3 := h.cur
  have hne : s.files ≠ [] := by intro e; rw [e] at h2; simp at h2; omega
  obtain ⟨i, l, e⟩ := snoc_cases hne
  have hl : i.length + 1 = s.index := by rw [← h2, e]; simp
  refine ⟨i, l, e, hl, ?_⟩
  rw [h3, e, List.getD_eq_getElem?_getD, List.getElem?_append_right (by omega)]
  simp [← hl]

theorem appendFile_snoc (i : List Bytes) (l d : Bytes) (n : Nat) (h : i.length + 1 = n) :
    appendFile (i ++ [l]) n d = i ++ [l ++ d] := by
  unfold appendFile
  have : n - 1 = i.length := by omega
  rw [this]
  apply List.ext_getElem?
  intro j
  rw [List.getElem?_modify]
  by_cases hj : j < i.length
  · rw [List.getElem?_append_left hj, List.getElem?_append_left hj]
    simp [show ¬ i.length = j by omega]
  · rw [List.getElem?_append_right (by omega), List.getElem?_append_right (by omega)]
    by_cases hj' : j = i.length
    · subst hj'; simp
    · have : 1 ≤ j - i.length := by omega
      rw [List.getElem?_eq_none (by simpa using this), List.getElem?_eq_none (by simpa using this)]
      rfl

theorem vfOf_snoc {s : Store} {i : List Bytes} {l : Bytes} (e : s.files = i ++ [l]) (h : i.length + 1 = s.index)
    (c0 : Bytes) (cs : List Bytes) : vfOf s c0 cs = i ++ [l ++ c0] ++ cs := by
  unfold vfOf; rw [e, appendFile_snoc i l c0 _ h]

theorem vfOf_slab (s : Store) (sl : Slab) (c0 : Bytes) (cs : List Bytes) :
    vfOf { s with slab := sl } c0 cs = vfOf s c0 cs := rfl

theorem slab_last {s : Store} (c0 : Bytes) (cs : List Bytes) (h : SOk s) :
    lastLen (vfOf s c0 cs) = lastPos (s.curSize + c0.length) cs ∧
      (vfOf s c0 cs).length = s.index + cs.length ∧ vfOf s c0 cs ≠ [] := by
  obtain ⟨i, l, e, hi, hc⟩ := h.files_snoc
  rw [vfOf_snoc e hi]
  refine ⟨?_, by simp; omega, by simp⟩
  rcases List.eq_nil_or_concat cs with rfl | ⟨cs', c, rfl⟩
  · simp [lastPos, hc]
  · rw [List.concat_eq_append, lastPos_snoc, ← List.append_assoc, lastLen_snoc]

theorem Slabbed.ne {E : Env} {s : Store} {vf : List Bytes} (h : Slabbed E s vf) : vf ≠ [] := by
  obtain ⟨c0, cs, hi, rfl⟩ := h
  exact (slab_last c0 cs hi.sok).2.2

theorem Slabbed.fileIndex {E : Env} {s : Store} {vf : List Bytes} (h : Slabbed E s vf) :
    s.slab.fileIndex = vf.length := by
  obtain ⟨c0, cs, hi, rfl⟩ := h
  rw [hi.fidx, (slab_last c0 cs hi.sok).2.1]

theorem Slabbed.filePos {E : Env} {s : Store} {vf : List Bytes} (h : Slabbed E s vf) :
    s.slab.filePos = lastLen vf := by
  obtain ⟨c0, cs, hi, rfl⟩ := h
  rw [hi.fpos, (slab_last c0 cs hi.sok).1]

theorem lastPos_le {max pos : Nat} {cs : List Bytes} (h0 : pos ≤ max) (h : Roll max pos cs) :
    lastPos pos cs ≤ max := by
  induction cs generalizing pos with
  | nil => exact h0
  | cons c cs ih => exact ih h.2.1 h.2.2

theorem Slabbed.lastLen_le {E : Env} {s : Store} {vf : List Bytes} (h : Slabbed E s vf) :
    lastLen vf ≤ E.cfg.maxFile := by
  obtain ⟨c0, cs, hi, rfl⟩ := h
  rw [(slab_last c0 cs hi.sok).1]
  exact lastPos_le hi.fit hi.roll

/-- Everything but files and buffer is unchanged. -/
def SameMeta (s s' : Store) : Prop :=
  s'.key = s.key ∧ s'.cache = s.cache ∧ s'.state = s.state ∧ s'.lastMeta = s.lastMeta

theorem SameMeta.refl (s : Store) : SameMeta s s := ⟨rfl, rfl, rfl, rfl⟩
theorem SameMeta.trans {a b c : Store} (h1 : SameMeta a b) (h2 : SameMeta b c) : SameMeta a c :=
  ⟨h2.1.trans h1.1, h2.2.1.trans h1.2.1, h2.2.2.1.trans h1.2.2.1, h2.2.2.2.trans h1.2.2.2⟩

/-- Writing into the buffer appends to the virtual files. -/
theorem slabWrite_ok {E : Env} {s : Store} {vf : List Bytes} (h : Slabbed E s vf) {d : Bytes}
    (hd : d.length ≤ E.cfg.maxFile) :
    ∃ slab, slabWrite E s.slab d = .ok slab ∧
      Slabbed E { s with slab := slab } (vappend E.cfg.maxFile vf d) ∧ slab.offsetsLen ≠ 0 := by
  have hfp := h.filePos
  obtain ⟨c0, cs, hi, rfl⟩ := h
  obtain ⟨i, l, e, hil, hc⟩ := hi.sok.files_snoc
  have hol := hi.ol
  have hoffs := hi.offs
  simp only [List.map_cons] at hoffs
  have hdata := hi.data
  have hfit := hi.fit; have hroll := hi.roll
  rw [vfOf_snoc e hil] at hfp ⊢
  simp only [slabWrite, hd, decide_true, check_true, Res.bind_ok]
  generalize hol' : (if s.slab.offsetsLen == 0 then { s.slab with offsetsLen := 1 } else s.slab) = sl
  have hsl : sl.data = s.slab.data ∧ sl.dataOff = s.slab.dataOff ∧ sl.offsets = s.slab.offsets ∧
      sl.start = s.slab.start ∧ sl.filePos = s.slab.filePos ∧ sl.fileIndex = s.slab.fileIndex ∧
      (sl.offsets.length ≤ sl.offsetsLen ∧ sl.offsetsLen ≤ sl.fileIndex + 1) ∧ sl.offsetsLen ≠ 0 := by
    subst hol'
    split
    · next h0 =>
      simp only [beq_iff_eq] at h0
      refine ⟨rfl, rfl, rfl, rfl, rfl, rfl, ?_, by simp⟩
      simp only; omega
    · next h0 =>
      simp only [beq_iff_eq] at h0
      exact ⟨rfl, rfl, rfl, rfl, rfl, rfl, hol, h0⟩
  obtain ⟨k1, k2, k3, k4, k5, k6, k7, k8⟩ := hsl
  by_cases hr : s.slab.filePos + d.length > E.cfg.maxFile
  · -- a new file
    rw [if_pos (by rw [k5]; exact hr)]
    have hlen : sl.offsets.length ≤ (if sl.offsets.length == sl.offsetsLen then sl.offsetsLen + 1 else sl.offsetsLen) := by
      split <;> omega
    have hlen2 : sl.offsets.length + 1 ≤ (if sl.offsets.length == sl.offsetsLen then sl.offsetsLen + 1 else sl.offsetsLen) := by
      split
      · omega
      · next hne => simp only [beq_iff_eq] at hne; omega
    have hlen3 : (if sl.offsets.length == sl.offsetsLen then sl.offsetsLen + 1 else sl.offsetsLen) ≤ sl.fileIndex + 1 + 1 := by split <;> omega
    rw [if_pos hlen]
    simp only [Res.pure_eq, Res.bind_ok]
    refine ⟨_, rfl, ⟨c0, cs ++ [d], ?_, ?_⟩, ?_⟩
    · refine ⟨⟨hi.sok.pos, hi.sok.idx, hi.sok.cur⟩, ?_, ?_, ?_, ?_, ?_, ?_, ?_, ?_, hi.faults⟩
      · simp [k1, hdata]
      · simp only [k3, k2, hoffs, Nat.zero_add]; simp
      · simp only [k4]; exact hi.start
      · simp only [k6, hi.fidx]; simp; omega
      · simp only [lastPos_snoc, Nat.zero_add]
      · exact hfit
      · exact roll_snoc hroll (by rw [← hi.fpos]; exact hr) hd
      · exact ⟨by simpa using hlen2, hlen3⟩
    · rw [vfOf_slab, vfOf_snoc e hil]
      unfold vappend
      rw [← hfp, if_pos hr]; simp
    · simp only; split <;> omega
  · rw [if_neg (by rw [k5]; exact hr)]
    simp only [Res.pure_eq, Res.bind_ok]
    rcases List.eq_nil_or_concat cs with rfl | ⟨cs', c, rfl⟩
    · refine ⟨_, rfl, ⟨c0 ++ d, [], ?_, ?_⟩, k8⟩
      · have hf := hi.fpos
        simp only [lastPos] at hf
        refine ⟨⟨hi.sok.pos, hi.sok.idx, hi.sok.cur⟩, ?_, ?_, ?_, ?_, ?_, ?_, trivial, k7, hi.faults⟩
        · simp [k1, hdata]
        · simp only [k3, k2, List.map_cons, List.map_nil, List.length_append]
          have hoffs' : s.slab.offsets ++ [s.slab.dataOff] = [] ++ [c0.length] := by simpa using hoffs
          obtain ⟨a, b⟩ := List.append_inj' hoffs' rfl
          simp at b
          rw [a, b]; rfl
        · simp only [k4]; exact hi.start
        · simp only [k6, hi.fidx]
        · simp only [k5, hf, lastPos, List.length_append]; omega
        · simp only [List.length_append]; omega
      · rw [vfOf_slab, vfOf_snoc e hil]
        simp only [List.append_nil] at hfp ⊢
        unfold vappend
        rw [← hfp, if_neg hr]; simp
    · rw [List.concat_eq_append] at *
      refine ⟨_, rfl, ⟨c0, cs' ++ [c ++ d], ?_, ?_⟩, k8⟩
      · have hf := hi.fpos
        simp only [lastPos_snoc] at hf
        refine ⟨⟨hi.sok.pos, hi.sok.idx, hi.sok.cur⟩, ?_, ?_, ?_, ?_, ?_, hfit, ?_, k7, hi.faults⟩
        · simp [k1, hdata]
        · simp only [k3, k2]
          simp only [List.map_append, List.map_cons, List.map_nil] at hoffs ⊢
          rw [← List.cons_append] at hoffs ⊢
          obtain ⟨a, b⟩ := List.append_inj' hoffs rfl
          simp at b
          rw [a, b, List.length_append]
        · simp only [k4]; exact hi.start
        · simp only [k6, hi.fidx]; simp
        · simp only [k5, hf, lastPos_snoc, List.length_append]
        · exact roll_grow hroll (by omega)
      · rw [vfOf_slab, vfOf_snoc e hil]
        rw [← List.append_assoc] at hfp ⊢
        rw [← List.append_assoc (i ++ [l ++ c0]) cs' [c ++ d], vappend_snoc]
        rw [lastLen_snoc] at hfp
        rw [← hfp, if_neg hr]

/-! ### Flushing -/

theorem storeWrite_first {E : Env} {s : Store} (h : SOk s) (hf : s.faults = []) {d : Bytes}
    (hfit : s.curSize + d.length ≤ E.cfg.maxFile) :
    ∃ s', storeWrite E s d = .ok (s', true) ∧ SOk s' ∧ s'.files = appendFile s.files s.index d ∧
      s'.index = s.index ∧ s'.curSize = s.curSize + d.length ∧ s'.faults = [] ∧ s'.slab = s.slab ∧ SameMeta s s' := by
  obtain ⟨i, l, e, hil, hc⟩ := h.files_snoc
  unfold storeWrite
  simp only [hf, List.head?_nil, Option.join_none, List.tail_nil]
  rw [if_neg (by omega)]
  by_cases h0 : d.length = 0
  · rw [if_pos h0]
    have hd : d = [] := List.length_eq_zero_iff.1 h0
    subst hd
    refine ⟨_, rfl, ⟨h.pos, h.idx, h.cur⟩, ?_, rfl, by simp, rfl, rfl, SameMeta.refl _⟩
    simp only [e, appendFile_snoc i l [] _ hil]; simp
  · rw [if_neg h0]
    refine ⟨_, rfl, ⟨h.pos, ?_, ?_⟩, rfl, rfl, rfl, rfl, rfl, ⟨rfl, rfl, rfl, rfl⟩⟩
    · simp only [e, appendFile_snoc i l d _ hil]; simp; omega
    · simp only [e, appendFile_snoc i l d _ hil]
      rw [List.getD_eq_getElem?_getD, List.getElem?_append_right (by omega)]
      have : s.index - 1 - i.length = 0 := by omega
      simp [this, hc]

theorem storeWrite_next {E : Env} {s : Store} (h : SOk s) (hf : s.faults = []) {d : Bytes}
    (hro : s.curSize + d.length > E.cfg.maxFile) (hd : 0 < d.length) (hcap : s.index + 1 < E.cfg.maxFiles) :
    ∃ s', storeWrite E s d = .ok (s', true) ∧ SOk s' ∧ s'.files = s.files ++ [d] ∧
      s'.index = s.index + 1 ∧ s'.curSize = d.length ∧ s'.faults = [] ∧ s'.slab = s.slab ∧ SameMeta s s' := by
  obtain ⟨i, l, e, hil, hc⟩ := h.files_snoc
  have hidx := h.idx
  unfold storeWrite
  simp only [hf, List.head?_nil, Option.join_none, List.tail_nil]
  rw [if_pos hro, if_neg (by simp), if_neg (by omega), if_neg (by simp)]
  rw [if_neg (by omega), if_pos (by omega)]
  have e0 : (s.files ++ [[]]).getD s.index [] = [] := by
    rw [List.getD_eq_getElem?_getD, List.getElem?_append_right (by omega)]
    simp [hidx]
  have e1 : appendFile (s.files ++ [[]]) (s.index + 1) d = s.files ++ [d] := by
    rw [appendFile_snoc _ _ _ _ (by omega)]; simp
  simp only [e0, e1, List.length_nil, Nat.zero_add]
  refine ⟨_, rfl, ⟨by simp, by simp [hidx], ?_⟩, rfl, rfl, rfl, rfl, rfl, ⟨rfl, rfl, rfl, rfl⟩⟩
  simp only [Nat.add_sub_cancel]
  rw [List.getD_eq_getElem?_getD, List.getElem?_append_right (by omega)]
  simp [hidx]

theorem flushLoop_next {E : Env} (cs : List Bytes) (i : Nat) {s : Store} (h : SOk s) (hf : s.faults = [])
    (hcur : s.curSize ≤ E.cfg.maxFile)
    (hroll : Roll E.cfg.maxFile s.curSize cs) (hcap : cs = [] ∨ s.index + cs.length < E.cfg.maxFiles) :
    ∃ s', flushLoop E (cs.map List.length) cs.flatten i s = .ok (s', none) ∧ SOk s' ∧
      s'.files = s.files ++ cs ∧ s'.faults = [] ∧ s'.slab = s.slab ∧ SameMeta s s' := by
  induction cs generalizing s i with
  | nil => exact ⟨s, rfl, h, by simp, hf, rfl, SameMeta.refl _⟩
  | cons c cs ih =>
    obtain ⟨r1, r2, r3⟩ := hroll
    have hcap : s.index + (c :: cs).length < E.cfg.maxFiles := hcap.resolve_left (by simp)
    simp only [List.length_cons] at hcap
    obtain ⟨s1, e1, o1, f1, i1, c1, ff1, sl1, m1⟩ :=
      storeWrite_next h hf r1 (by omega) (by omega)
    have ih' := ih (i + 1) o1 ff1 (by omega) (by rw [c1]; exact r3) (Or.inr (by omega))
    obtain ⟨s2, e2, o2, f2, ff2, sl2, m2⟩ := ih'
    refine ⟨s2, ?_, o2, by rw [f2, f1]; simp, ff2, sl2.trans sl1, m1.trans m2⟩
    simp only [List.map_cons, List.flatten_cons, flushLoop]
    rw [List.take_left', List.drop_left', e1]
    · simpa using e2
    · rfl
    · rfl

/-- A flush makes the files equal to the virtual files. -/
theorem storeFlush_ok {E : Env} {s : Store} {vf : List Bytes} (h : Slabbed E s vf)
    (hol : s.slab.offsetsLen ≠ 0) (hcap : vf.length < E.cfg.maxFiles) :
    ∃ s', storeFlush E s = .ok (s', true) ∧ Slabbed E s' vf ∧ s'.files = vf ∧ SOk s' ∧
      s'.slab.offsetsLen = s.slab.offsetsLen ∧ s'.faults = [] ∧ SameMeta s s' := by
  have hfi := h.fileIndex
  have hfp := h.filePos
  obtain ⟨c0, cs, hi, rfl⟩ := h
  have hl := slab_last c0 cs hi.sok
  have hle := lastPos_le hi.fit hi.roll
  have hol2 := hi.ol
  unfold storeFlush
  rw [if_neg (by simp only [not_or]; exact ⟨hol, by omega⟩)]
  simp only [hi.start, List.take_zero, List.sum_nil, List.drop_zero]
  rw [hi.offs, hi.data]
  simp only [List.map_cons, flushLoop]
  rw [List.take_left' rfl, List.drop_left' rfl]
  obtain ⟨s1, e1, o1, f1, i1, c1, ff1, sl1, m1⟩ := storeWrite_first hi.sok hi.faults hi.fit
  obtain ⟨s2, e2, o2, f2, ff2, sl2, m2⟩ := flushLoop_next (E := E) cs 1 o1 ff1 (by rw [c1]; exact hi.fit)
    (by rw [c1]; exact hi.roll) (by rw [hl.2.1] at hcap; rw [i1]; exact Or.inr hcap)
  simp only [e1, Res.bind_ok, if_true, Nat.zero_add, e2, Res.pure_eq]
  have hfiles : s2.files = vfOf s c0 cs := by rw [f2, f1]; rfl
  obtain ⟨i, l, e, hil, hc⟩ := o2.files_snoc
  have hcurlast : s2.curSize = lastLen (vfOf s c0 cs) := by rw [← hfiles, e, lastLen_snoc]; exact hc
  have hidx : s2.index = (vfOf s c0 cs).length := by rw [← hfiles, o2.idx]
  refine ⟨_, rfl, ⟨[], [], ⟨⟨o2.pos, o2.idx, o2.cur⟩, rfl, rfl, rfl, ?_, ?_, ?_, trivial, ⟨by simp, by simp only [sl2, sl1]; exact hol2.2⟩, ff2⟩, ?_⟩,
    hfiles, ⟨o2.pos, o2.idx, o2.cur⟩, by simp only [sl2, sl1], ff2, m1.trans m2⟩
  · simp only [sl2, sl1, List.length_nil, Nat.add_zero, hidx, hfi]
  · simp only [sl2, sl1, List.length_nil, Nat.add_zero, lastPos, hcurlast, hfp]
  · simp only [List.length_nil, Nat.add_zero, hcurlast, hl.1]; exact hle
  · unfold vfOf at hfiles ⊢
    simp only [hfiles, List.append_nil]
    have : appendFile s2.files s2.index [] = s2.files := by
      rw [e, appendFile_snoc i l [] _ hil]; simp
    rw [hfiles] at this
    exact this.symm

theorem commitSync_ok {E : Env} {s : Store} (h : s.faults = []) :
    ∃ io, commitSync E s = ({ s with io := io }, true) := by
  unfold commitSync
  split
  · refine ⟨.sync s.index :: s.io, ?_⟩
    rw [if_neg (by rw [h]; simp)]
    have : s.faults.tail = s.faults := by rw [h]; rfl
    rw [this]
  · exact ⟨s.io, rfl⟩

/-- Only the record of system calls changes. -/
theorem Slabbed.io {E : Env} {s : Store} {vf : List Bytes} (h : Slabbed E s vf) (io : List IoEv) : Slabbed E { s with io := io } vf := by
  obtain ⟨c0, cs, i, e⟩ := h
  exact ⟨c0, cs, ⟨⟨i.sok.pos, i.sok.idx, i.sok.cur⟩, i.data, i.offs, i.start, i.fidx, i.fpos, i.fit, i.roll, i.ol, i.faults⟩, e⟩

theorem flushSync_ok {E : Env} {s : Store} {vf : List Bytes} (h : Slabbed E s vf)
    (hol : s.slab.offsetsLen ≠ 0) (hcap : vf.length < E.cfg.maxFiles) :
    ∃ s', flushSync E s = .ok (s', true) ∧ Slabbed E s' vf ∧ s'.files = vf ∧ SOk s' ∧
      s'.slab.offsetsLen = s.slab.offsetsLen ∧ s'.faults = [] ∧ SameMeta s s' := by
  obtain ⟨s', e, h1, h2, h3, h4, h5, h6⟩ := storeFlush_ok h hol hcap
  obtain ⟨io, e2⟩ := commitSync_ok (E := E) h5
  exact ⟨{ s' with io := io }, by simp only [flushSync, e, Res.bind_ok, if_true, e2, Res.pure_eq], h1.io io, h2,
    ⟨h3.pos, h3.idx, h3.cur⟩, h4, h5, h6⟩

end Urkel
