import Verif.Lemmas.Files
import Verif.Spec.Buffer
/-
The write buffer under failing flushes: a flush that fails without writing part of
a chunk is resumed correctly.
-/
namespace Urkel

/-- The store appends to the last of the files `cur`; after a failed rollover the
next file may exist already, empty. -/
structure Cur (s : Store) (cur : List Bytes) : Prop where
  ne : cur ≠ []
  idx : s.index = cur.length
  size : s.curSize = lastLen cur
  files : s.files = cur ∨ s.files = cur ++ [[]]
  ok : ∀ f ∈ s.faults, Fault.Benign f

/-- Only files, index, size and faults differ. -/
def SameSlab (s s' : Store) : Prop :=
  s'.slab = s.slab ∧ s'.key = s.key ∧ s'.state = s.state ∧ s'.cache = s.cache ∧ s'.lastMeta = s.lastMeta

theorem SameSlab.refl (s : Store) : SameSlab s s := ⟨rfl, rfl, rfl, rfl, rfl⟩
theorem SameSlab.trans {a b c : Store} (h1 : SameSlab a b) (h2 : SameSlab b c) : SameSlab a c :=
  ⟨h2.1.trans h1.1, h2.2.1.trans h1.2.1, h2.2.2.1.trans h1.2.2.1, h2.2.2.2.1.trans h1.2.2.2.1, h2.2.2.2.2.trans h1.2.2.2.2⟩

theorem appendFile_cur {cur : List Bytes} (hne : cur ≠ []) (x : List Bytes) (d : Bytes) :
    appendFile (cur ++ x) cur.length d = cur.dropLast ++ [cur.getLast?.getD [] ++ d] ++ x := by
  have key : ∀ (i : List Bytes) (l : Bytes) (f : Bytes → Bytes), (i ++ l :: x).modify i.length f = i ++ f l :: x := by
    intro i l f
    induction i with
    | nil => rfl
    | cons a i ih => simp [ih]
  obtain ⟨i, l, rfl⟩ := snoc_cases hne
  simp [appendFile, key]

theorem storeWrite_benign {E : Env} {s : Store} {cur : List Bytes} (h : Cur s cur) {d : Bytes} (hd : d.length ≤ E.cfg.maxFile)
    (hcap : (vappend E.cfg.maxFile cur d).length < E.cfg.maxFiles) :
    ∃ s' ok cur', storeWrite E s d = .ok (s', ok) ∧ SameSlab s s' ∧ Cur s' cur' ∧ cur'.length ≤ (vappend E.cfg.maxFile cur d).length ∧
      (ok = true → cur' = vappend E.cfg.maxFile cur d) ∧ (ok = false → vappend E.cfg.maxFile cur' d = vappend E.cfg.maxFile cur d) := by
  have hb : Fault.Benign s.faults.head?.join := by
    cases hf : s.faults with
    | nil => trivial
    | cons f fs => exact h.ok f (by simp [hf])
  have hok : ∀ f ∈ s.faults.tail, Fault.Benign f := fun f hf => h.ok f (List.mem_of_mem_tail hf)
  have hlen := length_le_vappend E.cfg.maxFile h.ne d
  -- the write itself, once the file is chosen
  have wr : ∀ (t : Store) (c : List Bytes), Cur t c → lastLen c + d.length ≤ E.cfg.maxFile → t.faults = s.faults.tail → SameSlab s t →
      c.length ≤ (vappend E.cfg.maxFile cur d).length →
      vappend E.cfg.maxFile c d = vappend E.cfg.maxFile cur d →
      ∃ s' ok cur', (if d.length = 0 then Res.ok (t, true)
        else match s.faults.head?.join with
          | some (.writeFail k) => .ok ({ t with files := appendFile t.files t.index (d.take k), io := .append t.index (d.take k) :: t.io }, false)
          | some .mapFail => .ok ({ t with files := appendFile t.files t.index d, curSize := t.curSize + d.length, io := .append t.index d :: t.io }, false)
          | _ => .ok ({ t with files := appendFile t.files t.index d, curSize := t.curSize + d.length, io := .append t.index d :: t.io }, true)) = .ok (s', ok) ∧
        SameSlab s s' ∧ Cur s' cur' ∧ cur'.length ≤ (vappend E.cfg.maxFile cur d).length ∧ (ok = true → cur' = vappend E.cfg.maxFile cur d) ∧
        (ok = false → vappend E.cfg.maxFile cur' d = vappend E.cfg.maxFile cur d) := by
    intro t c hc hfit hft hss hle he
    have hv : vappend E.cfg.maxFile c d = c.dropLast ++ [c.getLast?.getD [] ++ d] := by
      unfold vappend; rw [if_neg (by omega)]
    have full : Cur { t with files := appendFile t.files t.index d, curSize := t.curSize + d.length, io := .append t.index d :: t.io } (vappend E.cfg.maxFile cur d) := by
      have hlast : (vappend E.cfg.maxFile c d).length = c.length ∧ lastLen (vappend E.cfg.maxFile c d) = lastLen c + d.length := by
        obtain ⟨i, l, rfl⟩ := snoc_cases hc.ne
        rw [lastLen_snoc] at hfit ⊢
        rw [vappend_snoc, if_neg (by omega)]
        simp
      rw [← he]
      refine ⟨vappend_ne _ _ _, ?_, ?_, ?_, hc.ok⟩
      · rw [hlast.1]; exact hc.idx
      · rw [hlast.2]; show t.curSize + d.length = _; rw [hc.size]
      · show appendFile t.files t.index d = _ ∨ appendFile t.files t.index d = _
        rw [hv, hc.idx]
        rcases hc.files with e | e
        · left; rw [e]; have := appendFile_cur hc.ne [] d; simpa using this
        · right; rw [e]; exact appendFile_cur hc.ne [[]] d
    split
    · next h0 =>
      have : d = [] := List.length_eq_zero_iff.1 h0
      subst this
      refine ⟨t, true, c, rfl, hss, hc, hle, fun _ => ?_, fun h => (nomatch h)⟩
      rw [← he, hv]
      obtain ⟨i, l, rfl⟩ := snoc_cases hc.ne
      simp
    · split
      · next k e =>
        rw [e] at hb
        have : k = 0 := hb
        subst this
        refine ⟨_, false, c, rfl, hss, ⟨hc.ne, hc.idx, hc.size, ?_, hc.ok⟩, hle, fun h => (nomatch h), fun _ => he⟩
        have hz : ∀ x : List Bytes, appendFile (c ++ x) t.index (d.take 0) = c ++ x := by
          intro x
          rw [hc.idx, appendFile_cur hc.ne]
          obtain ⟨i, l, rfl⟩ := snoc_cases hc.ne
          simp
        show appendFile t.files t.index (d.take 0) = _ ∨ appendFile t.files t.index (d.take 0) = _
        rcases hc.files with e | e
        · left; rw [e]; simpa using hz []
        · right; rw [e]; exact hz _
      · next e => rw [e] at hb; exact hb.elim
      · exact ⟨_, true, _, rfl, ⟨hss.1, hss.2.1, hss.2.2.1, hss.2.2.2.1, hss.2.2.2.2⟩, full, Nat.le_refl _, fun _ => rfl, fun h => (nomatch h)⟩
  unfold storeWrite
  simp only
  split
  · next hroll =>
    have hroll : lastLen cur + d.length > E.cfg.maxFile := by rw [← h.size]; exact hroll
    have hv : vappend E.cfg.maxFile cur d = cur ++ [d] := by unfold vappend; rw [if_pos hroll]
    have hidx : ¬ s.index + 1 ≥ E.cfg.maxFiles := by
      rw [hv] at hcap; rw [h.idx]; simp at hcap; omega
    split
    · exact ⟨_, false, cur, rfl, SameSlab.refl _, ⟨h.ne, h.idx, h.size, h.files, hok⟩, hlen, fun h => (nomatch h), fun _ => rfl⟩
    · -- the next file exists now, and is empty
      have hfiles : (if s.files.length ≤ s.index then { s with faults := s.faults.tail, files := s.files ++ [[]], io := .create (s.index + 1) :: s.io }
          else { s with faults := s.faults.tail }) = { s with faults := s.faults.tail, files := cur ++ [[]], io := if s.files.length ≤ s.index then .create (s.index + 1) :: s.io else s.io } := by
        rcases h.files with e | e
        · rw [if_pos (by rw [e, h.idx]; exact Nat.le_refl _), if_pos (by rw [e, h.idx]; exact Nat.le_refl _), e]
        · rw [if_neg (by rw [e, h.idx]; simp), if_neg (by rw [e, h.idx]; simp), ← e]
      simp only [hfiles]
      split
      · exact ⟨_, false, cur, rfl, SameSlab.refl _, ⟨h.ne, h.idx, h.size, Or.inr rfl, hok⟩, hlen, fun h => (nomatch h), fun _ => rfl⟩
      · refine wr _ (cur ++ [[]]) ⟨by simp, ?_, ?_, Or.inl rfl, hok⟩ ?_ rfl (SameSlab.refl _) ?_ ?_
        · show s.index + 1 = _; rw [h.idx]; simp
        · show ((cur ++ [[]]).getD s.index []).length = _; rw [h.idx]; simp
        · simp; exact hd
        · rw [hv]; simp
        · rw [hv, vappend_snoc, if_neg (by simp; omega)]; simp
  · next hfit =>
    have hfit : lastLen cur + d.length ≤ E.cfg.maxFile := by rw [← h.size]; exact Nat.not_lt.1 hfit
    exact wr _ cur ⟨h.ne, h.idx, h.size, h.files, hok⟩ hfit rfl (SameSlab.refl _) hlen rfl

theorem flushLoop_benign {E : Env} : ∀ (cs : List Bytes) (tail : Bytes) (i : Nat) {s : Store} {cur : List Bytes}, Cur s cur →
    (∀ c ∈ cs, c.length ≤ E.cfg.maxFile) → (vappends E.cfg.maxFile cur cs).length < E.cfg.maxFiles →
    ∃ s' r cur', flushLoop E (cs.map List.length) (cs.flatten ++ tail) i s = .ok (s', r) ∧ SameSlab s s' ∧ Cur s' cur' ∧
      (r = none → cur' = vappends E.cfg.maxFile cur cs) ∧
      (∀ j, r = some j → ∃ k, k < cs.length ∧ j = i + k ∧ vappends E.cfg.maxFile cur' (cs.drop k) = vappends E.cfg.maxFile cur cs) := by
  intro cs
  induction cs with
  | nil =>
    intro tail i s cur h _ _
    exact ⟨s, none, cur, rfl, SameSlab.refl _, h, fun _ => rfl, fun j h => (nomatch h)⟩
  | cons c cs ih =>
    intro tail i s cur h hc hcap
    have hle := (fext_vappends E.cfg.maxFile (vappend_ne E.cfg.maxFile cur c) cs)
    have hlen : (vappend E.cfg.maxFile cur c).length ≤ (vappends E.cfg.maxFile cur (c :: cs)).length := by
      rw [vappends_cons]
      clear ih hcap hc h hle
      generalize hv : vappend E.cfg.maxFile cur c = v
      have hne : v ≠ [] := hv ▸ vappend_ne _ _ _
      clear hv
      induction cs generalizing v with
      | nil => exact Nat.le_refl _
      | cons d cs ih => exact Nat.le_trans (length_le_vappend _ hne d) (ih _ (vappend_ne _ _ _))
    obtain ⟨s1, ok, cur1, e, hss, h1, hl1, ht, hf⟩ := storeWrite_benign h (hc c (by simp)) (by omega)
    have htake : ((c :: cs).flatten ++ tail).take c.length = c := by simp
    have hdrop : ((c :: cs).flatten ++ tail).drop c.length = cs.flatten ++ tail := by simp
    rw [List.map_cons, flushLoop, htake, hdrop, e, Res.bind_ok]
    cases ok with
    | true =>
      simp only [if_true]
      obtain rfl := ht rfl
      obtain ⟨s2, r, cur2, e2, hss2, h2, hn, hj⟩ := ih tail (i + 1) h1 (fun d hd => hc d (by simp [hd])) hcap
      refine ⟨s2, r, cur2, e2, hss.trans hss2, h2, hn, ?_⟩
      intro j e3
      obtain ⟨k, a, b, c⟩ := hj j e3
      exact ⟨k + 1, by simp; omega, by omega, c⟩
    | false =>
      refine ⟨s1, some i, cur1, rfl, hss, h1, fun h => (nomatch h), ?_⟩
      intro j e3
      cases e3
      refine ⟨0, by simp, rfl, ?_⟩
      rw [List.drop_zero, vappends_cons, hf rfl]; rfl

/-- The buffer holds `rest` still to be written behind the chunks already written;
when it is flushed the files will be `vf`. -/
structure Buf (E : Env) (s : Store) (cur done rest vf : List Bytes) : Prop where
  hcur : Cur s cur
  data : s.slab.data = (done ++ rest).flatten
  offs : s.slab.offsets ++ [s.slab.dataOff] = (done ++ rest).map List.length
  start : s.slab.start = done.length
  ne : rest ≠ []
  hvf : vf = vappends E.cfg.maxFile cur rest
  fidx : s.slab.fileIndex = vf.length
  fpos : s.slab.filePos = lastLen vf
  lens : ∀ c ∈ rest, c.length ≤ E.cfg.maxFile
  ol : s.slab.offsets.length ≤ s.slab.offsetsLen
  le : lastLen vf ≤ E.cfg.maxFile

def Buffered (E : Env) (s : Store) (vf : List Bytes) : Prop := ∃ cur done rest, Buf E s cur done rest vf

theorem Buffered.ne {E : Env} {s : Store} {vf : List Bytes} (h : Buffered E s vf) : vf ≠ [] := by
  obtain ⟨cur, done, rest, hb⟩ := h
  rw [hb.hvf]; exact vappends_ne _ hb.hcur.ne _

theorem Buffered.pos {E : Env} {s : Store} {vf : List Bytes} (h : Buffered E s vf) :
    s.slab.fileIndex = vf.length ∧ s.slab.filePos = lastLen vf := by
  obtain ⟨cur, done, rest, hb⟩ := h
  exact ⟨hb.fidx, hb.fpos⟩

theorem lastLen_vappend (max : Nat) {v : List Bytes} (h : v ≠ []) (d : Bytes) :
    lastLen (vappend max v d) = if lastLen v + d.length > max then d.length else lastLen v + d.length := by
  obtain ⟨i, l, rfl⟩ := snoc_cases h
  rw [vappend_snoc, lastLen_snoc]
  split
  · exact lastLen_snoc (i ++ [l]) d
  · simp

/-- Appending to the last chunk is appending a record, when it fits. -/
theorem vappend_join {max : Nat} {v : List Bytes} (h : v ≠ []) (c d : Bytes) (hfit : lastLen (vappend max v c) + d.length ≤ max) :
    vappend max v (c ++ d) = vappend max (vappend max v c) d := by
  obtain ⟨i, l, rfl⟩ := snoc_cases h
  rw [lastLen_vappend _ h, lastLen_snoc] at hfit
  rw [vappend_snoc, vappend_snoc]
  split at hfit
  · next h1 =>
    rw [if_pos h1, if_pos (by simp; omega), vappend_snoc, if_neg (by omega)]
  · next h1 =>
    rw [if_neg h1, if_neg (by simp; omega), vappend_snoc, if_neg (by simp; omega), List.append_assoc]

theorem slabWrite_buf {E : Env} {s : Store} {vf : List Bytes} (h : Buffered E s vf) {d : Bytes} (hd : d.length ≤ E.cfg.maxFile) :
    ∃ slab, slabWrite E s.slab d = .ok slab ∧ Buffered E { s with slab := slab } (vappend E.cfg.maxFile vf d) ∧ slab.offsetsLen ≠ 0 := by
  have hvne := h.ne
  obtain ⟨cur, done, rest, hb⟩ := h
  obtain ⟨ri, rl, rfl⟩ := snoc_cases hb.ne
  have hv : vf = vappend E.cfg.maxFile (vappends E.cfg.maxFile cur ri) rl := by rw [hb.hvf, vappends_append]; rfl
  have hrne := vappends_ne E.cfg.maxFile hb.hcur.ne ri
  have hoff : s.slab.offsets = (done ++ ri).map List.length ∧ s.slab.dataOff = rl.length := by
    have := hb.offs
    rw [← List.append_assoc, List.map_append] at this
    have := List.append_inj' this rfl
    exact ⟨this.1, by simpa using this.2⟩
  have ho : s.slab.offsets.length = done.length + ri.length := by rw [hoff.1]; simp
  have hol := hb.ol
  unfold slabWrite
  simp only [hd, decide_true, check_true, Res.bind_ok]
  -- allocate the offsets
  generalize hs1 : (if (s.slab.offsetsLen == 0) = true then { s.slab with offsetsLen := 1 } else s.slab) = s1
  have e1 : s1.data = s.slab.data ∧ s1.dataOff = s.slab.dataOff ∧ s1.offsets = s.slab.offsets ∧ s1.start = s.slab.start ∧
      s1.filePos = s.slab.filePos ∧ s1.fileIndex = s.slab.fileIndex ∧ s1.offsetsLen ≠ 0 ∧ s1.offsets.length ≤ s1.offsetsLen := by
    subst hs1
    split
    · next h0 =>
      have h0 : s.slab.offsetsLen = 0 := by simpa using h0
      exact ⟨rfl, rfl, rfl, rfl, rfl, rfl, by simp, by show s.slab.offsets.length ≤ 1; omega⟩
    · next h0 => exact ⟨rfl, rfl, rfl, rfl, rfl, rfl, by simpa using h0, hol⟩
  obtain ⟨a1, a2, a3, a4, a5, a6, a7, a8⟩ := e1
  split
  · next hroll =>
    have hroll' : lastLen vf + d.length > E.cfg.maxFile := by rw [← hb.fpos, ← a5]; exact hroll
    generalize hol2 : (if (s1.offsets.length == s1.offsetsLen) = true then s1.offsetsLen + 1 else s1.offsetsLen) = ol
    have hol3 : s1.offsets.length + 1 ≤ ol ∧ ol ≠ 0 := by
      subst hol2
      split
      · constructor <;> omega
      · next hn => have : s1.offsets.length ≠ s1.offsetsLen := by simpa using hn
                   constructor <;> omega
    rw [if_pos (by omega)]
    simp only [Res.pure_eq, Res.bind_ok]
    refine ⟨_, rfl, ?_, hol3.2⟩
    refine ⟨cur, done, (ri ++ [rl]) ++ [d], ?_⟩
    have hv' : vappend E.cfg.maxFile vf d = vf ++ [d] := by unfold vappend; rw [if_pos hroll']
    refine ⟨⟨hb.hcur.ne, hb.hcur.idx, hb.hcur.size, hb.hcur.files, hb.hcur.ok⟩, ?_, ?_, ?_, by simp, ?_, ?_, ?_, ?_, ?_, ?_⟩
    · show s1.data ++ d = _; rw [a1, hb.data]; simp
    · show s1.offsets ++ [s1.dataOff] ++ [0 + d.length] = _; rw [a3, a2, hoff.1, hoff.2]; simp
    · show s1.start = _; rw [a4, hb.start]
    · rw [vappends_append, ← hb.hvf]; rfl
    · show s1.fileIndex + 1 = _; rw [a6, hb.fidx, hv']; simp
    · show 0 + d.length = _; rw [hv']; simp
    · intro c hc
      rw [List.mem_append] at hc
      rcases hc with hc | hc
      · exact hb.lens c hc
      · simp at hc; subst hc; exact hd
    · show (s1.offsets ++ [s1.dataOff]).length ≤ ol; simp; omega
    · rw [hv']; simp; exact hd
  · next hfit =>
    have hfit' : lastLen vf + d.length ≤ E.cfg.maxFile := by rw [← hb.fpos, ← a5]; exact Nat.not_lt.1 hfit
    simp only [Res.pure_eq, Res.bind_ok]
    refine ⟨_, rfl, ?_, a7⟩
    refine ⟨cur, done, ri ++ [rl ++ d], ?_⟩
    have hlast : lastLen (vappend E.cfg.maxFile vf d) = lastLen vf + d.length := by
      rw [lastLen_vappend _ hvne, if_neg (by omega)]
    have hrl : rl.length ≤ lastLen vf := by
      rw [hv, lastLen_vappend _ hrne]; split <;> omega
    refine ⟨⟨hb.hcur.ne, hb.hcur.idx, hb.hcur.size, hb.hcur.files, hb.hcur.ok⟩, ?_, ?_, ?_, by simp, ?_, ?_, ?_, ?_, ?_, ?_⟩
    · show s1.data ++ d = _; rw [a1, hb.data]; simp
    · show s1.offsets ++ [s1.dataOff + d.length] = _; rw [a3, a2, hoff.1, hoff.2]; simp
    · show s1.start = _; rw [a4, hb.start]
    · rw [vappends_append, hv]; exact (vappend_join hrne rl d (by rw [← hv]; exact hfit')).symm
    · show s1.fileIndex = _
      rw [a6, hb.fidx]
      obtain ⟨i, l, rfl⟩ := snoc_cases hvne
      rw [lastLen_snoc] at hfit'
      rw [vappend_snoc, if_neg (by omega)]; simp
    · show s1.filePos + d.length = _; rw [a5, hb.fpos, hlast]
    · intro c hc
      rw [List.mem_append] at hc
      rcases hc with hc | hc
      · exact hb.lens c (by simp [hc])
      · simp at hc; subst hc; simp; omega
    · show s1.offsets.length ≤ s1.offsetsLen; exact a8
    · omega

/-- A flush with benign faults: it succeeds and the files are as expected, or it
fails and the buffer still stands for the same files. -/
theorem storeFlush_buf {E : Env} {s : Store} {vf : List Bytes} (h : Buffered E s vf) (hol : s.slab.offsetsLen ≠ 0)
    (hcap : vf.length < E.cfg.maxFiles) :
    ∃ s' ok, storeFlush E s = .ok (s', ok) ∧ Buffered E s' vf ∧ s'.slab.offsetsLen ≠ 0 ∧
      (ok = true → Cur s' vf ∧ s'.slab.data = []) := by
  obtain ⟨cur, done, rest, hb⟩ := h
  have hcap' : (vappends E.cfg.maxFile cur rest).length < E.cfg.maxFiles := hb.hvf ▸ hcap
  obtain ⟨s1, r, cur1, e, hss, h1, hn, hj⟩ := flushLoop_benign rest [] s.slab.start hb.hcur hb.lens hcap'
  have hskip : ((s.slab.offsets ++ [s.slab.dataOff]).take s.slab.start).sum = done.flatten.length := by
    rw [hb.offs, hb.start, List.map_append, List.take_left' (by simp), List.length_flatten]
  have hdrop : s.slab.data.drop done.flatten.length = rest.flatten ++ [] := by
    rw [hb.data, List.flatten_append, List.drop_left]; simp
  have hoffs : (s.slab.offsets ++ [s.slab.dataOff]).drop s.slab.start = rest.map List.length := by
    rw [hb.offs, hb.start, List.map_append, List.drop_left' (by simp)]
  unfold storeFlush
  simp only
  rw [if_neg (by rintro (h | h); · exact hol h
                 · have := hb.ol; omega)]
  rw [hskip, hdrop, hoffs, e, Res.bind_ok]
  simp only
  cases r with
  | none =>
    obtain rfl := hn rfl
    simp only [Res.pure_eq]
    refine ⟨_, true, rfl, ⟨vf, [], [[]], ?_⟩, by show s1.slab.offsetsLen ≠ 0; rw [hss.1]; exact hol, fun _ => ⟨?_, rfl⟩⟩
    · rw [← hb.hvf] at h1
      have hvv : vappends E.cfg.maxFile vf [[]] = vf := by
        rw [vappends_cons, vappends_nil]
        have := hb.le
        obtain ⟨i, l, e⟩ := snoc_cases h1.ne
        rw [e] at this ⊢
        rw [lastLen_snoc] at this
        rw [vappend_snoc, if_neg (by simp; omega)]; simp
      refine ⟨⟨h1.ne, h1.idx, h1.size, h1.files, h1.ok⟩, rfl, rfl, rfl, by simp, hvv.symm, ?_, ?_, by simp, Nat.zero_le _, hb.le⟩
      · show s1.slab.fileIndex = _; rw [hss.1, hb.fidx]
      · show s1.slab.filePos = _; rw [hss.1, hb.fpos]
    · rw [hb.hvf]; exact ⟨h1.ne, h1.idx, h1.size, h1.files, h1.ok⟩
  | some j =>
    obtain ⟨k, hk, hjk, hv⟩ := hj j rfl
    simp only [Res.pure_eq]
    refine ⟨_, false, rfl, ⟨cur1, done ++ rest.take k, rest.drop k, ?_⟩, by show s1.slab.offsetsLen ≠ 0; rw [hss.1]; exact hol, fun h => (nomatch h)⟩
    refine ⟨⟨h1.ne, h1.idx, h1.size, h1.files, h1.ok⟩, ?_, ?_, ?_, ?_, ?_, ?_, ?_, ?_, ?_, hb.le⟩
    · show s1.slab.data = _; rw [hss.1, hb.data]; simp
    · show s1.slab.offsets ++ [s1.slab.dataOff] = _; rw [hss.1, hb.offs]; simp
    · show j = _; rw [hjk, hb.start]; simp; omega
    · intro h; rw [List.drop_eq_nil_iff] at h; omega
    · rw [hv, hb.hvf]
    · show s1.slab.fileIndex = _; rw [hss.1, hb.fidx]
    · show s1.slab.filePos = _; rw [hss.1, hb.fpos]
    · intro c hc; exact hb.lens c (List.mem_of_mem_drop hc)
    · show s1.slab.offsets.length ≤ s1.slab.offsetsLen; rw [hss.1]; exact hb.ol

end Urkel
