import Verif.Lemmas.Buffer
import Verif.Lemmas.Concrete
/-
C39: records land where their pointers say.
-/
namespace Urkel

theorem Slabbed.buffered {E : Env} {s : Store} (h : Slabbed E s s.files) (fs : List (Option Fault)) (hf : ∀ f ∈ fs, Fault.Benign f) :
    Buffered E { s with faults := fs } s.files := by
  have hl := h.lastLen_le
  have hfi := h.fileIndex
  have hfp := h.filePos
  obtain ⟨c0, cs, hi, hv⟩ := h
  obtain ⟨i, l, e, hidx, _⟩ := hi.sok.files_snoc
  rw [vfOf_snoc e hidx, e] at hv
  have hcs : cs = [] := by
    have := congrArg List.length hv
    simp at this
    exact this
  subst hcs
  have hc0 : c0 = [] := by
    rw [List.append_nil] at hv
    have := (List.append_inj' hv rfl).2
    simpa using this
  subst hc0
  have hlast : lastLen s.files = l.length := by rw [e]; simp
  refine ⟨s.files, [], [[]], ⟨by rw [e]; simp, by show s.index = _; rw [hi.sok.idx], ?_, Or.inl rfl, hf⟩, hi.data, hi.offs, hi.start, by simp,
    ?_, hfi, hfp, by simp, hi.ol.1, hl⟩
  · show s.curSize = _
    rw [hlast, hi.sok.cur, ← hidx, e]; simp
  · rw [vappends_cons, vappends_nil, e, vappend_snoc, if_neg (by rw [e] at hl; simp at hl ⊢; omega)]; simp

theorem inFile_ext {a b : List Bytes} (h : FExt a b) {d : Bytes} {i p : Nat} (hi : InFile a d i p) : InFile b d i p := by
  obtain ⟨h1, f, hf, hp, hd⟩ := hi
  obtain ⟨f', hf', t, rfl⟩ := h.get _ f hf
  refine ⟨h1, _, hf', by simp; omega, ?_⟩
  rw [List.drop_append_of_le_length (by omega), List.take_append_of_le_length (by simp; omega)]
  exact hd

theorem inFile_vappend (max : Nat) {vf : List Bytes} (h : vf ≠ []) (d : Bytes) :
    InFile (vappend max vf d) d (vappend max vf d).length (lastLen (vappend max vf d) - d.length) := by
  obtain ⟨i, l, rfl⟩ := snoc_cases h
  rw [vappend_snoc]
  split
  · exact ⟨by simp, d, by simp, by rw [lastLen_snoc]; omega, by rw [lastLen_snoc]; simp⟩
  · exact ⟨by simp, l ++ d, by simp, by simp, by simp⟩

theorem runBuf_ok {E : Env} : ∀ (ops : List BufOp) {s : Store} {vf : List Bytes}, Buffered E s vf → FilesLe E.cfg.maxFile vf →
    (s.slab.offsetsLen ≠ 0 ∨ (∃ d ops', ops = .write d :: ops') ∨ ops = []) →
    (∀ d ∈ records ops, d.length ≤ E.cfg.maxFile) →
    used E.cfg.maxFile vf + 2 * ((records ops).map List.length).sum < E.cfg.maxFile * E.cfg.maxFiles →
    ∃ s' ps b vf', runBuf E s ops = .ok (s', ps, b) ∧ ps.map Prod.fst = records ops ∧ FExt vf vf' ∧ Buffered E s' vf' ∧
      FilesLe E.cfg.maxFile vf' ∧ (∀ d i p, (d, i, p) ∈ ps → InFile vf' d i p) ∧ (b = true → Cur s' vf') ∧
      (records ops = [] → vf' = vf) := by
  intro ops
  induction ops with
  | nil =>
    intro s vf h hle _ _ _
    exact ⟨s, [], false, vf, rfl, rfl, FExt.refl _, h, hle, (fun _ _ _ hm => (nomatch hm)), (fun h => (nomatch h)), fun _ => rfl⟩
  | cons op ops ih =>
    intro s vf h hle hol hlen hcap
    have hcapf : vf.length < E.cfg.maxFiles := by
      rcases Nat.lt_or_ge vf.length E.cfg.maxFiles with h' | h'
      · exact h'
      · have := Nat.mul_le_mul_right E.cfg.maxFile h'
        unfold used at hcap
        rw [Nat.mul_comm E.cfg.maxFile] at hcap
        omega
    cases op with
    | write d =>
      have hd : d.length ≤ E.cfg.maxFile := hlen d (by simp [records])
      obtain ⟨slab, e, h1, ho⟩ := slabWrite_buf h hd
      have hu := used_vappend E.cfg.maxFile h.ne d
      obtain ⟨s', ps, b, vf', e2, h2, h3, h4, h5, h6, h7, h8⟩ := ih h1 (filesLe_vappend h.ne hle hd) (Or.inl ho)
        (fun x hx => hlen x (by simp [records, hx])) (by simp [records] at hcap; omega)
      refine ⟨s', (d, slab.fileIndex, slab.filePos - d.length) :: ps, b, vf', ?_, ?_, (fext_vappend _ h.ne d).trans h3, h4, h5, ?_, h7, fun h => (nomatch h)⟩
      · rw [runBuf, e, Res.bind_ok, e2, Res.bind_ok]; rfl
      · simp [records, h2]
      · intro x i p hm
        simp only [List.mem_cons, Prod.mk.injEq] at hm
        rcases hm with ⟨rfl, rfl, rfl⟩ | hm
        · obtain ⟨q1, q2⟩ := h1.pos
          simp only at q1 q2
          rw [q1, q2]
          exact inFile_ext h3 (inFile_vappend _ h.ne x)
        · exact h6 x i p hm
    | flush =>
      have hol' : s.slab.offsetsLen ≠ 0 := by
        rcases hol with h | ⟨d, o, h⟩ | h
        · exact h
        · cases h
        · cases h
      obtain ⟨s1, ok, e, h1, ho, hok⟩ := storeFlush_buf h hol' hcapf
      obtain ⟨s', ps, b, vf', e2, h2, h3, h4, h5, h6, h7, h8⟩ := ih h1 hle (Or.inl ho) hlen hcap
      cases ops with
      | nil =>
        obtain rfl := h8 rfl
        cases e2
        exact ⟨s1, [], ok, vf', by rw [runBuf, e, Res.bind_ok]; rfl, h2, h3, h4, h5, h6, fun h => (hok h).1, fun _ => rfl⟩
      | cons o os =>
        exact ⟨s', ps, b, vf', by rw [runBuf, e, Res.bind_ok]; simp only [e2, Res.bind_ok]; rfl, h2, h3, h4, h5, h6, h7, h8⟩

/-- C39: starting from any reachable database, put records into the buffer and flush
it in any order (starting with a record), whatever rollovers happen and whichever
flushes fail without writing part of the failed chunk. Nothing goes wrong, no file
ever exceeds MAX_FILE_SIZE, and once a flush succeeds every record is entirely inside
the one file, at the index and position noted for it when it was put. -/
theorem C39_records {E : Env} (hE : EnvOk E) {sys : Sys} (h : Reachable E sys) (fs : List (Option Fault)) (hf : ∀ f ∈ fs, Fault.Benign f)
    (d : Bytes) (ops : List BufOp) (hlen : ∀ x ∈ records (.write d :: ops), x.length ≤ E.cfg.maxFile)
    (hcap : sys.db.store.files.length * E.cfg.maxFile + lastLen sys.db.store.files + 2 * ((records (.write d :: ops)).map List.length).sum <
      E.cfg.maxFile * E.cfg.maxFiles) :
    ∃ s' places flushed, runBuf E { sys.db.store with faults := fs } (.write d :: ops) = .ok (s', places, flushed) ∧
      places.map Prod.fst = records (.write d :: ops) ∧ (∀ f ∈ s'.files, f.length ≤ E.cfg.maxFile) ∧
      (flushed = true → ∀ x i p, (x, i, p) ∈ places → InFile s'.files x i p) := by
  obtain ⟨sp, hist, hs⟩ := h.sim hE
  have hi := hs.db.inv
  obtain ⟨s', ps, b, vf', e, h1, h2, h3, h4, h5, h6, _⟩ := runBuf_ok (.write d :: ops) (hi.slab.buffered fs hf) hi.le (Or.inr (Or.inl ⟨_, _, rfl⟩)) hlen hcap
  refine ⟨s', ps, b, e, h1, ?_, ?_⟩
  · obtain ⟨cur, done, rest, hb⟩ := h3
    have hx : FExt cur vf' := hb.hvf ▸ fext_vappends _ hb.hcur.ne rest
    have hcur : FilesLe E.cfg.maxFile cur := by
      intro f hf
      obtain ⟨j, hj⟩ := List.getElem?_of_mem hf
      obtain ⟨f', hf', hp⟩ := hx.get j f hj
      exact Nat.le_trans hp.length_le (h4 f' (List.mem_of_getElem? hf'))
    intro f hf
    rcases hb.hcur.files with e | e
    · rw [e] at hf; exact hcur f hf
    · rw [e] at hf
      simp only [List.mem_append, List.mem_singleton] at hf
      rcases hf with hf | rfl
      · exact hcur f hf
      · simp
  · intro hb x i p hm
    obtain ⟨a, f, b', c, d'⟩ := h5 x i p hm
    refine ⟨a, f, ?_, c, d'⟩
    rcases (h6 hb).files with e | e
    · rw [e]; exact b'
    · rw [e, List.getElem?_append_left (List.getElem?_eq_some_iff.1 b').1]; exact b'

/-- The hypotheses of C39 are met by the empty database, with flushes of which one
fails and is retried. -/
example : Reachable toyEnv sys0 ∧ (∀ f ∈ [some (Fault.writeFail 0), none, some .openFail], Fault.Benign f) ∧
    (runBuf toyEnv { sys0.db.store with faults := [some (.writeFail 0), none, some .openFail] }
      [.write [1, 2], .flush, .write [3], .flush, .flush] matches .ok (_, [([1, 2], 1, 0), ([3], 1, 2)], true)) = true :=
  ⟨⟨_, .start sys0_started⟩, by simp [Fault.Benign], by decide +kernel⟩

end Urkel
