import Verif.Lemmas.History
/-
A commit: tree, padding, commit record, flush.
-/
namespace Urkel
open PTree

/-- Padding before a commit record. -/
def padFiles (max : Nat) (vf : List Bytes) : List Bytes :=
  if lastLen vf % metaSize ≠ 0 then
    vappend max vf (List.replicate (metaSize - lastLen vf % metaSize) 0)
  else vf

theorem padFiles_ne {max : Nat} {vf : List Bytes} (h : vf ≠ []) : padFiles max vf ≠ [] := by
  unfold padFiles; split
  · exact vappend_ne _ _ _
  · exact h

theorem pad_slab {E : Env} (hc : CfgOk E.cfg) {s : Store} {vf : List Bytes} (h : Slabbed E s vf) :
    ∃ slab, padSlab E s.slab = .ok slab ∧ Slabbed E { s with slab := slab } (padFiles E.cfg.maxFile vf) ∧
      FExt vf (padFiles E.cfg.maxFile vf) ∧
      used E.cfg.maxFile (padFiles E.cfg.maxFile vf) ≤ used E.cfg.maxFile vf + 76 ∧
      totalBytes vf ≤ totalBytes (padFiles E.cfg.maxFile vf) ∧
      (FilesLe E.cfg.maxFile vf → FilesLe E.cfg.maxFile (padFiles E.cfg.maxFile vf)) := by
  have hm := hc.min
  unfold padSlab
  rw [h.filePos]
  unfold padFiles
  split
  · have hl : (List.replicate (metaSize - lastLen vf % metaSize) (0 : UInt8)).length ≤ 38 := by
      simp only [List.length_replicate, metaSize]; omega
    obtain ⟨slab, e, hs, _⟩ := slabWrite_ok h (d := List.replicate (metaSize - lastLen vf % metaSize) 0) (by omega)
    have hu := used_vappend E.cfg.maxFile h.ne (List.replicate (metaSize - lastLen vf % metaSize) 0)
    exact ⟨slab, e, hs, fext_vappend _ h.ne _, by omega, by rw [totalBytes_vappend _ h.ne]; omega,
      fun hf => filesLe_vappend h.ne hf (by omega)⟩
  · exact ⟨s.slab, rfl, h, FExt.refl _, by omega, Nat.le_refl _, id⟩

/-- When the padding fits the current file, the record is aligned. -/
theorem pad_aligned {max : Nat} {vf : List Bytes} (hne : vf ≠ []) (h : lastLen vf + 37 ≤ max ∨ lastLen vf % metaSize = 0) :
    lastLen (padFiles max vf) % metaSize = 0 := by
  unfold padFiles
  split
  · next h0 =>
    have h1 := h.resolve_right h0
    have := (vappend_fits (max := max) hne (d := List.replicate (metaSize - lastLen vf % metaSize) 0)
      (by simp only [List.length_replicate, metaSize] at *; omega)).2
    rw [this]; simp only [List.length_replicate, metaSize] at *; omega
  · next h0 => omega

theorem length_padFiles {max : Nat} {vf : List Bytes} (hne : vf ≠ []) : vf.length ≤ (padFiles max vf).length := by
  unfold padFiles; split
  · exact length_le_vappend _ hne _
  · exact Nat.le_refl _

theorem length_vappend {max : Nat} {vf : List Bytes} (hne : vf ≠ []) (d : Bytes) :
    (vappend max vf d).length = vf.length ∧ lastLen (vappend max vf d) = lastLen vf + d.length ∨
      (vappend max vf d).length = vf.length + 1 := by
  obtain ⟨i, l, rfl⟩ := snoc_cases hne
  rw [vappend_snoc]
  split
  · right; simp
  · left; simp

/-- When the padding did not start a new file, the record is aligned. -/
theorem pad_aligned' {max : Nat} {vf : List Bytes} (hne : vf ≠ []) (h : (padFiles max vf).length = vf.length) :
    lastLen (padFiles max vf) % metaSize = 0 := by
  unfold padFiles at h ⊢
  split
  · next h0 =>
    rw [if_pos h0] at h
    rcases length_vappend (max := max) hne (List.replicate (metaSize - lastLen vf % metaSize) 0) with ⟨_, e⟩ | e
    · rw [e, List.length_replicate]
      simp only [metaSize] at h0 ⊢
      omega
    · omega
  · next h0 => omega

theorem FExt.length_le {a b : List Bytes} (h : FExt a b) : a.length ≤ b.length := by
  rcases h with rfl | ⟨i, l, junk, extra, rfl, rfl⟩
  · exact Nat.le_refl _
  · simp

theorem meta_aligned {max : Nat} {vf : List Bytes} (hne : vf ≠ []) {d : Bytes} (hd : d.length = metaSize)
    (h : lastLen vf % metaSize = 0) : (lastLen (vappend max vf d) - metaSize) % metaSize = 0 := by
  obtain ⟨i, l, rfl⟩ := snoc_cases hne
  rw [lastLen_snoc] at h
  rw [vappend_snoc]
  split
  · rw [lastLen_snoc, hd]; simp
  · rw [lastLen_snoc, List.length_append, hd]; simpa using h

/-- The outcome of a commit. -/
structure Committed (E : Env) (s s2 : Store) (hist : List PTree) (t : PTree) : Prop where
  inv : SInv E s2 (t :: hist)
  ext : FExt s.files s2.files
  key : s2.key = s.key
  used : used E.cfg.maxFile s2.files ≤ used E.cfg.maxFile s.files + 2 * (t.bytes + 76)
  fits : lastLen s.files + t.bytes + 76 ≤ E.cfg.maxFile →
    s2.files.length = s.files.length ∧ lastLen s2.files ≤ lastLen s.files + t.bytes + 76 ∧
      s2.state.metaPtr.pos % metaSize = 0
  aligned : s2.files.length = s.files.length → s2.state.metaPtr.pos % metaSize = 0

theorem lastLen_vappend_ge {max : Nat} {vf : List Bytes} (hne : vf ≠ []) (d : Bytes) :
    d.length ≤ lastLen (vappend max vf d) := by
  obtain ⟨i, l, rfl⟩ := snoc_cases hne
  rw [vappend_snoc]
  split
  · rw [lastLen_snoc]; omega
  · rw [lastLen_snoc, List.length_append]; omega

theorem commit_ok {E : Env} (hE : EnvOk E) {s : Store} {hist : List PTree} (hs : SInv E s hist) {n : Node} {t : PTree}
    (hr : Repr E.H (vrd s.files) n t) (ht : t.Top) (hv : t.ValsLe 255)
    (hcap : used E.cfg.maxFile s.files + 2 * (t.bytes + 76) < E.cfg.maxFile * E.cfg.maxFiles) :
    ∃ s1 root s2, treeWrite E n s = .ok (s1, some root) ∧ storeCommit E s1 root = .ok (s2, true) ∧
      RootIs E.H (vrd s2.files) root t ∧ s2.state.rootNode = root ∧ Committed E s s2 hist t := by
  have hm := hE.cfg.min
  obtain ⟨s1, root, vf1, e1, w⟩ := treeWrite_ok hE.cfg (q := []) hs.slab hr ht hv (by omega)
  have u1 := w.used
  obtain ⟨slp, ep, sp, xp, up, tp, lp⟩ := pad_slab hE.cfg w.slab
  -- the record
  have hroot : ∃ rp, rootPtrOf root = .ok rp ∧ PtrOk rp ∧ RootAt E.H (vrd vf1) rp t ∧ toHash root = .ok root := by
    rcases w.root with ⟨rfl, rfl⟩ | ⟨p, rfl, hd⟩
    · exact ⟨Ptr.zero, rfl, ⟨by decide, by decide, by decide⟩, Or.inl ⟨rfl, rfl⟩, rfl⟩
    · exact ⟨p, rfl, hd.nptr.ok, Or.inr hd, by simp only [toHash, markPtr_id hd.nptr]⟩
  obtain ⟨rp, er, okr, hra, eth⟩ := hroot
  obtain ⟨k1, k2, k3, k4⟩ := w.same
  have hmp : PtrOk s1.state.metaPtr := by rw [k3]; exact hs.mptr
  generalize hst : (⟨s1.state.metaPtr, rp, root⟩ : Meta) = st
  have hstm : st.metaPtr = s1.state.metaPtr := by rw [← hst]
  have hstr : st.rootPtr = rp := by rw [← hst]
  have hstn : st.rootNode = root := by rw [← hst]
  have hlen : (metaWrite E s1.key st).length = metaSize := length_metaWrite hE.mac _ _
  have hlen' : (metaWrite E s1.key st).length = 38 := hlen
  obtain ⟨slm, em, sm, olm⟩ := slabWrite_ok sp (d := metaWrite E s1.key st) (by omega)
  have xm := fext_vappend E.cfg.maxFile sp.ne (metaWrite E s1.key st)
  have um := used_vappend E.cfg.maxFile sp.ne (metaWrite E s1.key st)
  rw [hlen'] at um
  have tm := totalBytes_vappend E.cfg.maxFile sp.ne (metaWrite E s1.key st)
  rw [hlen'] at tm
  have lm : FilesLe E.cfg.maxFile (vappend E.cfg.maxFile (padFiles E.cfg.maxFile vf1) (metaWrite E s1.key st)) :=
    filesLe_vappend sp.ne (lp (w.le hs.le)) (by omega)
  have hrd := vrd_vappend E.cfg.maxFile sp.ne (metaWrite E s1.key st) _ hlen.symm
  have hlast := lastLen_vappend_ge (max := E.cfg.maxFile) sp.ne (metaWrite E s1.key st)
  have hfit : lastLen s.files + t.bytes + 76 ≤ E.cfg.maxFile →
    (vappend E.cfg.maxFile (padFiles E.cfg.maxFile vf1) (metaWrite E s1.key st)).length = s.files.length ∧
    lastLen (vappend E.cfg.maxFile (padFiles E.cfg.maxFile vf1) (metaWrite E s1.key st)) ≤ lastLen s.files + t.bytes + 76 ∧
    (lastLen (vappend E.cfg.maxFile (padFiles E.cfg.maxFile vf1) (metaWrite E s1.key st)) - metaSize) % metaSize = 0 := by
    intro hf
    obtain ⟨a1, a2⟩ := w.fits (by omega)
    have al := pad_aligned (max := E.cfg.maxFile) (vf := vf1) w.slab.ne (Or.inl (by omega))
    have hp : (padFiles E.cfg.maxFile vf1).length = vf1.length ∧ lastLen (padFiles E.cfg.maxFile vf1) ≤ lastLen vf1 + 38 := by
      unfold padFiles
      split
      · have hl : (List.replicate (metaSize - lastLen vf1 % metaSize) (0 : UInt8)).length ≤ 38 := by
          simp only [List.length_replicate, metaSize]; omega
        obtain ⟨b1, b2⟩ := vappend_fits (max := E.cfg.maxFile) w.slab.ne
          (d := List.replicate (metaSize - lastLen vf1 % metaSize) 0) (by omega)
        exact ⟨b1, by omega⟩
      · exact ⟨rfl, by omega⟩
    obtain ⟨c1, c2⟩ := vappend_fits (max := E.cfg.maxFile) sp.ne (d := metaWrite E s1.key st) (by omega)
    exact ⟨by omega, by omega, meta_aligned sp.ne hlen al⟩
  have hali : (vappend E.cfg.maxFile (padFiles E.cfg.maxFile vf1) (metaWrite E s1.key st)).length = s.files.length →
    (lastLen (vappend E.cfg.maxFile (padFiles E.cfg.maxFile vf1) (metaWrite E s1.key st)) - metaSize) % metaSize = 0 := by
    intro he
    have l1 := w.ext.length_le
    have l2 := length_padFiles (max := E.cfg.maxFile) w.slab.ne
    have l3 := length_le_vappend E.cfg.maxFile sp.ne (metaWrite E s1.key st)
    exact meta_aligned sp.ne hlen (pad_aligned' w.slab.ne (by omega))
  generalize hvf : vappend E.cfg.maxFile (padFiles E.cfg.maxFile vf1) (metaWrite E s1.key st) = vf3 at *
  have hl3 : vf3.length < E.cfg.maxFiles := length_of_used (max := E.cfg.maxFile) (by omega)
  have hlle := sm.lastLen_le
  have hfi := sm.fileIndex
  have hfp := sm.filePos
  simp only at hfi hfp
  obtain ⟨s2, ef, sf, ff, _, _, _, mf⟩ := flushSync_ok sm olm hl3
  obtain ⟨m1, m2, m3, m4⟩ := mf
  simp only at m1 m2 m3 m4
  subst ff
  have xall : FExt s.files s2.files := (w.ext.trans xp).trans xm
  have cf := hE.cfg.file; have cfs := hE.cfg.files
  have newMp : PtrOk ({ st.metaPtr with index := s2.files.length, pos := lastLen s2.files - metaSize } : Ptr) := by
    rw [hstm]
    exact ⟨by simp only; omega, by simp only; omega, hmp.size⟩
  have hne3 : 1 ≤ s2.files.length := List.length_pos_iff.2 sf.ne
  have hchain : HistAt E s.key (vrd s2.files)
      ({ st.metaPtr with index := s2.files.length, pos := lastLen s2.files - metaSize } : Ptr) (t :: hist) := by
    refine ⟨⟨hne3, by rw [hstm, k3]; exact hs.chain.size⟩, st, ?_, by rw [hstm]; exact hmp, by rw [hstr]; exact okr, ?_, ?_⟩
    · rw [← k1]; exact hrd
    · rw [hstr]; exact hra.mono (vrd_mono (xp.trans xm))
    · rw [hstm, k3]; exact hs.chain.mono (vrd_mono xall)
  have hrootis : RootIs E.H (vrd s2.files) root t := RootIs.mono (vrd_mono (xp.trans xm)) w.root
  -- final store
  have final : ∀ c : List (B32 × Ptr),
      (∀ h p, (h, p) ∈ c → ∃ u ∈ t :: hist, h = u.hash E.H ∧ OnDisk E.H (vrd s2.files) p u) →
      (∀ h, (cacheLookup s.cache h).isSome → (cacheLookup c h).isSome) →
      (t = .null ∨ (cacheLookup c (t.hash E.H)).isSome) →
      Committed E s { s2 with state := { st with metaPtr := { st.metaPtr with index := slm.fileIndex, pos := slm.filePos - metaSize } }, cache := c } hist t := by
    intro c hc1 hc2 hc3
    rw [hfi, hfp]
    refine ⟨⟨?_, lm, ?_, ?_, newMp, ?_, ?_, hc1, ?_, ?_, ?_, ?_⟩, xall, m1.trans k1, by simp only; omega, hfit, hali⟩
    · obtain ⟨c0, cs, i, e⟩ := sf
      exact ⟨c0, cs, ⟨⟨i.sok.pos, i.sok.idx, i.sok.cur⟩, i.data, i.offs, i.start, i.fidx, i.fpos, i.fit, i.roll, i.ol,
        i.faults⟩, e⟩
    · intro u hu
      rcases List.mem_cons.1 hu with rfl | hu
      · exact ht
      · exact hs.top u hu
    · intro u hu
      rcases List.mem_cons.1 hu with rfl | hu
      · exact hv.mono (by omega)
      · exact hs.vals u hu
    · simp only [m1, k1]; exact hchain
    · simp only [hstn, List.headD_cons]; exact hrootis
    · obtain ⟨newer, older, a, b, d⟩ := hs.last
      refine ⟨t :: newer, older, by rw [a]; rfl, ?_, ?_⟩
      · simp only [m1, m4, k1, k4]; exact b.mono (vrd_mono xall)
      · intro u hu
        rcases List.mem_cons.1 hu with rfl | hu
        · exact hc3
        · exact (d u hu).imp id (hc2 _)
    · have := hs.count
      have := w.total
      simp only [List.length_cons]; omega
    · refine Or.inr ⟨rfl, ?_⟩
      simp only; omega
    · intro h1
      have hx := xall.length_le
      have hs1 : 1 ≤ s.files.length := List.length_pos_iff.2 hs.slab.ne
      have h2 := hali (by simp only at h1; omega)
      have : metaSize = 38 := rfl
      simp only [this] at h2 ⊢
      omega
  have hcold : ∀ h p, (h, p) ∈ s2.cache → ∃ u ∈ t :: hist, h = u.hash E.H ∧ OnDisk E.H (vrd s2.files) p u := by
    intro h p hm
    rw [m2, k2] at hm
    obtain ⟨u, a, b, c⟩ := hs.cache h p hm
    exact ⟨u, List.mem_cons_of_mem _ a, b, c.mono (vrd_mono xall)⟩
  have heq : storeCommit E s1 root = .ok ({ s2 with state := { st with metaPtr := { st.metaPtr with index := slm.fileIndex, pos := slm.filePos - metaSize } }, cache := cacheRoot s2.cache root }, true) := by
    simp only at em ef
    unfold storeCommit storeWriteMeta
    simp only [er, Res.bind_ok, eth, hst, ep, em, Res.pure_eq]
    rw [ef]
    simp only [Res.bind_ok, if_true, hstn, hstm, hstr]
  rcases w.root with ⟨rfl, rfl⟩ | ⟨p, rfl, hd⟩
  · refine ⟨s1, .null, _, e1, heq, hrootis, hstn, ?_⟩
    exact final s2.cache hcold (by intro h hh; rw [m2, k2]; exact hh) (Or.inl rfl)
  · refine ⟨s1, _, _, e1, heq, hrootis, hstn, ?_⟩
    refine final _ ?_ ?_ (Or.inr (cacheLookup_insert _ _ _ (t.hash E.H)).2.1)
    · intro h' p' hm
      rcases cacheInsert_mem hm with hm | ⟨rfl, rfl⟩
      · exact hcold _ _ hm
      · exact ⟨t, List.mem_cons_self, rfl, hd.mono (vrd_mono (xp.trans xm))⟩
    · intro h' hh
      have hh' : (cacheLookup s2.cache h').isSome := by rw [m2, k2]; exact hh
      rw [cacheRoot, (cacheLookup_insert s2.cache _ p h').1 hh']; exact hh'

end Urkel
