import Verif.Lemmas.Witness
/-
Defect 1: values longer than 255 bytes are cut when they are read back, because
`urkel_node_save` takes the size as `uint8_t`.
-/
namespace Urkel
open PTree

theorem storeCommit_any {E : Env} (hE : EnvOk E) {s1 : Store} {vf1 : List Bytes} (h : Slabbed E s1 vf1) {hh : B32} {p : Ptr}
    (hp : NPtr p) (hcap : used E.cfg.maxFile vf1 + 152 < E.cfg.maxFile * E.cfg.maxFiles) :
    ∃ s2, storeCommit E s1 (.hash hh p) = .ok (s2, true) ∧ FExt vf1 s2.files ∧ SOk s2 := by
  have hm := hE.cfg.min
  obtain ⟨slp, ep, sp, xp, up, tp, lp⟩ := pad_slab hE.cfg h
  have eth : toHash (.hash hh p) = .ok (.hash hh p) := by simp only [toHash, markPtr_id hp]
  generalize hst : ({ s1.state with rootPtr := p, rootNode := .hash hh p } : Meta) = st
  have hlen : (metaWrite E s1.key st).length = metaSize := length_metaWrite hE.mac _ _
  have hlen' : (metaWrite E s1.key st).length = 38 := hlen
  obtain ⟨slm, em, sm, olm⟩ := slabWrite_ok sp (d := metaWrite E s1.key st) (by omega)
  have xm := fext_vappend E.cfg.maxFile sp.ne (metaWrite E s1.key st)
  have um := used_vappend E.cfg.maxFile sp.ne (metaWrite E s1.key st)
  obtain ⟨s2, ef, sf, ff, sok, _⟩ := flushSync_ok sm olm (length_of_used (max := E.cfg.maxFile) (by omega))
  refine ⟨{ s2 with state := { st with metaPtr := { st.metaPtr with index := slm.fileIndex, pos := slm.filePos - metaSize } },
                    cache := cacheRoot s2.cache st.rootNode }, ?_, ?_, ⟨sok.pos, sok.idx, sok.cur⟩⟩
  · unfold storeCommit storeWriteMeta
    simp only [rootPtrOf, Res.bind_ok, eth, hst, ep, em, Res.pure_eq]
    simp only at ef
    rw [ef]
    simp only [Res.bind_ok, if_true]
    subst hst; rfl
  · simp only [ff]; exact xp.trans xm

theorem vrd_take {vf : List Bytes} {i pos n m : Nat} {d : Bytes} (h : vrd vf ⟨i, pos, n⟩ = some d) (hm : m ≤ n) :
    vrd vf ⟨i, pos, m⟩ = some (d.take m) := by
  unfold vrd at h ⊢
  simp only at h ⊢
  split at h
  · cases h
  · next hi =>
    rw [if_neg hi]
    cases hf : vf[i - 1]? with
    | none => rw [hf] at h; cases h
    | some f =>
      rw [hf] at h
      simp only at h ⊢
      by_cases hn : n = 0
      · rw [if_pos hn] at h
        cases h
        have : m = 0 := by omega
        simp [this]
      · rw [if_neg hn] at h
        split at h
        · cases h
        · next hle =>
          cases h
          by_cases hm0 : m = 0
          · simp [hm0]
          · rw [if_neg hm0, if_neg (by omega), List.take_take, Nat.min_eq_left hm]

/-- Committing one new leaf with a long value, and reading it back. -/
theorem bigLeaf_commit {E : Env} (hE : EnvOk E) {db : Db} {hist : List PTree} (hd : DInv E db hist) (k : B32) (v : Bytes)
    (hv : v.length ≤ 1023)
    (hcap : used E.cfg.maxFile db.store.files + 2 * (v.length + 116) < E.cfg.maxFile * E.cfg.maxFiles) :
    ∃ db' tx', txCommit E db ⟨some (createLeaf E.H k v)⟩ = .ok (db', tx', .ok ()) ∧
      txGet db' tx' k = .ok (v.take (v.length % 256)) := by
  have hm := hE.cfg.min
  have hc := hE.cfg
  have h := hd.inv.slab
  -- the value
  obtain ⟨sl1, e1, s1, ol1⟩ := slabWrite_ok h (d := v) (by omega)
  have u1 := used_vappend E.cfg.maxFile h.ne v
  have hl1 := length_of_used (vf := vappend E.cfg.maxFile db.store.files v) (max := E.cfg.maxFile)
    (maxFiles := E.cfg.maxFiles) (by omega)
  have r1 := vrd_vappend E.cfg.maxFile h.ne v _ rfl
  have hll := s1.lastLen_le
  have h4 : 1 ≤ (vappend E.cfg.maxFile db.store.files v).length := List.length_pos_iff.2 s1.ne
  have hfi := s1.fileIndex
  have hfp := s1.filePos
  simp only at hfi hfp
  have cf := hc.file; have cfs := hc.files
  generalize hvp : savePtr sl1.fileIndex (sl1.filePos - v.length) v.length = vp
  have hvp' : vp = ⟨(vappend E.cfg.maxFile db.store.files v).length,
      lastLen (vappend E.cfg.maxFile db.store.files v) - v.length, v.length % 256⟩ := by
    rw [← hvp, hfi, hfp]
    unfold savePtr
    congr 1 <;> omega
  have okv : PtrOk vp := by
    rw [hvp']; exact ⟨by simp only; omega, by simp only; omega, by simp only; omega⟩
  have rv : vrd (vappend E.cfg.maxFile db.store.files v) vp = some (v.take (v.length % 256)) := by
    rw [hvp']; exact vrd_take r1 (Nat.mod_le _ _)
  -- the record
  obtain ⟨sl2, e2, s2, ol2, p, ep, okp, ip, zp, rp⟩ :=
    slabWrite_rec hc s1 (d := leafRec vp k) (by rw [length_leafRec]; omega) (by rw [length_leafRec]; omega)
  rw [length_leafRec] at ep zp
  have u2 := used_vappend E.cfg.maxFile s1.ne (leafRec vp k)
  rw [length_leafRec] at u2
  have hnp : NPtr p := ⟨okp, ip, by omega, by omega⟩
  have hdisk : OnDisk E.H (vrd (vappend E.cfg.maxFile (vappend E.cfg.maxFile db.store.files v) (leafRec vp k))) p
      (.leaf k (v.take (v.length % 256))) :=
    ⟨hnp, by rw [List.length_take]; omega, leafRec vp k, vp, rp, ⟨nodeRead_leafRec okv k, (leafBytes_eq okv k).symm⟩,
      by rw [hvp']; show v.length % 256 ≤ 1023; omega,
      vrd_mono (fext_vappend _ s1.ne _) _ _ rv⟩
  obtain ⟨s3, ef, hs3, hm3⟩ := flushAndHash_ok s2 true (fun _ => ol2) (length_of_used (max := E.cfg.maxFile) (by omega))
    (n := .leaf (some (hashValue E.H k v)) (some p) k (some v) (some vp))
    (n2 := .leaf (some (hashValue E.H k v)) (some p) k (some v) (some vp))
    (o := .hash (hashValue E.H k v) p) (x := hashValue E.H k v)
    (by rw [nodeHash]) (by simp only [toHash, markPtr_id hnp])
  have hw : treeWrite E (createLeaf E.H k v) db.store = .ok (s3, some (.hash (hashValue E.H k v) p)) := by
    have er : nodeWrite (.leaf (some (hashValue E.H k v)) none k (some v) (some vp)) = .ok (leafRec vp k) := rfl
    simp only [createLeaf, treeWrite, storeWriteValue, e1, Res.bind_ok, Res.pure_eq, hvp, storeWriteNode, er, e2]
    simp only [length_leafRec, ep]
    exact ef
  obtain ⟨s4, ec, hx, sok4⟩ := storeCommit_any hE hs3 (hh := hashValue E.H k v) hnp (by omega)
  refine ⟨⟨s4, rootNodeHash (.hash (hashValue E.H k v) p), db.revert⟩, ⟨some (.hash (hashValue E.H k v) p)⟩, ?_, ?_⟩
  · simp only [txCommit, Tx.node, Res.bind_ok, hw, ec, Bool.not_true, Bool.false_eq_true, if_false, Res.pure_eq]
  · have hd4 : OnDisk E.H s4.rd p (.leaf k (v.take (v.length % 256))) := by
      rw [sok4.rd_eq]; exact hdisk.mono (vrd_mono hx)
    obtain ⟨n, en, hrn, hnh⟩ := storeResolve_ok hd4
    -- the hash given to the resolved node does not matter for reading
    have key : ∀ hh, ∃ n', storeResolve s4 hh p = .ok (some n') ∧ treeGet s4 k true 599 n' 0 = .ok (v.take (v.length % 256)) := by
      intro hh
      obtain ⟨h1, h2, d, vp', h3, ⟨h4, _⟩, h5, h6⟩ := hd4
      have hlo := hnp.lo; have hhi := hnp.hi
      refine ⟨.leaf (some hh) (some p) k none (some vp'), ?_, ?_⟩
      · unfold storeResolve storeReadNode
        rw [if_neg (by omega), storeReadInto_ok (by omega), Res.bind_ok]
        have : storeRead s4 p.size p.index p.pos = some d := h3
        rw [this]
        simp only [h4, Res.bind_ok, Res.pure_eq]
      · have c : ¬ vp'.size > valueSize := by unfold valueSize; omega
        have h6' : storeRead s4 vp'.size vp'.index vp'.pos = some (v.take (v.length % 256)) := h6
        have step : ∀ f, treeGet s4 k true (f + 1) (.leaf (some hh) (some p) k none (some vp')) 0
            = .ok (v.take (v.length % 256)) := by
          intro f
          simp only [treeGet, ne_eq, not_true, if_false, if_true, storeRetrieve, if_neg c, storeReadInto_ok c, h6', Res.bind_ok, Res.pure_eq]
        exact step 598
    obtain ⟨n', en', eg⟩ := key (hashValue E.H k v)
    have step : ∀ f, treeGet s4 k true (f + 1) (.hash (hashValue E.H k v) p) 0 = treeGet s4 k true f n' 0 := by
      intro f; rw [treeGet]; simp only [en', Res.bind_ok]
    exact (step 599).trans eg

end Urkel
