import Verif.Lemmas.KeepLook
/-
Commits return as long as files can be numbered.
-/
namespace Urkel

theorem vappend_length_le {max : Nat} {vf : List Bytes} (hne : vf ≠ []) (d : Bytes) : (vappend max vf d).length ≤ vf.length + 1 := by
  rcases length_vappend (max := max) hne d with ⟨h, _⟩ | h <;> omega

theorem flush_total {E : Env} {s : Store} {vf : List Bytes} {n n2 o : Node} {x : B32} {w : Bool} (hs : Slabbed E s vf) (hi : s.index < E.cfg.maxFiles)
    (hol : w = true → s.slab.offsetsLen ≠ 0) (hcap : vf.length < E.cfg.maxFiles) (e1 : nodeHash E.H n = .ok (x, n2)) (e2 : toHash n2 = .ok o) :
    ∃ s', flushAndHash E s n w = .ok (s', some o) ∧ Slabbed E s' vf ∧ s'.index < E.cfg.maxFiles := by
  unfold flushAndHash
  split
  · next h =>
    rw [Bool.and_eq_true] at h
    obtain ⟨s1, e, h1, h2, h3, h4, h5, h6⟩ := storeFlush_ok hs (hol h.1) hcap
    refine ⟨s1, ?_, h1, by rw [← h3.idx, h2]; exact hcap⟩
    rw [e, Res.bind_ok]
    simp only [Bool.not_true, Bool.false_eq_true, ↓reduceIte, e1, e2, Res.bind_ok, Res.pure_eq]
  · refine ⟨s, ?_, hs, hi⟩
    simp only [Res.pure_eq, Res.bind_ok, Bool.not_true, Bool.false_eq_true, ↓reduceIte, e1, e2]

/-- Writing a tree returns. -/
theorem treeWrite_total {E : Env} (hc : CfgOk E.cfg) {n : Node} : ∀ {s : Store} {vf : List Bytes}, Slabbed E s vf →
    s.index < E.cfg.maxFiles → Fit n → Coh (vrd vf) n → vf.length + appends n < E.cfg.maxFiles →
    ∃ s' o vf', treeWrite E n s = .ok (s', some o) ∧ Slabbed E s' vf' ∧ s'.index < E.cfg.maxFiles ∧ vf'.length ≤ vf.length + appends n := by
  have hm := hc.min
  induction n with
  | null => intro s vf hs hi _ _ _; exact ⟨s, .null, vf, rfl, hs, hi, Nat.le_refl _⟩
  | hash h p => intro s vf hs hi _ _ _; exact ⟨s, .hash h p, vf, rfl, hs, hi, Nat.le_refl _⟩
  | leaf h p k v vp =>
    intro s vf hs hi hf hco hcap
    obtain ⟨hh, hv⟩ := hf
    obtain ⟨h, rfl⟩ := Option.isSome_iff_exists.1 hh
    cases p with
    | some p =>
      obtain ⟨s', e, h1, h2⟩ := flush_total (w := false) hs hi (nomatch ·) (by simp only [appends] at hcap; simpa using hcap) (n := .leaf (some h) (some p) k v vp) rfl rfl
      exact ⟨s', _, vf, e, h1, h2, Nat.le_add_right _ _⟩
    | none =>
      obtain ⟨⟨x, rfl⟩, rfl⟩ := hco.1 rfl
      have hx : x.length ≤ 1023 := by
        rcases hv with ⟨y, hy, hl⟩ | ⟨hy, _⟩
        · cases hy; exact hl
        · cases hy
      simp only [appends, Option.isNone_none, if_true] at hcap ⊢
      obtain ⟨sl1, w1, hs1, _⟩ := slabWrite_ok hs (d := x) (by omega)
      generalize hvp : savePtr sl1.fileIndex (sl1.filePos - x.length) x.length = vp
      have hl40 : (leBytes 1 2 ++ ptrWrite vp ++ k.bytes).length = 40 := length_leafRec vp k
      obtain ⟨sl2, w2, hs2, hol⟩ := slabWrite_ok hs1 (d := leBytes 1 2 ++ ptrWrite vp ++ k.bytes) (by omega)
      have l1 := vappend_length_le (max := E.cfg.maxFile) hs.ne x
      have l2 := vappend_length_le (max := E.cfg.maxFile) hs1.ne (leBytes 1 2 ++ ptrWrite vp ++ k.bytes)
      generalize hraw : leBytes 1 2 ++ ptrWrite vp ++ k.bytes = raw at *
      obtain ⟨s', e, h1, h2⟩ := flush_total (w := true) hs2 hi (fun _ => hol) (by omega)
        (n := .leaf (some h) (some (markPtr sl2.fileIndex (sl2.filePos - raw.length) raw.length)) k (some x) (some vp)) rfl rfl
      refine ⟨s', ?o, _, ?_, h1, h2, by omega⟩
      rotate_left
      unfold treeWrite
      simp only [storeWriteValue, w1, Res.bind_ok, Res.pure_eq, hvp]
      simp only [storeWriteNode, nodeWrite, hraw, Res.bind_ok]
      rw [w2]
      exact e
  | internal h p pre l r ihl ihr =>
    intro s vf hs hi hf hco hcap
    simp only [appends] at hcap ⊢
    obtain ⟨s1, l', vf1, e1, hs1, hi1, len1⟩ := ihl hs hi hf.2.2.2.1 hco.1 (by omega)
    obtain ⟨wf1, _, q1, ws1, _, x1, _, _, k1⟩ := treeWrite_any hc hs hi hf.2.2.2.1 hco.1 e1
    cases q1
    have lw1 : wf1.length = vf1.length := ws1.fileIndex.symm.trans hs1.fileIndex
    obtain ⟨s2, r', vf2, e2, hs2, hi2, len2⟩ := ihr ws1 hi1 hf.2.2.2.2 (hco.2.1.mono (vrd_mono x1)) (by omega)
    obtain ⟨wf2, _, q2, ws2, _, x2, _, _, k2⟩ := treeWrite_any hc ws1 hi1 hf.2.2.2.2 (hco.2.1.mono (vrd_mono x1)) e2
    cases q2
    have lw2 : wf2.length = vf2.length := ws2.fileIndex.symm.trans hs2.fileIndex
    obtain ⟨hl, pl, rfl, okl⟩ := (k1 (by omega)).ref hf.2.1
    obtain ⟨hr, pr, rfl, okr⟩ := (k2 (by omega)).ref hf.2.2.1
    unfold treeWrite
    rw [e1, Res.bind_ok]
    dsimp only
    rw [e2, Res.bind_ok]
    dsimp only
    have hash : ∀ q, ∃ x y, nodeHash E.H (.internal h (some q) pre (.hash hl pl) (.hash hr pr)) = .ok (x, .internal (some y) (some q) pre (.hash hl pl) (.hash hr pr)) := by
      intro q
      cases h with
      | some h => exact ⟨_, _, rfl⟩
      | none => exact ⟨_, _, rfl⟩
    cases p with
    | some p =>
      obtain ⟨x, y, eh⟩ := hash p
      simp only [Option.isNone_some, Bool.false_eq_true, if_false] at hcap ⊢
      obtain ⟨s', e, h1, h2⟩ := flush_total (w := false) hs2 hi2 (nomatch ·) (by omega) eh rfl
      exact ⟨s', _, vf2, e, h1, h2, by omega⟩
    | none =>
      simp only [Option.isNone_none, if_true] at hcap ⊢
      obtain ⟨d, ed, hd1, hd2, _⟩ := nodeWrite_sized hf.1 (l := .hash hl pl) (r := .hash hr pr) none none rfl rfl okl okr
      obtain ⟨sl, w, hs3, hol⟩ := slabWrite_ok hs2 (d := d) (by omega)
      have l1 := vappend_length_le (max := E.cfg.maxFile) hs2.ne d
      obtain ⟨x, y, eh⟩ := hash (markPtr sl.fileIndex (sl.filePos - d.length) d.length)
      obtain ⟨s', e, h1, h2⟩ := flush_total (w := true) hs3 hi2 (fun _ => hol) (by omega) eh rfl
      refine ⟨s', ?o2, _, ?_, h1, h2, by omega⟩
      rotate_left
      rw [storeWriteNode_branch, ed, Res.bind_ok, w, Res.bind_ok]
      exact e

/-- A commit returns if there are enough numbers left for files. -/
theorem txCommit_total {E : Env} (hE : EnvOk E) {db : Db} {n : Node} (hs : StoreSane E db.store) (hf : Fit n) (hc : Coh db.store.rd n) (hn : NRoot n)
    (hcap : db.store.files.length + appends n + 2 < E.cfg.maxFiles) : ∃ db' t', txCommit E db ⟨some n⟩ = .ok (db', t', .ok ()) := by
  have hm := hE.cfg.min
  rw [hs.sok.rd_eq] at hc
  obtain ⟨s1, o, vf, e1, h1, h2, h3⟩ := treeWrite_total hE.cfg hs.slab hs.idx hf hc (by omega)
  obtain ⟨wf, _, q, ws, _, _, _, _, k⟩ := treeWrite_any hE.cfg hs.slab hs.idx hf hc e1
  cases q
  have lw : wf.length = vf.length := ws.fileIndex.symm.trans h1.fileIndex
  have hfl := treeWrite_some e1
  have hro := (k (by omega)).root hn
  have hroot : ∃ p, rootPtrOf o = .ok p ∧ ∃ rn, toHash o = .ok rn := by
    cases o with
    | null => exact ⟨_, rfl, _, rfl⟩
    | hash h p => exact ⟨_, rfl, _, rfl⟩
    | leaf _ _ _ _ _ => exact hfl.elim
    | internal _ _ _ _ _ => exact hfl.elim
  obtain ⟨p, er, rn, et⟩ := hroot
  obtain ⟨slp, ep, sp, xp, up, tp, lp⟩ := pad_slab hE.cfg h1
  have hlen := length_metaWrite hE.mac s1.key { s1.state with rootPtr := p, rootNode := rn }
  obtain ⟨slm, em, sm, hol⟩ := slabWrite_ok sp (d := metaWrite E s1.key { s1.state with rootPtr := p, rootNode := rn }) (by rw [hlen]; unfold metaSize; omega)
  have c1 : (padFiles E.cfg.maxFile vf).length ≤ vf.length + 1 := by
    unfold padFiles
    split
    · exact vappend_length_le h1.ne _
    · omega
  have c2 := vappend_length_le (max := E.cfg.maxFile) sp.ne (metaWrite E s1.key { s1.state with rootPtr := p, rootNode := rn })
  obtain ⟨s3, e3, _⟩ := flushSync_ok sm hol (by omega)
  refine ⟨?a, ?b, ?_⟩
  rotate_left 2
  unfold txCommit
  simp only [Tx.node, Res.bind_ok, e1]
  unfold storeCommit storeWriteMeta
  simp only [er, et, Res.bind_ok, ep]
  rw [em, Res.bind_ok]
  simp only [Res.pure_eq, Res.bind_ok]
  rw [e3]
  rfl

end Urkel
