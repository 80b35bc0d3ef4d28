import Verif.Spec.Env
import Verif.Lemmas.Files
/-
Writing a tree: every node goes to the place its pointer says, and the nodes
left in memory stand for the same tree.
-/
namespace Urkel
open PTree

theorem realCfg_ok : CfgOk realCfg := ⟨by decide, by decide, by decide⟩

/-- Upper bound for the bytes needed to store a tree. -/
def PTree.bytes : PTree → Nat
  | .null => 0
  | .leaf _ v => 40 + v.length
  | .node _ l r => l.bytes + r.bytes + 113

theorem length_of_used {max maxFiles : Nat} {vf : List Bytes} (h : used max vf < max * maxFiles) :
    vf.length < maxFiles := by
  unfold used at h
  rcases Nat.lt_or_ge vf.length maxFiles with h' | h'
  · exact h'
  · have := Nat.mul_le_mul_right max h'
    rw [Nat.mul_comm max] at h; omega

theorem markPtr_ok {E : Env} (hc : CfgOk E.cfg) {s : Store} {vf : List Bytes} (h : Slabbed E s vf)
    (hl : vf.length < E.cfg.maxFiles) {n : Nat} (hn : n ≤ 255) :
    markPtr s.slab.fileIndex (s.slab.filePos - n) n = ⟨vf.length, lastLen vf - n, n⟩ ∧
      PtrOk ⟨vf.length, lastLen vf - n, n⟩ ∧ 1 ≤ vf.length := by
  have h1 := h.lastLen_le
  have h2 := hc.file; have h3 := hc.files
  have h4 : 1 ≤ vf.length := List.length_pos_iff.2 h.ne
  rw [h.fileIndex, h.filePos]
  refine ⟨?_, ⟨by simp only; omega, by simp only; omega, by simp only; omega⟩, h4⟩
  unfold markPtr
  congr 1 <;> omega

theorem markPtr_id {p : Ptr} (h : NPtr p) : markPtr p.index p.pos p.size = p := by
  have h1 := h.ok.index; have h2 := h.ok.pos; have h3 := h.hi
  unfold markPtr
  cases p
  simp only at *
  congr 1 <;> omega

/-- A record put into the buffer. -/
theorem slabWrite_rec {E : Env} (hc : CfgOk E.cfg) {s : Store} {vf : List Bytes} (h : Slabbed E s vf) {d : Bytes}
    (hd : d.length ≤ 255) (hcap : used E.cfg.maxFile vf + 2 * d.length < E.cfg.maxFile * E.cfg.maxFiles) :
    ∃ slab, slabWrite E s.slab d = .ok slab ∧
      Slabbed E { s with slab := slab } (vappend E.cfg.maxFile vf d) ∧ slab.offsetsLen ≠ 0 ∧
      ∃ p, markPtr slab.fileIndex (slab.filePos - d.length) d.length = p ∧ PtrOk p ∧ 1 ≤ p.index ∧
        p.size = d.length ∧ vrd (vappend E.cfg.maxFile vf d) p = some d := by
  have hm := hc.min
  obtain ⟨slab, e, hs, ho⟩ := slabWrite_ok h (d := d) (by omega)
  have hu := used_vappend E.cfg.maxFile h.ne d
  have hl := length_of_used (vf := vappend E.cfg.maxFile vf d) (max := E.cfg.maxFile) (maxFiles := E.cfg.maxFiles)
    (by omega)
  obtain ⟨a, b, c⟩ := markPtr_ok hc hs hl (n := d.length) hd
  exact ⟨slab, e, hs, ho, _, a, b, c, rfl, vrd_vappend E.cfg.maxFile h.ne d _ rfl⟩

/-- What `flushAndHash` does when it succeeds. -/
theorem flushAndHash_ok {E : Env} {s : Store} {vf : List Bytes} (h : Slabbed E s vf) (wrote : Bool)
    (hol : wrote = true → s.slab.offsetsLen ≠ 0) (hl : vf.length < E.cfg.maxFiles)
    {n n2 o : Node} {x : B32} (e1 : nodeHash E.H n = .ok (x, n2)) (e2 : toHash n2 = .ok o) :
    ∃ s', flushAndHash E s n wrote = .ok (s', some o) ∧ Slabbed E s' vf ∧ SameMeta s s' := by
  unfold flushAndHash
  by_cases hw : (wrote && needsFlush E s) = true
  · rw [if_pos hw]
    simp only [Bool.and_eq_true] at hw
    obtain ⟨s', e, h1, _, _, _, _, h2⟩ := storeFlush_ok h (hol hw.1) hl
    refine ⟨s', ?_, h1, h2⟩
    simp only [e, Res.bind_ok, Bool.not_true, Bool.false_eq_true, if_false, e1, e2, Res.pure_eq]
  · rw [if_neg hw]
    refine ⟨s, ?_, h, SameMeta.refl _⟩
    simp only [Res.pure_eq, Res.bind_ok, Bool.not_true, Bool.false_eq_true, if_false, e1, e2]

theorem vappend_fits {max : Nat} {vf : List Bytes} (hne : vf ≠ []) {d : Bytes} (h : lastLen vf + d.length ≤ max) :
    (vappend max vf d).length = vf.length ∧ lastLen (vappend max vf d) = lastLen vf + d.length := by
  obtain ⟨i, l, rfl⟩ := snoc_cases hne
  rw [lastLen_snoc] at h ⊢
  rw [vappend_snoc, if_neg (by omega)]
  simp

/-- The outcome of writing a tree. -/
structure Wrote (E : Env) (s s' : Store) (vf vf' : List Bytes) (n' : Node) (t : PTree) : Prop where
  slab : Slabbed E s' vf'
  ext : FExt vf vf'
  used : used E.cfg.maxFile vf' ≤ used E.cfg.maxFile vf + 2 * t.bytes
  same : SameMeta s s'
  total : totalBytes vf ≤ totalBytes vf'
  le : FilesLe E.cfg.maxFile vf → FilesLe E.cfg.maxFile vf'
  fits : lastLen vf + t.bytes ≤ E.cfg.maxFile → vf'.length = vf.length ∧ lastLen vf' ≤ lastLen vf + t.bytes
  root : (t = .null ∧ n' = .null) ∨ ∃ p, n' = .hash (t.hash E.H) p ∧ OnDisk E.H (vrd vf') p t

theorem nodeHash_internal {H : HashFn} {rd : Rd} {h : Option B32} {p : Ptr} {b : Bits} {pre : List Bool} {l r : Node}
    {tl tr : PTree} (hb : IsBits b pre) (hl : Repr H rd l tl) (hr : Repr H rd r tr)
    (hh : ∀ h', h = some h' → h' = (PTree.node pre tl tr).hash H) (hp : NPtr p) :
    ∃ n2, nodeHash H (.internal h (some p) b l r) = .ok ((PTree.node pre tl tr).hash H, n2) ∧
      toHash n2 = .ok (.hash ((PTree.node pre tl tr).hash H) p) := by
  cases h with
  | some h' =>
    refine ⟨_, by rw [nodeHash, hh h' rfl], ?_⟩
    simp only [toHash, markPtr_id hp]
  | none =>
    obtain ⟨l', e1, _⟩ := nodeHash_ok hl
    obtain ⟨r', e2, _⟩ := nodeHash_ok hr
    refine ⟨.internal (some ((PTree.node pre tl tr).hash H)) (some p) b l' r', ?_, ?_⟩
    · rw [nodeHash, e1, Res.bind_ok, e2]
      simp only [Res.bind_ok, Res.pure_eq]
      rw [hashInternal_eq hb]
    · simp only [toHash, markPtr_id hp]

theorem treeWrite_ok {E : Env} (hc : CfgOk E.cfg) {n : Node} {t : PTree} {q : List Bool} {s : Store} {vf : List Bytes}
    (h : Slabbed E s vf) (hr : Repr E.H (vrd vf) n t) (hw : t = .null ∨ WF q t) (hv : t.ValsLe 255)
    (hcap : used E.cfg.maxFile vf + 2 * t.bytes < E.cfg.maxFile * E.cfg.maxFiles) :
    ∃ s' n' vf', treeWrite E n s = .ok (s', some n') ∧ Wrote E s s' vf vf' n' t := by
  induction n generalizing t q s vf with
  | null =>
    have : t = .null := hr
    subst this
    exact ⟨s, .null, vf, rfl, h, FExt.refl _, by simp [PTree.bytes], SameMeta.refl _, Nat.le_refl _, id, fun _ => ⟨rfl, by omega⟩, Or.inl ⟨rfl, rfl⟩⟩
  | hash h' p =>
    obtain ⟨h1, rfl⟩ := hr
    exact ⟨s, _, vf, rfl, h, FExt.refl _, by omega, SameMeta.refl _, Nat.le_refl _, id, fun _ => ⟨rfl, by omega⟩, Or.inr ⟨p, rfl, h1⟩⟩
  | leaf h' p k v vp =>
    obtain ⟨x, rfl, hx, rfl, hcase⟩ := hr
    have hvx : x.length ≤ 255 := hv
    simp only [PTree.bytes] at hcap
    rcases hcase with ⟨rfl, rfl, rfl⟩ | ⟨p', vp', rfl, rfl, rfl, hd, _, _⟩
    · -- a new leaf: value, then node
      obtain ⟨sl1, e1, s1, ol1, vp, ev, okv, iv, zv, rv⟩ := slabWrite_rec hc h (d := x) hvx (by omega)
      have u1 := used_vappend E.cfg.maxFile h.ne x
      obtain ⟨sl2, e2, s2, ol2, p, ep, okp, ip, zp, rp⟩ :=
        slabWrite_rec hc s1 (d := leafRec vp k) (by rw [length_leafRec]; omega) (by rw [length_leafRec]; omega)
      rw [length_leafRec] at ep zp
      have u2 := used_vappend E.cfg.maxFile s1.ne (leafRec vp k)
      rw [length_leafRec] at u2
      have hnp : NPtr p := ⟨okp, ip, by omega, by omega⟩
      have hdisk : OnDisk E.H (vrd (vappend E.cfg.maxFile (vappend E.cfg.maxFile vf x) (leafRec vp k))) p (.leaf k x) :=
        ⟨hnp, hx, leafRec vp k, vp, rp, ⟨nodeRead_leafRec okv k, (leafBytes_eq okv k).symm⟩, by omega,
          vrd_mono (fext_vappend _ s1.ne _) _ _ rv⟩
      have hfin := flushAndHash_ok s2 true (fun _ => ol2) (length_of_used (max := E.cfg.maxFile) (by omega))
        (n := .leaf (some ((PTree.leaf k x).hash E.H)) (some p) k (some x) (some vp))
        (n2 := .leaf (some ((PTree.leaf k x).hash E.H)) (some p) k (some x) (some vp))
        (o := .hash ((PTree.leaf k x).hash E.H) p) (x := (PTree.leaf k x).hash E.H)
        (by rw [nodeHash]) (by simp only [toHash, markPtr_id hnp])
      obtain ⟨s', ef, hs', hm⟩ := hfin
      refine ⟨s', _, _, ?_, hs', (fext_vappend _ h.ne x).trans (fext_vappend _ s1.ne _), ?_, ?_, ?_, ?_, ?_, Or.inr ⟨p, rfl, hdisk⟩⟩
      · have er : nodeWrite (.leaf (some ((PTree.leaf k x).hash E.H)) none k (some x) (some vp)) = .ok (leafRec vp k) := rfl
        have ev' : savePtr sl1.fileIndex (sl1.filePos - x.length) x.length = vp := ev
        simp only [treeWrite, storeWriteValue, e1, Res.bind_ok, Res.pure_eq, ev', storeWriteNode, er, e2]
        simp only [length_leafRec, ep]
        exact ef
      · simp only [PTree.bytes]; omega
      · exact ⟨hm.1, hm.2.1, hm.2.2.1, hm.2.2.2⟩
      · rw [totalBytes_vappend _ s1.ne, totalBytes_vappend _ h.ne]; omega
      · have := hc.min
        exact fun hl => filesLe_vappend s1.ne (filesLe_vappend h.ne hl (by omega)) (by rw [length_leafRec]; omega)
      · intro hf
        simp only [PTree.bytes] at hf ⊢
        obtain ⟨a1, a2⟩ := vappend_fits (max := E.cfg.maxFile) h.ne (d := x) (by omega)
        obtain ⟨b1, b2⟩ := vappend_fits (max := E.cfg.maxFile) s1.ne (d := leafRec vp k) (by rw [length_leafRec]; omega)
        rw [length_leafRec] at b2
        exact ⟨by omega, by omega⟩
    · obtain ⟨s', ef, hs', hm⟩ := flushAndHash_ok h false (fun e => (nomatch e))
        (length_of_used (max := E.cfg.maxFile) (by omega))
        (n := .leaf (some ((PTree.leaf k x).hash E.H)) (some p') k none (some vp'))
        (n2 := .leaf (some ((PTree.leaf k x).hash E.H)) (some p') k none (some vp'))
        (o := .hash ((PTree.leaf k x).hash E.H) p') (x := (PTree.leaf k x).hash E.H)
        (by rw [nodeHash]) (by simp only [toHash, markPtr_id hd.nptr])
      exact ⟨s', _, vf, ef, hs', FExt.refl _, by omega, hm, Nat.le_refl _, id, fun _ => ⟨rfl, by omega⟩, Or.inr ⟨p', rfl, hd⟩⟩
  | internal h' p b l r ihl ihr =>
    obtain ⟨pre, tl, tr, rfl, hb, hl, hr, hh, hp⟩ := hr
    have hw : WF q (.node pre tl tr) := hw.resolve_left (by simp)
    simp only [PTree.bytes] at hcap
    obtain ⟨s1, l', vf1, e1, w1⟩ := ihl h hl (Or.inr hw.1) hv.1 (by omega)
    have u1 := w1.used
    obtain ⟨s2, r', vf2, e2, w2⟩ := ihr w1.slab (hr.mono (vrd_mono w1.ext)) (Or.inr hw.2) hv.2 (by omega)
    have u2 := w2.used
    have nel : tl ≠ .null := by rintro rfl; exact hw.1
    have ner : tr ≠ .null := by rintro rfl; exact hw.2
    obtain ⟨pl, rfl, dl⟩ := w1.root.resolve_left (fun h => nel h.1)
    obtain ⟨pr, rfl, dr⟩ := w2.root.resolve_left (fun h => ner h.1)
    replace dl := dl.mono (vrd_mono w2.ext)
    have ext2 := w1.ext.trans w2.ext
    have same2 := w1.same.trans w2.same
    have t1 := w1.total; have t2 := w2.total
    rw [treeWrite, e1]
    simp only [Res.bind_ok, e2]
    cases p with
    | some p =>
      obtain ⟨_, hd⟩ := hp p rfl
      have hd := hd.mono (vrd_mono ext2)
      obtain ⟨n2, en, et⟩ := nodeHash_internal (rd := vrd vf2) (l := .hash (tl.hash E.H) pl) (r := .hash (tr.hash E.H) pr)
        hb ⟨dl, rfl⟩ ⟨dr, rfl⟩ hh hd.nptr
      obtain ⟨s', ef, hs', hm⟩ := flushAndHash_ok w2.slab false (fun e => (nomatch e))
        (length_of_used (max := E.cfg.maxFile) (by omega)) en et
      refine ⟨s', _, vf2, ef, hs', ext2, by simp only [PTree.bytes]; omega, same2.trans hm, by omega,
        fun hl => w2.le (w1.le hl), fun hf => ?_, Or.inr ⟨p, rfl, hd⟩⟩
      simp only [PTree.bytes] at hf ⊢
      obtain ⟨a1, a2⟩ := w1.fits (by omega)
      obtain ⟨b1, b2⟩ := w2.fits (by omega)
      exact ⟨by omega, by omega⟩
    | none =>
      obtain ⟨d, ed, hd1, hd2, _, hrd⟩ := nodeWrite_internal hb (l := .hash (tl.hash E.H) pl)
        (r := .hash (tr.hash E.H) pr) h' none rfl rfl dl.nptr.ok dr.nptr.ok
      have edb : d = branchBytes pre pl pr (tl.hash E.H) (tr.hash E.H) := by
        have := nodeWrite_bytes hb (l := .hash (tl.hash E.H) pl) (r := .hash (tr.hash E.H) pr) h' none rfl rfl dl.nptr.ok dr.nptr.ok
        rw [ed] at this
        exact Res.ok.inj this
      obtain ⟨sl3, e3, s3, ol3, p, ep, okp, ip, zp, rp⟩ := slabWrite_rec hc w2.slab (d := d) (by omega) (by omega)
      have u3 := used_vappend E.cfg.maxFile w2.slab.ne d
      have hnp : NPtr p := ⟨okp, ip, by omega, by omega⟩
      have ext3 := fext_vappend E.cfg.maxFile w2.slab.ne d
      have hdisk : OnDisk E.H (vrd (vappend E.cfg.maxFile vf2 d)) p (.node pre tl tr) :=
        ⟨hnp, d, b, pl, pr, rp, hb, ⟨hrd, edb⟩, dl.mono (vrd_mono ext3), dr.mono (vrd_mono ext3)⟩
      obtain ⟨n2, en, et⟩ := nodeHash_internal (rd := vrd vf2) (l := .hash (tl.hash E.H) pl) (r := .hash (tr.hash E.H) pr)
        hb ⟨dl, rfl⟩ ⟨dr, rfl⟩ hh hnp
      obtain ⟨s', ef, hs', hm⟩ := flushAndHash_ok s3 true (fun _ => ol3)
        (length_of_used (max := E.cfg.maxFile) (by omega)) en et
      refine ⟨s', _, _, ?_, hs', ext2.trans ext3, by simp only [PTree.bytes]; omega, ?_, ?_, ?_, ?_, Or.inr ⟨p, rfl, hdisk⟩⟩
      · simp only [storeWriteNode, ed, e3, Res.bind_ok, Res.pure_eq, ep]
        exact ef
      · refine same2.trans ?_
        exact ⟨hm.1, hm.2.1, hm.2.2.1, hm.2.2.2⟩
      · rw [totalBytes_vappend _ w2.slab.ne]; omega
      · have := hc.min
        exact fun hl => filesLe_vappend w2.slab.ne (w2.le (w1.le hl)) (by omega)
      · intro hf
        simp only [PTree.bytes] at hf ⊢
        obtain ⟨a1, a2⟩ := w1.fits (by omega)
        obtain ⟨b1, b2⟩ := w2.fits (by omega)
        obtain ⟨c1, c2⟩ := vappend_fits (max := E.cfg.maxFile) w2.slab.ne (d := d) (by omega)
        exact ⟨by omega, by omega⟩

end Urkel
