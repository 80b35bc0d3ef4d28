import Verif.Lemmas.Misalign
import Verif.Lemmas.KeepState
import Verif.Lemmas.HistLen
/-
What a commit appends, in the terms of Spec/Format.
-/
namespace Urkel
open PTree

theorem bytesAt_vrd {files : List Bytes} {p : Ptr} {d : Bytes} (h : bytesAt files p d) : vrd files p = some d := by
  unfold bytesAt at h
  unfold vrd
  obtain ⟨h1, h2, f, hf, h⟩ := h
  rw [if_neg (by omega), hf]
  dsimp only
  by_cases hz : p.size = 0
  · rw [if_pos hz, List.length_eq_zero_iff.1 (show d.length = 0 by omega)]
  · rw [if_neg hz]
    rcases h with ⟨rfl, _⟩ | ⟨a, b, rfl, ha⟩
    · exact absurd h2 hz
    · rw [if_neg (by simp only [List.length_append]; omega), ← ha, h2, List.append_assoc, List.drop_left, List.take_left]

theorem vrd_bytesAt {files : List Bytes} {p : Ptr} {d : Bytes} (hp : p.pos < 2 ^ 31) (h : vrd files p = some d) : bytesAt files p d := by
  unfold vrd at h
  split at h
  · cases h
  · next h0 =>
    cases hf : files[p.index - 1]? with
    | none => rw [hf] at h; cases h
    | some f =>
      rw [hf] at h
      dsimp only at h
      split at h
      · next hz => cases h; exact ⟨by omega, hz, f, hf, .inl ⟨rfl, hp⟩⟩
      · next hz =>
        split at h
        · cases h
        · next hl =>
          cases h
          refine ⟨by omega, by simp; omega, f, hf, .inr ⟨f.take p.pos, f.drop (p.pos + p.size), ?_, by simp; omega⟩⟩
          rw [← List.drop_drop, List.append_assoc, List.take_append_drop, List.take_append_drop]

theorem nodeRead_leafPtr {d : Bytes} {h : Option B32} {p : Option Ptr} {k : B32} {v : Option Bytes} {vp : Ptr}
    (e : nodeRead d = .ok (some (.leaf h p k v (some vp)))) : PtrOk vp := by
  have hc : ∀ (b : Bits) (d : Bytes), nodeReadChildren b d = .ok (some (.leaf h p k v (some vp))) → PtrOk vp := by
    intro b d e
    unfold nodeReadChildren at e
    split at e
    · cases e
    · obtain ⟨⟨p1, d⟩, _, e⟩ := Res.bind_eq_ok.1 e
      obtain ⟨⟨p1, d⟩, _, e⟩ := Res.bind_eq_ok.1 e
      obtain ⟨⟨p1, d⟩, _, e⟩ := Res.bind_eq_ok.1 e
      obtain ⟨⟨p1, d⟩, _, e⟩ := Res.bind_eq_ok.1 e
      cases e
  unfold nodeRead at e
  split at e
  · cases e
  · obtain ⟨⟨t, d⟩, _, e⟩ := Res.bind_eq_ok.1 e
    dsimp only at e
    split at e
    · split at e
      · split at e
        · cases e
        · split at e
          · obtain ⟨⟨sz, d⟩, _, e⟩ := Res.bind_eq_ok.1 e
            dsimp only at e
            split at e
            · cases e
            · split at e
              · cases e
              · obtain ⟨b, _, e⟩ := Res.bind_eq_ok.1 e
                obtain ⟨⟨x, d⟩, _, e⟩ := Res.bind_eq_ok.1 e
                exact hc _ _ e
          · obtain ⟨⟨sz, d⟩, _, e⟩ := Res.bind_eq_ok.1 e
            dsimp only at e
            split at e
            · cases e
            · split at e
              · cases e
              · obtain ⟨b, _, e⟩ := Res.bind_eq_ok.1 e
                obtain ⟨⟨x, d⟩, _, e⟩ := Res.bind_eq_ok.1 e
                exact hc _ _ e
      · obtain ⟨b, _, e⟩ := Res.bind_eq_ok.1 e
        exact hc _ _ e
    · split at e
      · split at e
        · cases e
        · next hl =>
          obtain ⟨p1, e1, ok1⟩ := ptrRead_ok (d := d) (by omega)
          rw [e1, Res.bind_ok] at e
          dsimp only at e
          obtain ⟨⟨k1, d1⟩, _, e⟩ := Res.bind_eq_ok.1 e
          cases e
          exact ok1
      · cases e

theorem OnDisk.saved {H : HashFn} {files : List Bytes} {p : Ptr} {t : PTree} (h : OnDisk H (vrd files) p t) : Saved H files t p := by
  induction t generalizing p with
  | null => exact h.elim
  | leaf k v =>
    obtain ⟨hp, _, d, vp, h1, ⟨hn, rfl⟩, _, h2⟩ := h
    exact ⟨vp, vrd_bytesAt hp.ok.pos h1, vrd_bytesAt (nodeRead_leafPtr hn).pos h2⟩
  | node pre l r ihl ihr =>
    obtain ⟨hp, d, b, pl, pr, h1, _, ⟨_, rfl⟩, hl, hr⟩ := h
    exact ⟨pl, pr, vrd_bytesAt hp.ok.pos h1, ihl hl, ihr hr⟩

theorem RootAt.saved {H : HashFn} {files : List Bytes} {p : Ptr} {t : PTree} (h : RootAt H (vrd files) p t) : Saved H files t p := by
  rcases h with ⟨rfl, rfl⟩ | h
  · rfl
  · exact h.saved

theorem HistAt.saved {E : Env} {key : B32} {files : List Bytes} {p : Ptr} {hist : List PTree} (h : HistAt E key (vrd files) p hist)
    (hp : PtrOk p) : CommitChain E key files hist p := by
  induction hist generalizing p with
  | nil => exact h
  | cons t ts ih =>
    obtain ⟨⟨_, hz⟩, m, h1, o1, o2, h2, h3⟩ := h
    exact ⟨hz, m.metaPtr, m.rootPtr, by rw [commitBytes_eq key o1 o2]; exact vrd_bytesAt (show p.pos < 2 ^ 31 from hp.pos) h1, h2.saved, ih h3 o1⟩

theorem put_eq (max : Nat) {vf : List Bytes} (hne : vf ≠ []) (d : Bytes) :
    put max vf d = (vappend max vf d, ⟨(vappend max vf d).length, lastLen (vappend max vf d) - d.length, d.length⟩) := by
  obtain ⟨i, l, rfl⟩ := snoc_cases hne
  unfold put
  rw [vappend_snoc]
  simp only [List.getLastD_concat, List.dropLast_concat]
  split
  · rw [if_neg (by omega)]
    simp
  · rw [if_pos (by omega), lastLen_snoc]
    simp

theorem fill_eq (max : Nat) {vf : List Bytes} (hne : vf ≠ []) : fill max vf = padFiles max vf := by
  unfold fill padFiles
  have h : (vf.getLastD []).length = lastLen vf := by rw [List.getLastD_eq_getLast?]; rfl
  rw [h]
  by_cases c : lastLen vf % 38 = 0
  · rw [if_pos c, if_neg (by simpa [metaSize] using c)]
  · rw [if_neg c, if_pos (by simpa [metaSize] using c), put_eq max hne]
    rfl

/-- A record put into the buffer, and the reference to it. -/
theorem slabWrite_put {E : Env} (hc : CfgOk E.cfg) {s : Store} {vf : List Bytes} (h : Slabbed E s vf) {d : Bytes}
    (hd : d.length ≤ 255) (hcap : used E.cfg.maxFile vf + 2 * d.length < E.cfg.maxFile * E.cfg.maxFiles) :
    ∃ slab, slabWrite E s.slab d = .ok slab ∧
      Slabbed E { s with slab := slab } (put E.cfg.maxFile vf d).1 ∧ slab.offsetsLen ≠ 0 ∧
      markPtr slab.fileIndex (slab.filePos - d.length) d.length = (put E.cfg.maxFile vf d).2 ∧ PtrOk (put E.cfg.maxFile vf d).2 ∧ 1 ≤ (put E.cfg.maxFile vf d).2.index ∧
        (put E.cfg.maxFile vf d).2.size = d.length ∧ vrd (put E.cfg.maxFile vf d).1 (put E.cfg.maxFile vf d).2 = some d := by
  have hm := hc.min
  obtain ⟨slab, e, hs, ho⟩ := slabWrite_ok h (d := d) (by omega)
  have hu := used_vappend E.cfg.maxFile h.ne d
  have hl := length_of_used (vf := vappend E.cfg.maxFile vf d) (max := E.cfg.maxFile) (maxFiles := E.cfg.maxFiles)
    (by omega)
  obtain ⟨a, b, c⟩ := markPtr_ok hc hs hl (n := d.length) hd
  rw [put_eq _ h.ne]
  exact ⟨slab, e, hs, ho, a, b, c, rfl, vrd_vappend E.cfg.maxFile h.ne d _ rfl⟩

/-- The root that is written into the commit record. -/
def RootPtr (H : HashFn) (n : Node) (t : PTree) (p : Ptr) : Prop := (t = .null ∧ n = .null ∧ p = nowhere) ∨ (n = .hash (t.hash H) p ∧ t ≠ .null)

/-- The outcome of writing a tree, as a draft. -/
structure Drawn (E : Env) (s s' : Store) (vf0 vf vf' : List Bytes) (n' : Node) (t : PTree) (d : Draft) (p : Ptr) : Prop where
  slab : Slabbed E s' vf'
  ext : FExt vf vf'
  used : used E.cfg.maxFile vf' ≤ used E.cfg.maxFile vf + 2 * t.bytes
  same : SameMeta s s'
  root : RootPtr E.H n' t p
  disk : t ≠ .null → OnDisk E.H (vrd vf') p t
  tree : d.tree = t
  rests : d.Rests E.H vf0
  save : d.save E.H E.cfg.maxFile vf = (vf', p)

theorem treeWrite_draft {E : Env} (hc : CfgOk E.cfg) {vf0 : List Bytes} {n : Node} {t : PTree} {q : List Bool} {s : Store} {vf : List Bytes}
    (h : Slabbed E s vf) (hx : FExt vf0 vf) (hr : Repr E.H (vrd vf0) n t) (hk : Coh (vrd vf0) n) (hw : t = .null ∨ WF q t) (hv : t.ValsLe 255)
    (hcap : used E.cfg.maxFile vf + 2 * t.bytes < E.cfg.maxFile * E.cfg.maxFiles) :
    ∃ s' n' vf' d p, treeWrite E n s = .ok (s', some n') ∧ Drawn E s s' vf0 vf vf' n' t d p := by
  induction n generalizing t q s vf with
  | null =>
    have : t = .null := hr
    subst this
    exact ⟨s, .null, vf, .old .null nowhere, nowhere, rfl, h, FExt.refl _, by simp [PTree.bytes], SameMeta.refl _, .inl ⟨rfl, rfl, rfl⟩, (fun c => (c rfl).elim), rfl, rfl, rfl⟩
  | hash h' p =>
    obtain ⟨h1, rfl⟩ := hr
    have hn : t ≠ .null := by rintro rfl; exact h1.elim
    exact ⟨s, _, vf, .old t p, p, rfl, h, FExt.refl _, by omega, SameMeta.refl _, .inr ⟨rfl, hn⟩, fun _ => h1.mono (vrd_mono hx), rfl, h1.saved, rfl⟩
  | leaf h' p k v vp =>
    obtain ⟨x, rfl, hxl, rfl, hcase⟩ := hr
    have hvx : x.length ≤ 255 := hv
    simp only [PTree.bytes] at hcap
    rcases hcase with ⟨rfl, rfl, rfl⟩ | ⟨p', vp', rfl, rfl, rfl, hd, _, _⟩
    · obtain ⟨sl1, e1, s1, ol1, ev, okv, iv, zv, rv⟩ := slabWrite_put hc h (d := x) hvx (by omega)
      have u1 := used_vappend E.cfg.maxFile h.ne x
      have ve : (put E.cfg.maxFile vf x).1 = vappend E.cfg.maxFile vf x := by rw [put_eq _ h.ne]
      rw [← ve] at u1
      generalize hvp : (put E.cfg.maxFile vf x).2 = vp at *
      generalize hvf1 : (put E.cfg.maxFile vf x).1 = vf1 at *
      have lb := leafBytes_eq okv k
      obtain ⟨sl2, e2, s2, ol2, ep, okp, ip, zp, rp⟩ :=
        slabWrite_put hc s1 (d := leafRec vp k) (by rw [length_leafRec]; omega) (by rw [length_leafRec]; omega)
      have u2 := used_vappend E.cfg.maxFile s1.ne (leafRec vp k)
      have x2 := fext_vappend E.cfg.maxFile s1.ne (leafRec vp k)
      have vz : (put E.cfg.maxFile vf1 (leafRec vp k)).1 = vappend E.cfg.maxFile vf1 (leafRec vp k) := by rw [put_eq _ s1.ne]
      have x1 : FExt vf vf1 := by rw [ve]; exact fext_vappend E.cfg.maxFile h.ne x
      rw [length_leafRec] at u2 ep zp
      rw [← vz] at u2 x2
      generalize hp : (put E.cfg.maxFile vf1 (leafRec vp k)).2 = p at *
      generalize hvf2 : (put E.cfg.maxFile vf1 (leafRec vp k)).1 = vf2 at *
      have hnp : NPtr p := ⟨okp, ip, by omega, by omega⟩
      have hdisk : OnDisk E.H (vrd vf2) p (.leaf k x) :=
        ⟨hnp, hxl, leafRec vp k, vp, rp, ⟨nodeRead_leafRec okv k, lb.symm⟩, by omega, vrd_mono x2 _ _ rv⟩
      have hfin := flushAndHash_ok s2 true (fun _ => ol2) (length_of_used (max := E.cfg.maxFile) (by omega))
        (n := .leaf (some ((PTree.leaf k x).hash E.H)) (some p) k (some x) (some vp))
        (n2 := .leaf (some ((PTree.leaf k x).hash E.H)) (some p) k (some x) (some vp))
        (o := .hash ((PTree.leaf k x).hash E.H) p) (x := (PTree.leaf k x).hash E.H)
        (by rw [nodeHash]) (by simp only [toHash, markPtr_id hnp])
      obtain ⟨s', ef, hs', hm⟩ := hfin
      refine ⟨s', _, vf2, .leaf k x, p, ?_, hs', x1.trans x2, ?_, ?_, .inr ⟨rfl, by simp⟩, fun _ => hdisk, rfl, trivial, ?_⟩
      · have er : nodeWrite (.leaf (some ((PTree.leaf k x).hash E.H)) none k (some x) (some vp)) = .ok (leafRec vp k) := rfl
        have ev' : savePtr sl1.fileIndex (sl1.filePos - x.length) x.length = vp := ev
        simp only [treeWrite, storeWriteValue, e1, Res.bind_ok, Res.pure_eq, ev', storeWriteNode, er, e2]
        simp only [length_leafRec, ep]
        exact ef
      · simp only [PTree.bytes]; omega
      · exact ⟨hm.1, hm.2.1, hm.2.2.1, hm.2.2.2⟩
      · simp only [Draft.save]
        rw [hvp, hvf1, lb, ← hp, ← hvf2]
    · obtain ⟨s', ef, hs', hm⟩ := flushAndHash_ok h false (fun e => (nomatch e))
        (length_of_used (max := E.cfg.maxFile) (by omega))
        (n := .leaf (some ((PTree.leaf k x).hash E.H)) (some p') k none (some vp'))
        (n2 := .leaf (some ((PTree.leaf k x).hash E.H)) (some p') k none (some vp'))
        (o := .hash ((PTree.leaf k x).hash E.H) p') (x := (PTree.leaf k x).hash E.H)
        (by rw [nodeHash]) (by simp only [toHash, markPtr_id hd.nptr])
      exact ⟨s', _, vf, .old (.leaf k x) p', p', ef, hs', FExt.refl _, by omega, hm, .inr ⟨rfl, by simp⟩, fun _ => hd.mono (vrd_mono hx), rfl, hd.saved, rfl⟩
  | internal h' p b l r ihl ihr =>
    obtain ⟨pre, tl, tr, rfl, hb, hl, hr, hh, hp⟩ := hr
    have hw : WF q (.node pre tl tr) := hw.resolve_left (by simp)
    simp only [PTree.bytes] at hcap
    obtain ⟨hkl, hkr, hkp⟩ := hk
    have nel : tl ≠ .null := by rintro rfl; exact hw.1
    have ner : tr ≠ .null := by rintro rfl; exact hw.2
    cases p with
    | some p =>
      obtain ⟨_, hd⟩ := hp p rfl
      have hsv := hd.saved
      have hd0 := hd
      obtain ⟨_, _, d1, hd1, hn1⟩ := hkp p rfl
      obtain ⟨_, d, b', pl, pr, hd2, _, ⟨hn2, _⟩, dl, dr⟩ := hd
      rw [hd1] at hd2
      cases hd2
      rw [hn1] at hn2
      injection hn2 with hn2
      injection hn2 with hn2
      injection hn2 with _ _ eb el er
      subst eb el er
      have hd := hd0.mono (vrd_mono hx)
      obtain ⟨n2, en, et⟩ := nodeHash_internal (rd := vrd vf) (l := .hash (tl.hash E.H) pl) (r := .hash (tr.hash E.H) pr)
        hb ⟨dl.mono (vrd_mono hx), rfl⟩ ⟨dr.mono (vrd_mono hx), rfl⟩ hh hd.nptr
      obtain ⟨s', ef, hs', hm⟩ := flushAndHash_ok h false (fun e => (nomatch e))
        (length_of_used (max := E.cfg.maxFile) (by omega)) en et
      refine ⟨s', _, vf, .old (.node pre tl tr) p, p, ?_, hs', FExt.refl _, by omega, hm, .inr ⟨rfl, by simp⟩, fun _ => hd, rfl, hsv, rfl⟩
      simp only [treeWrite, Res.bind_ok]
      exact ef
    | none =>
      obtain ⟨s1, l', vf1, a, pl, e1, w1⟩ := ihl h hx hl hkl (Or.inr hw.1) hv.1 (by omega)
      have u1 := w1.used
      obtain ⟨s2, r', vf2, c, pr, e2, w2⟩ := ihr w1.slab (hx.trans w1.ext) hr hkr (Or.inr hw.2) hv.2 (by omega)
      have u2 := w2.used
      obtain ⟨rfl, _⟩ := w1.root.resolve_left (fun h => nel h.1)
      obtain ⟨rfl, _⟩ := w2.root.resolve_left (fun h => ner h.1)
      have dl := (w1.disk nel).mono (vrd_mono w2.ext)
      have dr := w2.disk ner
      have ext2 := w1.ext.trans w2.ext
      have same2 := w1.same.trans w2.same
      rw [treeWrite, e1]
      simp only [Res.bind_ok, e2]
      obtain ⟨d, ed, hd1, hd2, _, hrd⟩ := nodeWrite_internal hb (l := .hash (tl.hash E.H) pl)
        (r := .hash (tr.hash E.H) pr) h' none rfl rfl dl.nptr.ok dr.nptr.ok
      have edb : d = branchBytes pre pl pr (tl.hash E.H) (tr.hash E.H) := by
        have := nodeWrite_bytes hb (l := .hash (tl.hash E.H) pl) (r := .hash (tr.hash E.H) pr) h' none rfl rfl dl.nptr.ok dr.nptr.ok
        rw [ed] at this
        exact Res.ok.inj this
      obtain ⟨sl3, e3, s3, ol3, ep, okp, ip, zp, rp⟩ := slabWrite_put hc w2.slab (d := d) (by omega) (by omega)
      have u3 := used_vappend E.cfg.maxFile w2.slab.ne d
      have ext3 := fext_vappend E.cfg.maxFile w2.slab.ne d
      have vz : (put E.cfg.maxFile vf2 d).1 = vappend E.cfg.maxFile vf2 d := by rw [put_eq _ w2.slab.ne]
      rw [← vz] at u3 ext3
      have hsv : (Draft.node pre a c).save E.H E.cfg.maxFile vf = put E.cfg.maxFile vf2 d := by
        rw [edb]
        simp only [Draft.save, w1.save, w2.save, w1.tree, w2.tree]
      generalize hpp : (put E.cfg.maxFile vf2 d).2 = p at *
      generalize hvf3 : (put E.cfg.maxFile vf2 d).1 = vf3 at *
      have hnp : NPtr p := ⟨okp, ip, by omega, by omega⟩
      have hdisk : OnDisk E.H (vrd vf3) p (.node pre tl tr) :=
        ⟨hnp, d, b, pl, pr, rp, hb, ⟨hrd, edb⟩, dl.mono (vrd_mono ext3), dr.mono (vrd_mono ext3)⟩
      obtain ⟨n2, en, et⟩ := nodeHash_internal (rd := vrd vf2) (l := .hash (tl.hash E.H) pl) (r := .hash (tr.hash E.H) pr)
        hb ⟨dl, rfl⟩ ⟨dr, rfl⟩ hh hnp
      obtain ⟨s', ef, hs', hm⟩ := flushAndHash_ok s3 true (fun _ => ol3)
        (length_of_used (max := E.cfg.maxFile) (by omega)) en et
      refine ⟨s', _, vf3, .node pre a c, p, ?_, hs', ext2.trans ext3, by simp only [PTree.bytes]; omega, ?_, .inr ⟨rfl, by simp⟩, fun _ => hdisk,
        by simp only [Draft.tree, w1.tree, w2.tree], ⟨w1.rests, w2.rests⟩, by rw [hsv, ← hpp, ← hvf3]⟩
      · simp only [storeWriteNode, ed, e3, Res.bind_ok, Res.pure_eq, ep]
        exact ef
      · refine same2.trans ?_
        exact ⟨hm.1, hm.2.1, hm.2.2.1, hm.2.2.2⟩

theorem SInv.newest {E : Env} {s : Store} {hist : List PTree} (h : SInv E s hist) : newestAt s.files = s.state.metaPtr := by
  unfold Urkel.newestAt
  have hsz := h.chain.size
  have hl : (s.files.getLastD []).length = lastLen s.files := by rw [List.getLastD_eq_getLast?]; rfl
  rcases h.tail with ⟨rfl, h2⟩ | ⟨h1, h2⟩
  · rw [if_pos h2]
    exact (show s.state.metaPtr = nowhere from h.chain).symm
  · have hne : s.files ≠ [[]] := by
      intro c
      rw [c] at h2
      simp [lastLen, metaSize] at h2
    rw [if_neg hne, hl, ← h1]
    have : metaSize = 38 := rfl
    cases hm : s.state.metaPtr
    rw [hm] at h2 hsz
    simp only at h2 hsz
    simp only [Ptr.mk.injEq, true_and]
    omega

/-- What a commit leaves in the files. -/
theorem txCommit_draft {E : Env} (hE : EnvOk E) {db db' : Db} {hist : List PTree} (hd : DInv E db hist) {tx tx' : Tx} {t : PTree}
    (ht : TxIs E db tx t) (hs : SaneTx db.store.rd tx) (hv : t.ValsLe 255)
    (hcap : used E.cfg.maxFile db.store.files + 2 * (t.bytes + 76) < E.cfg.maxFile * E.cfg.maxFiles)
    (e : txCommit E db tx = .ok (db', tx', .ok ())) :
    ∃ d : Draft, d.tree = t ∧ d.Rests E.H db.store.files ∧ d.commit E db.store.key db.store.files = (db'.store.files, newestAt db'.store.files) := by
  have hok := txCommit_ok hE hd ht hv hcap
  obtain ⟨n, hn, hr, htop, hvs⟩ := ht
  obtain ⟨n', hn', _, hk, _⟩ := hs
  rw [hn] at hn'
  cases hn'
  rw [hd.inv.rd] at hk
  obtain ⟨s1, root, vf1, d, p, e1, w⟩ := treeWrite_draft hE.cfg (q := []) hd.inv.slab (FExt.refl _) hr hk htop hv (by omega)
  have u1 := w.used
  obtain ⟨k1, k2, k3, k4⟩ := w.same
  refine ⟨d, w.tree, w.rests, ?_⟩
  obtain ⟨o⟩ := tx
  dsimp only at hn
  subst hn
  have hroot : rootPtrOf root = .ok p ∧ toHash root = .ok root ∧ PtrOk p := by
    rcases w.root with ⟨_, rfl, rfl⟩ | ⟨rfl, hne⟩
    · exact ⟨rfl, rfl, ⟨by decide, by decide, by decide⟩⟩
    · have hnp := (w.disk hne).nptr
      exact ⟨rfl, by simp only [toHash, markPtr_id hnp], hnp.ok⟩
  obtain ⟨db'', tx'', e'', hd', _, _⟩ := hok
  rw [e] at e''
  cases e''
  have hnew := hd'.inv.newest
  have hne' := hd'.inv.slab.ne
  simp only [txCommit, Tx.node, Res.bind_ok, e1] at e
  obtain ⟨⟨s2, ok⟩, e2, e⟩ := Res.bind_eq_ok.1 e
  have lay := storeCommit_layout hE w.slab hroot.1 hroot.2.1 (by omega) e2
  cases ok with
  | false => cases e
  | true =>
    cases e
    have hmp : PtrOk s1.state.metaPtr := by rw [k3]; exact hd.inv.mptr
    have hb := commitBytes_eq (E := E) s1.key (m := ⟨s1.state.metaPtr, p, root⟩) hmp hroot.2.2
    have hnw := hd.inv.newest
    dsimp only at hb hnew lay ⊢
    have hmw := length_metaWrite hE.mac s1.key ⟨s1.state.metaPtr, p, root⟩
    unfold Draft.commit
    simp only [w.save]
    rw [fill_eq _ w.slab.ne, hnw, ← k3, ← k1, hb, put_eq _ (padFiles_ne w.slab.ne), ← lay]
    have h2 : s2.files ≠ [[]] := by
      intro c
      have := lastLen_vappend_ge (max := E.cfg.maxFile) (padFiles_ne (max := E.cfg.maxFile) w.slab.ne) (metaWrite E s1.key ⟨s1.state.metaPtr, p, root⟩)
      rw [← lay, c, hmw] at this
      simp [lastLen, metaSize] at this
    have hl : (s2.files.getLastD []).length = lastLen s2.files := by rw [List.getLastD_eq_getLast?]; rfl
    unfold Urkel.newestAt
    rw [if_neg h2, hl, hmw]
    rfl

/-! ### Reading files of this format -/

theorem bytesAt.ptr {c : Cfg} (hc : CfgOk c) {files : List Bytes} (hn : files.length < c.maxFiles) (hl : FilesLe c.maxFile files) {p : Ptr} {d : Bytes}
    (h : bytesAt files p d) (hd : d.length ≤ 1023) : PtrOk p := by
  obtain ⟨h1, h2, f, hf, h⟩ := h
  have hi := (List.getElem?_eq_some_iff.1 hf).1
  have hfl := hl f (List.mem_of_getElem? hf)
  have c1 := hc.file; have c2 := hc.files
  refine ⟨by omega, ?_, by omega⟩
  rcases h with ⟨_, h⟩ | ⟨a, b, rfl, ha⟩
  · exact h
  · simp only [List.length_append] at hfl
    omega

theorem branchBytes_read {pre : List Bool} (h : pre.length ≤ 256) {pl pr : Ptr} (okl : PtrOk pl) (okr : PtrOk pr) (hl hr : B32) :
    ∃ b, IsBits b pre ∧ nodeRead (branchBytes pre pl pr hl hr) = .ok (some (.internal none none b (.hash hl pl) (.hash hr pr))) ∧
      (branchBytes pre pl pr hl hr).length ≤ 113 ∧ 1 ≤ (branchBytes pre pl pr hl hr).length := by
  have hb := isBits_pack h
  obtain ⟨d, ed, hd1, hd2, _, hrd⟩ := nodeWrite_internal hb (l := .hash hl pl) (r := .hash hr pr) none none rfl rfl okl okr
  have := nodeWrite_bytes hb (l := .hash hl pl) (r := .hash hr pr) none none rfl rfl okl okr
  rw [ed] at this
  cases this
  exact ⟨_, hb, hrd, hd1, hd2⟩

theorem WF.path_le {q : List Bool} {t : PTree} (h : WF q t) : q.length ≤ 256 := by
  induction t generalizing q with
  | null => exact h.elim
  | leaf k v => simpa using h.length_le
  | node pre l r ihl _ =>
    have := ihl h.1
    simp at this
    omega

theorem length_refBytes (p : Ptr) : (refBytes p).length = 7 := by
  unfold refBytes; simp only [List.length_append, num_eq]; simp

theorem length_leafBytes (k : B32) (p : Ptr) : (leafBytes k p).length = 40 := by
  unfold leafBytes; simp only [List.length_append, length_refBytes, k.len]; rfl

theorem length_branchBytes_le {pre : List Bool} (h : pre.length ≤ 256) (pl pr : Ptr) (hl hr : B32) : (branchBytes pre pl pr hl hr).length ≤ 113 := by
  have hp := length_pack pre
  unfold branchBytes
  simp only [List.length_append, length_refBytes, hl.len, hr.len, hp]
  split
  · next h0 => subst h0; simp
  · split
    · simp [num]; omega
    · simp [num]; omega

theorem Saved.disk {E : Env} (hc : CfgOk E.cfg) {files : List Bytes} (hn : files.length < E.cfg.maxFiles) (hl : FilesLe E.cfg.maxFile files)
    {t : PTree} {p : Ptr} {q : List Bool} (h : Saved E.H files t p) (hw : WF q t) (hv : t.ValsLe 1023) : OnDisk E.H (vrd files) p t := by
  induction t generalizing p q with
  | null => exact hw.elim
  | leaf k v =>
    obtain ⟨vp, h1, h2⟩ := h
    have ok := h1.ptr hc hn hl (by rw [length_leafBytes]; omega)
    have okv := h2.ptr hc hn hl hv
    have hz := h1.2.1
    rw [length_leafBytes] at hz
    refine ⟨⟨ok, h1.1, by omega, by omega⟩, hv, _, vp, bytesAt_vrd h1, ⟨?_, rfl⟩, ?_, bytesAt_vrd h2⟩
    · rw [leafBytes_eq okv]; exact nodeRead_leafRec okv k
    · have := h2.2.1
      have hv : v.length ≤ 1023 := hv
      omega
  | node pre l r ihl ihr =>
    obtain ⟨lp, rp, h1, h2, h3⟩ := h
    have hpre : pre.length ≤ 256 := by
      have := WF.path_le hw.1
      simp at this
      omega
    have dl := ihl h2 hw.1 hv.1
    have dr := ihr h3 hw.2 hv.2
    obtain ⟨b, hb, hrd, hle, hge⟩ := branchBytes_read hpre dl.nptr.ok dr.nptr.ok (l.hash E.H) (r.hash E.H)
    have ok := h1.ptr hc hn hl (by omega)
    have hz := h1.2.1
    exact ⟨⟨ok, h1.1, by omega, by omega⟩, _, b, lp, rp, bytesAt_vrd h1, hb, ⟨hrd, rfl⟩, dl, dr⟩

theorem Saved.root {E : Env} (hc : CfgOk E.cfg) {files : List Bytes} (hn : files.length < E.cfg.maxFiles) (hl : FilesLe E.cfg.maxFile files)
    {t : PTree} {p : Ptr} (h : Saved E.H files t p) (hw : t.Top) (hv : t.ValsLe 1023) : RootAt E.H (vrd files) p t ∧ PtrOk p := by
  rcases hw with rfl | hw
  · rw [show p = nowhere from h]
    exact ⟨.inl ⟨rfl, rfl⟩, by decide, by decide, by decide⟩
  · have := h.disk hc hn hl hw hv
    exact ⟨.inr this, this.nptr.ok⟩

theorem CommitChain.hist {E : Env} (hE : EnvOk E) {key : B32} {files : List Bytes} (hn : files.length < E.cfg.maxFiles) (hl : FilesLe E.cfg.maxFile files)
    {trees : List PTree} {p : Ptr} (h : CommitChain E key files trees p) (ht : ∀ t ∈ trees, t.Top ∧ t.ValsLe 1023) : HistAt E key (vrd files) p trees ∧ PtrOk p := by
  induction trees generalizing p with
  | nil =>
    refine ⟨h, ?_⟩
    rw [show p = nowhere from h]
    exact ⟨by decide, by decide, by decide⟩
  | cons t ts ih =>
    obtain ⟨hz, prev, root, h1, h2, h3⟩ := h
    obtain ⟨hh, okp⟩ := ih h3 fun t ht' => ht t (List.mem_cons_of_mem _ ht')
    obtain ⟨hr, okr⟩ := h2.root hE.cfg hn hl (ht t (by simp)).1 (ht t (by simp)).2
    have hb := commitBytes_eq (E := E) key (m := ⟨prev, root, .null⟩) okp okr
    dsimp only at hb
    rw [hb] at h1
    have ok := h1.ptr hE.cfg hn hl (by rw [length_metaWrite hE.mac]; decide)
    exact ⟨⟨⟨h1.1, hz⟩, ⟨prev, root, .null⟩, bytesAt_vrd h1, okp, okr, hr, hh⟩, ok.index, ok.pos, by omega⟩

theorem newest_cases {files : List Bytes} (h : files ≠ []) : (files = [[]] ∧ newestAt files = nowhere) ∨ newestAt files = ⟨files.length, lastLen files - 38, 0⟩ := by
  unfold newestAt
  have hl : (files.getLastD []).length = lastLen files := by rw [List.getLastD_eq_getLast?]; rfl
  split
  · next e => exact .inl ⟨e, rfl⟩
  · rw [hl]; exact .inr rfl

/-- A directory of this format can be opened. -/
theorem Conforms.opens {E : Env} (hE : EnvOk E) {key : B32} {dir : Dir} {trees : List PTree} (h : Conforms E key dir trees) (rand : B32) :
    ∃ db, dbOpen E dir rand = .ok (dir, .ok db) ∧ DInv E db trees ∧ db.store.files = dir.files ∧ db.store.key = key ∧
      db.hash = (trees.headD .null).hash E.H ∧ db.revert = false := by
  have hdir : dir = ⟨some key.bytes, dir.files⟩ := by
    have := h.keyFile
    cases dir
    simp only at this
    rw [this]
  obtain ⟨hh, okp⟩ := h.commits.hist hE h.few h.short h.proper
  have hlen : 1 ≤ dir.files.length := List.length_pos_iff.2 h.nonempty
  have hsz : lastLen dir.files ≤ E.cfg.maxFile := lastLen_le h.nonempty h.short
  have hal : lastLen dir.files % 38 = 0 := by
    have := h.aligned
    rw [List.getLastD_eq_getLast?] at this
    exact this
  have sok : ∀ (c : List (B32 × Ptr)) (st lm : Meta), SOk ⟨key, dir.files, dir.files.length, lastLen dir.files,
      { Slab.init with filePos := lastLen dir.files, fileIndex := dir.files.length }, c, st, lm, [], []⟩ := by
    intro c st lm
    refine ⟨hlen, rfl, ?_⟩
    obtain ⟨i, l, e⟩ := snoc_cases h.nonempty
    dsimp only
    rw [e, lastLen_snoc]
    simp
  have slab : ∀ (c : List (B32 × Ptr)) (st lm : Meta), Slabbed E ⟨key, dir.files, dir.files.length, lastLen dir.files,
      { Slab.init with filePos := lastLen dir.files, fileIndex := dir.files.length }, c, st, lm, [], []⟩ dir.files :=
    fun c st lm => slabbed_open (sok c st lm) rfl rfl hsz
  -- a store with these files
  obtain ⟨n, hri⟩ : ∃ n, RootIs E.H (vrd dir.files) n (trees.headD .null) := by
    cases trees with
    | nil => exact ⟨.null, .inl ⟨rfl, rfl⟩⟩
    | cons t ts =>
      obtain ⟨_, m, _, _, _, hr, _⟩ := hh
      rcases hr with ⟨rfl, _⟩ | hd
      · exact ⟨.null, .inl ⟨rfl, rfl⟩⟩
      · exact ⟨_, .inr ⟨m.rootPtr, rfl, hd⟩⟩
  have inv : SInv E ⟨key, dir.files, dir.files.length, lastLen dir.files,
      { Slab.init with filePos := lastLen dir.files, fileIndex := dir.files.length }, [], ⟨newestAt dir.files, nowhere, n⟩, ⟨newestAt dir.files, nowhere, n⟩, [], []⟩ trees := by
    refine ⟨slab _ _ _, h.short, fun t ht => (h.proper t ht).1, fun t ht => (h.proper t ht).2, okp, hh, hri, (fun _ _ hm => nomatch hm),
      ⟨[], trees, rfl, hh, by simp⟩, hh.count hE, ?_, fun _ => hal⟩
    dsimp only
    rcases newest_cases h.nonempty with ⟨e1, e2⟩ | e
    · left
      refine ⟨?_, e1⟩
      cases trees with
      | nil => rfl
      | cons t ts =>
        have := hh.1.1
        rw [e2] at this
        simp [nowhere] at this
    · have hge : 38 ≤ lastLen dir.files := by
        cases trees with
        | nil =>
          have hh : newestAt dir.files = nowhere := hh
          rw [e] at hh
          injection hh with a
          omega
        | cons t ts =>
          obtain ⟨_, m, hrd, _⟩ := hh
          rw [e] at hrd
          obtain ⟨_, _, f, hf, hx⟩ := vrd_bytesAt (by have := okp.pos; rw [e] at this; exact this) hrd
          dsimp only at hf hx
          have hml := length_metaWrite hE.mac key m
          have hms : metaSize = 38 := rfl
          have hfl : f.length = lastLen dir.files := by
            obtain ⟨i, l, e'⟩ := snoc_cases h.nonempty
            rw [e'] at hf ⊢
            rw [lastLen_snoc]
            simp at hf
            rw [hf]
          rcases hx with ⟨hx, _⟩ | ⟨a, b, hx, ha⟩
          · rw [hx] at hml; simp [metaSize] at hml
          · have := congrArg List.length hx
            simp only [List.length_append] at this
            omega
      right
      rw [e]
      exact ⟨rfl, by show lastLen dir.files - 38 + 38 = _; omega⟩
  have hd : DInv E ⟨_, (trees.headD .null).hash E.H, false⟩ trees := ⟨inv, ⟨_, SInv.head_mem trees, rfl⟩, fun _ => rfl⟩
  obtain ⟨db', e, hd', f', k', hs', rv⟩ := reopen_ok hE hd h.aligned rand
  refine ⟨db', ?_, hd', f', k', hs', rv⟩
  rw [hdir]
  exact e

/-! ### Writing files of this format -/

theorem bytesAt.mono {a b : List Bytes} (hx : FExt a b) {p : Ptr} {d : Bytes} (h : bytesAt a p d) : bytesAt b p d := by
  obtain ⟨h1, h2, f, hf, h⟩ := h
  obtain ⟨f', hf', t, rfl⟩ := hx.get _ f hf
  refine ⟨h1, h2, _, hf', ?_⟩
  rcases h with h | ⟨x, y, rfl, hx⟩
  · exact .inl h
  · exact .inr ⟨x, y ++ t, by simp, hx⟩

theorem Saved.mono {H : HashFn} {a b : List Bytes} (hx : FExt a b) {t : PTree} {p : Ptr} (h : Saved H a t p) : Saved H b t p := by
  induction t generalizing p with
  | null => exact h
  | leaf k v => obtain ⟨vp, h1, h2⟩ := h; exact ⟨vp, h1.mono hx, h2.mono hx⟩
  | node pre l r ihl ihr => obtain ⟨lp, rp, h1, h2, h3⟩ := h; exact ⟨lp, rp, h1.mono hx, ihl h2, ihr h3⟩

theorem CommitChain.mono {E : Env} {key : B32} {a b : List Bytes} (hx : FExt a b) {ts : List PTree} {p : Ptr} (h : CommitChain E key a ts p) :
    CommitChain E key b ts p := by
  induction ts generalizing p with
  | nil => exact h
  | cons t ts ih => obtain ⟨hz, prev, root, h1, h2, h3⟩ := h; exact ⟨hz, prev, root, h1.mono hx, h2.mono hx, ih h3⟩

theorem Draft.Rests.mono {H : HashFn} {a b : List Bytes} (hx : FExt a b) {d : Draft} (h : d.Rests H a) : d.Rests H b := by
  induction d with
  | old t p => exact Saved.mono hx h
  | leaf k v => trivial
  | node pre l r ihl ihr => exact ⟨ihl h.1, ihr h.2⟩

theorem put_at (max : Nat) {files : List Bytes} (hne : files ≠ []) (d : Bytes) :
    FExt files (put max files d).1 ∧ (put max files d).1 ≠ [] ∧ bytesAt (put max files d).1 (put max files d).2 d := by
  have hx := fext_vappend max hne d
  rw [put_eq max hne]
  refine ⟨hx, vappend_ne _ _ _, ?_⟩
  obtain ⟨i, l, rfl⟩ := snoc_cases hne
  rw [vappend_snoc]
  dsimp only
  split
  · rw [lastLen_snoc]
    refine ⟨by simp, rfl, d, by simp, .inr ⟨[], [], by simp, by simp⟩⟩
  · rw [lastLen_snoc]
    refine ⟨by simp, rfl, l ++ d, by simp, .inr ⟨l, [], by simp, by simp⟩⟩

theorem Draft.save_saved {H : HashFn} (max : Nat) {d : Draft} {files : List Bytes} (hne : files ≠ []) (h : d.Rests H files) :
    FExt files (d.save H max files).1 ∧ (d.save H max files).1 ≠ [] ∧ Saved H (d.save H max files).1 d.tree (d.save H max files).2 := by
  induction d generalizing files with
  | old t p => exact ⟨FExt.refl _, hne, h⟩
  | leaf k v =>
    obtain ⟨a1, a2, a3⟩ := put_at max hne v
    obtain ⟨b1, b2, b3⟩ := put_at max a2 (leafBytes k (put max files v).2)
    exact ⟨a1.trans b1, b2, _, b3, a3.mono b1⟩
  | node pre l r ihl ihr =>
    obtain ⟨a1, a2, a3⟩ := ihl hne h.1
    obtain ⟨b1, b2, b3⟩ := ihr a2 (h.2.mono a1)
    obtain ⟨c1, c2, c3⟩ := put_at max b2 (branchBytes pre (l.save H max files).2 (r.save H max (l.save H max files).1).2 (l.tree.hash H) (r.tree.hash H))
    exact ⟨(a1.trans b1).trans c1, c2, _, _, c3, a3.mono (b1.trans c1), b3.mono c1⟩

theorem fill_ext (max : Nat) {files : List Bytes} (hne : files ≠ []) : FExt files (fill max files) ∧ fill max files ≠ [] := by
  unfold fill
  split
  · exact ⟨FExt.refl _, hne⟩
  · exact ⟨(put_at max hne _).1, (put_at max hne _).2.1⟩

theorem length_commitBytes {E : Env} (hE : EnvOk E) (key : B32) (a b : Ptr) : (commitBytes E key a b).length = 38 := by
  unfold commitBytes
  simp only [List.length_append, length_refBytes, hE.mac]
  rfl

theorem commit_chain {E : Env} (hE : EnvOk E) {key : B32} {files : List Bytes} (hne : files ≠ []) {ts : List PTree} {d : Draft} (h : CommitChain E key files ts (newestAt files))
    (hr : d.Rests E.H files) :
    (d.commit E key files).2 = newestAt (d.commit E key files).1 ∧ CommitChain E key (d.commit E key files).1 (d.tree :: ts) (d.commit E key files).2 := by
  obtain ⟨a1, a2, a3⟩ := Draft.save_saved E.cfg.maxFile hne hr
  obtain ⟨b1, b2⟩ := fill_ext E.cfg.maxFile a2
  have hl := length_commitBytes hE key (newestAt files) (d.save E.H E.cfg.maxFile files).2
  obtain ⟨c1, c2, c3⟩ := put_at E.cfg.maxFile b2 (commitBytes E key (newestAt files) (d.save E.H E.cfg.maxFile files).2)
  have hp := put_eq E.cfg.maxFile b2 (commitBytes E key (newestAt files) (d.save E.H E.cfg.maxFile files).2)
  have hge := lastLen_vappend_ge (max := E.cfg.maxFile) b2 (commitBytes E key (newestAt files) (d.save E.H E.cfg.maxFile files).2)
  unfold Draft.commit
  dsimp only
  generalize hrec : commitBytes E key (newestAt files) (d.save E.H E.cfg.maxFile files).2 = rec at *
  generalize hf : fill E.cfg.maxFile (d.save E.H E.cfg.maxFile files).1 = f1 at *
  refine ⟨?_, rfl, _, _, ?_, a3.mono (b1.trans c1), h.mono ((a1.trans b1).trans c1)⟩
  · rw [hp]
    dsimp only
    rcases newest_cases (vappend_ne E.cfg.maxFile f1 rec) with ⟨e, _⟩ | e
    · rw [e] at hge
      rw [hl] at hge
      simp [lastLen] at hge
    · rw [e, hl]
  · rw [hrec]
    have : (put E.cfg.maxFile f1 rec).2.size = 38 := by rw [← hl]; exact c3.2.1.symm ▸ rfl
    have e : (⟨(put E.cfg.maxFile f1 rec).2.index, (put E.cfg.maxFile f1 rec).2.pos, 38⟩ : Ptr) = (put E.cfg.maxFile f1 rec).2 := by
      rw [← this]
    rw [e]
    exact c3

end Urkel
