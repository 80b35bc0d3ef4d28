import Verif.Spec.Db
import Verif.Lemmas.Recover
import Verif.Lemmas.ProofCodec
/-
The API functions on a healthy database, in terms of the trees their
transactions stand for.
-/
namespace Urkel
open PTree

/-! ### Trees -/

theorem Top.insert {t : PTree} (h : t.Top) (k : B32) (v : Bytes) :
    (t.insert k v 0).Top ∧ (t.insert k v 0).find = Contents.set t.find k (some v) := by
  rcases h with rfl | h
  · refine ⟨Or.inr (List.nil_prefix), ?_⟩
    funext k'
    simp [PTree.insert, PTree.find, Contents.set]
  · obtain ⟨h1, h2⟩ := insert_spec h (k := k) List.nil_prefix v
    refine ⟨Or.inr h1, ?_⟩
    funext k'
    exact h2 k'

theorem Top.remove {t : PTree} (h : t.Top) {k : B32} {v : Bytes} (hf : t.find k = some v) :
    (t.remove k 0).Top ∧ (t.remove k 0).find = Contents.set t.find k none := by
  rcases h with rfl | h
  · simp [PTree.find] at hf
  · obtain ⟨h1, h2⟩ := remove_spec h hf
    refine ⟨h1, ?_⟩
    funext k'
    exact h2 k'

theorem Contents.set_apply (c : Contents) (k : B32) (v : Option Bytes) (k' : B32) :
    c.set k v k' = if k' = k then v else c k' := rfl

theorem Contents.set_self (c : Contents) (k : B32) : c.set k (c k) = c := by
  funext k'
  rw [Contents.set_apply]
  split
  · next e => rw [e]
  · rfl

theorem vals_set {t t' : PTree} {n : Nat} (h : t.Top) (h' : t'.Top) {k : B32} {o : Option Bytes}
    (hf : t'.find = Contents.set t.find k o) (hv : t.ValsLe n) (ho : ∀ v, o = some v → v.length ≤ n) : t'.ValsLe n := by
  rw [PTree.Top.valsLe_iff h'] 
  rw [PTree.Top.valsLe_iff h] at hv
  intro k' v hk
  rw [hf, Contents.set_apply] at hk
  split at hk
  · exact ho v hk
  · exact hv k' v hk

/-- Number of keys. -/
def PTree.leaves : PTree → Nat
  | .null => 0
  | .leaf _ _ => 1
  | .node _ l r => l.leaves + r.leaves

theorem WF.bytes_le {p : List Bool} {t : PTree} (hw : WF p t) (h : t.ValsLe 255) : t.bytes + 113 ≤ 408 * t.leaves := by
  induction t generalizing p with
  | null => exact hw.elim
  | leaf k v => have : v.length ≤ 255 := h; simp only [PTree.bytes, PTree.leaves]; omega
  | node pre l r ihl ihr =>
    have := ihl hw.1 h.1
    have := ihr hw.2 h.2
    simp only [PTree.bytes, PTree.leaves]; omega

theorem countP_add_le {α : Type} (p q r : α → Bool) (h1 : ∀ a, p a = true → r a = true) (h2 : ∀ a, q a = true → r a = true)
    (h3 : ∀ a, ¬ (p a = true ∧ q a = true)) (l : List α) : l.countP p + l.countP q ≤ l.countP r := by
  induction l with
  | nil => simp
  | cons a l ih =>
    simp only [List.countP_cons]
    have a1 := h1 a; have a2 := h2 a; have a3 := h3 a
    cases hp : p a <;> cases hq : q a <;> cases hr : r a <;> simp_all <;> omega

theorem WF.leaves_le {p : List Bool} {t : PTree} (hw : WF p t) {ks : List B32}
    (h : ∀ k, (t.find k).isSome → k ∈ ks) : t.leaves ≤ ks.countP (fun k => p.isPrefixOf k.bits) := by
  induction t generalizing p with
  | null => exact hw.elim
  | leaf k v =>
    have hk := h k (by simp [PTree.find])
    have : 0 < ks.countP (fun k => p.isPrefixOf k.bits) := by
      rw [List.countP_pos_iff]
      exact ⟨k, hk, by rw [List.isPrefixOf_iff_prefix]; exact hw⟩
    simp only [PTree.leaves]; omega
  | node pre l r ihl ihr =>
    have hl := ihl hw.1 (fun k hk => h k (by
      obtain ⟨v, hv⟩ := Option.isSome_iff_exists.1 hk
      simp only [PTree.find, hv, Option.some_or, Option.isSome_some]))
    have hr := ihr hw.2 (fun k hk => h k (by
      simp only [PTree.find, Option.isSome_or, hk, Bool.or_true]))
    have := countP_add_le (fun k : B32 => (p ++ pre ++ [false]).isPrefixOf k.bits)
      (fun k => (p ++ pre ++ [true]).isPrefixOf k.bits) (fun k => p.isPrefixOf k.bits)
      (fun k hk => by
        rw [List.isPrefixOf_iff_prefix] at hk ⊢
        exact ((List.prefix_append p pre).trans (List.prefix_append _ [false])).trans hk)
      (fun k hk => by
        rw [List.isPrefixOf_iff_prefix] at hk ⊢
        exact ((List.prefix_append p pre).trans (List.prefix_append _ [true])).trans hk)
      (fun k ⟨a, b⟩ => by
        rw [List.isPrefixOf_iff_prefix] at a b
        exact not_both a b) ks
    simp only [PTree.leaves]; omega

theorem Top.bytes_le {t : PTree} (ht : t.Top) (hv : t.ValsLe 255) {ks : List B32}
    (h : ∀ k, (t.find k).isSome → k ∈ ks) : t.bytes ≤ 408 * ks.length := by
  rcases ht with rfl | hw
  · simp [PTree.bytes]
  · have h1 := WF.bytes_le hw hv
    have h2 := WF.leaves_le hw h
    have h3 := List.countP_le_length (p := fun k : B32 => ([] : List Bool).isPrefixOf k.bits) (l := ks)
    omega

/-! ### Invariants -/

/-- A healthy database between calls; `hist` are the committed trees, newest first. -/
structure DInv (E : Env) (db : Db) (hist : List PTree) : Prop where
  inv : SInv E db.store hist
  known : ∃ t ∈ PTree.null :: hist, t.hash E.H = db.hash
  cur : db.revert = false → db.hash = (hist.headD .null).hash E.H

/-- The transaction stands for the tree `t`. -/
def TxIs (E : Env) (db : Db) (tx : Tx) (t : PTree) : Prop :=
  ∃ n, tx.root = some n ∧ Repr E.H (vrd db.store.files) n t ∧ t.Top ∧ t.ValsLe 1023

theorem TxIs.top {E : Env} {db : Db} {tx : Tx} {t : PTree} (h : TxIs E db tx t) : t.Top := by
  obtain ⟨_, _, _, h, _⟩ := h; exact h
theorem TxIs.vals {E : Env} {db : Db} {tx : Tx} {t : PTree} (h : TxIs E db tx t) : t.ValsLe 1023 := by
  obtain ⟨_, _, _, _, h⟩ := h; exact h

theorem TxIs.mono {E : Env} {db db' : Db} {tx : Tx} {t : PTree} (h : TxIs E db tx t)
    (hx : FExt db.store.files db'.store.files) : TxIs E db' tx t := by
  obtain ⟨n, a, b, c, d⟩ := h
  exact ⟨n, a, b.mono (vrd_mono hx), c, d⟩

theorem TxIs.files {E : Env} {db db' : Db} {tx : Tx} {t : PTree} (h : TxIs E db tx t)
    (hx : db'.store.files = db.store.files) : TxIs E db' tx t := by
  refine h.mono ?_
  rw [hx]; exact FExt.refl _

theorem RootIs.tx {E : Env} {s : Store} {hist : List PTree} (hs : SInv E s hist) {n : Node} {t : PTree}
    (h : RootIs E.H (vrd s.files) n t) (ht : t ∈ PTree.null :: hist) : t.Top ∧ t.ValsLe 1023 := by
  rcases List.mem_cons.1 ht with rfl | ht
  · exact ⟨Or.inl rfl, trivial⟩
  · exact ⟨hs.top t ht, hs.vals t ht⟩

theorem SameData.files {s s' : Store} (h : SameData s s') : s'.files = s.files := by
  obtain ⟨_, _, rfl⟩ := h; rfl
theorem SameData.state {s s' : Store} (h : SameData s s') : s'.state = s.state := by
  obtain ⟨_, _, rfl⟩ := h; rfl
theorem SameData.key {s s' : Store} (h : SameData s s') : s'.key = s.key := by
  obtain ⟨_, _, rfl⟩ := h; rfl

/-- The database is unchanged except for the root cache. -/
structure SameDb (db db' : Db) : Prop where
  store : SameData db.store db'.store
  hash : db'.hash = db.hash
  revert : db'.revert = db.revert

theorem SameDb.refl (db : Db) : SameDb db db := ⟨SameData.refl _, rfl, rfl⟩

/-! ### Calls -/

theorem txCreate_ok {E : Env} (hE : EnvOk E) {db : Db} {hist : List PTree} (hd : DInv E db hist) (h : Option B32) :
    ∃ db' r, txCreate E db h = .ok (db', r) ∧ DInv E db' hist ∧ SameDb db db' ∧
      ((∃ tx t, r = .ok tx ∧ t ∈ PTree.null :: hist ∧ t.hash E.H = h.getD db.hash ∧ TxIs E db' tx t ∧
          (h = none → db.revert = false → t = hist.headD .null)) ∨
        (r = .error .ENOTFOUND ∧ (∀ t ∈ PTree.null :: hist, t.hash E.H ≠ h.getD db.hash))) := by
  have look : ∀ h', ∃ s' r, readHistory E db.store h' = .ok (s', r) ∧ DInv E { db with store := s' } hist ∧
      SameDb db { db with store := s' } ∧
      (∀ n, r = some n → ∃ t ∈ PTree.null :: hist, t.hash E.H = h' ∧ TxIs E { db with store := s' } ⟨some n⟩ t) ∧
      (r = none → ∀ t ∈ PTree.null :: hist, t.hash E.H ≠ h') := by
    intro h'
    obtain ⟨s', r, e, i, sd, f, g⟩ := readHistory_ok hE h' hd.inv
    refine ⟨s', r, e, ⟨i, hd.known, hd.cur⟩, ⟨sd, rfl, rfl⟩, ?_, g⟩
    intro n hn
    obtain ⟨t, ht, hh, hr⟩ := f n hn
    obtain ⟨a, b⟩ := RootIs.tx hd.inv hr ht
    refine ⟨t, ht, hh, n, rfl, ?_, a, b⟩
    show Repr E.H (vrd s'.files) n t
    rw [sd.files]; exact hr.repr
  cases h with
  | some h =>
    obtain ⟨s', r, e, i, sd, f, g⟩ := look h
    simp only [txCreate, e, Res.bind_ok]
    cases r with
    | none => exact ⟨_, _, rfl, i, sd, Or.inr ⟨rfl, g rfl⟩⟩
    | some n =>
      obtain ⟨t, ht, hh, htx⟩ := f n rfl
      exact ⟨_, _, rfl, i, sd, Or.inl ⟨_, t, rfl, ht, hh, htx, by simp⟩⟩
  | none =>
    simp only [txCreate]
    by_cases hrev : db.revert = true
    · obtain ⟨s', r, e, i, sd, f, g⟩ := look db.hash
      rw [if_pos hrev]
      simp only [e, Res.bind_ok]
      cases r with
      | none => exact ⟨_, _, rfl, i, sd, Or.inr ⟨rfl, g rfl⟩⟩
      | some n =>
        obtain ⟨t, ht, hh, htx⟩ := f n rfl
        exact ⟨_, _, rfl, i, sd, Or.inl ⟨_, t, rfl, ht, hh, htx, by simp [hrev]⟩⟩
    · rw [if_neg hrev]
      have hm := SInv.head_mem hist
      obtain ⟨a, b⟩ := RootIs.tx hd.inv hd.inv.root hm
      exact ⟨_, _, rfl, hd, SameDb.refl _, Or.inl ⟨_, hist.headD .null, rfl, hm, (hd.cur (by simpa using hrev)).symm,
        ⟨_, rfl, hd.inv.root.repr, a, b⟩, fun _ _ => rfl⟩⟩

theorem txInject_ok {E : Env} (hE : EnvOk E) {db : Db} {hist : List PTree} (hd : DInv E db hist) {tx : Tx} {t0 : PTree}
    (ht0 : TxIs E db tx t0) (h : B32) :
    ∃ db' tx' r, txInject E db tx h = .ok (db', tx', r) ∧ DInv E db' hist ∧ SameDb db db' ∧
      ((∃ t, r = .ok () ∧ t ∈ PTree.null :: hist ∧ t.hash E.H = h ∧ TxIs E db' tx' t) ∨
        (r = .error .ENOTFOUND ∧ tx' = tx ∧ (∀ t ∈ PTree.null :: hist, t.hash E.H ≠ h))) := by
  obtain ⟨s', r, e, i, sd, f, g⟩ := readHistory_ok hE h hd.inv
  obtain ⟨n0, hn0, _⟩ := ht0
  simp only [txInject, e, Res.bind_ok]
  cases r with
  | none => exact ⟨_, _, _, rfl, ⟨i, hd.known, hd.cur⟩, ⟨sd, rfl, rfl⟩, Or.inr ⟨rfl, rfl, g rfl⟩⟩
  | some n =>
    obtain ⟨t, ht, hh, hr⟩ := f n rfl
    obtain ⟨a, b⟩ := RootIs.tx hd.inv hr ht
    simp only [Tx.node, hn0, Res.bind_ok, Res.pure_eq]
    refine ⟨_, _, _, rfl, ⟨i, hd.known, hd.cur⟩, ⟨sd, rfl, rfl⟩, Or.inl ⟨t, rfl, ht, hh, n, rfl, ?_, a, b⟩⟩
    show Repr E.H (vrd s'.files) n t
    rw [sd.files]; exact hr.repr

theorem dbInject_ok {E : Env} (hE : EnvOk E) {db : Db} {hist : List PTree} (hd : DInv E db hist) {h : B32}
    {t : PTree} (ht : t ∈ PTree.null :: hist) (hh : t.hash E.H = h) :
    ∃ db', dbInject E db h = .ok (db', .ok ()) ∧ DInv E db' hist ∧ SameData db.store db'.store ∧
      db'.hash = h ∧ db'.revert = true := by
  obtain ⟨s', r, e, i, sd, f, g⟩ := readHistory_ok hE h hd.inv
  cases r with
  | none => exact (g rfl t ht hh).elim
  | some n =>
    refine ⟨{ db with store := s', hash := h, revert := true }, ?_, ⟨i, ⟨t, ht, hh⟩, fun h => (nomatch h)⟩, sd, rfl, rfl⟩
    simp only [dbInject, hasHistory, e, Res.bind_ok, Res.pure_eq, if_true]

theorem dbInject_unknown {E : Env} (hE : EnvOk E) {db : Db} {hist : List PTree} (hd : DInv E db hist) {h : B32}
    (hu : ∀ t ∈ PTree.null :: hist, t.hash E.H ≠ h) : dbInject E db h = .ub := by
  obtain ⟨s', r, e, i, sd, f, g⟩ := readHistory_ok hE h hd.inv
  cases r with
  | some n =>
    obtain ⟨t, ht, hh, _⟩ := f n rfl
    exact (hu t ht hh).elim
  | none => simp only [dbInject, hasHistory, e, Res.bind_ok, Res.bind_ub]

theorem rd_of {E : Env} {db : Db} {hist : List PTree} (hd : DInv E db hist) : db.store.rd = vrd db.store.files := hd.inv.rd

theorem txGet_ok {E : Env} {db : Db} {hist : List PTree} (hd : DInv E db hist) {tx : Tx} {t : PTree}
    (ht : TxIs E db tx t) (k : B32) : txGet db tx k = lookupRes (t.find k) true := by
  obtain ⟨n, hn, hr, htop, hv⟩ := ht
  rw [← rd_of hd] at hr
  simp only [txGet, Tx.node, hn, Res.bind_ok]
  exact treeGet_ok k true treeFuel hr (p := []) htop List.nil_prefix (Top.cost_le htop n)

/-- What an existence check returns. -/
def hasRes : Option Bytes → Res Unit
  | some _ => .ok ()
  | none => .err .ENOTFOUND

theorem txHas_ok {E : Env} {db : Db} {hist : List PTree} (hd : DInv E db hist) {tx : Tx} {t : PTree}
    (ht : TxIs E db tx t) (k : B32) :
    txHas db tx k = hasRes (t.find k) := by
  obtain ⟨n, hn, hr, htop, hv⟩ := ht
  rw [← rd_of hd] at hr
  have := treeGet_ok k false treeFuel hr (p := []) htop List.nil_prefix (Top.cost_le htop n)
  simp only [List.length_nil] at this
  simp only [txHas, Tx.node, hn, Res.bind_ok, this]
  cases t.find k <;> rfl

theorem txInsert_ok {E : Env} {db : Db} {hist : List PTree} (hd : DInv E db hist) {tx : Tx} {t : PTree}
    (ht : TxIs E db tx t) (k : B32) {v : Bytes} (hv : v.length ≤ 1023) :
    ∃ tx', txInsert E db tx k v = .ok (tx', .ok ()) ∧ TxIs E db tx' (t.insert k v 0) := by
  obtain ⟨n, hn, hr, htop, hvs⟩ := ht
  have hr' := hr
  rw [← rd_of hd] at hr
  have := treeInsert_ok (E := E) k hv treeFuel hr (p := []) htop List.nil_prefix (Top.cost_le htop n)
  simp only [List.length_nil] at this
  obtain ⟨it, ifd⟩ := Top.insert htop k v
  have ivs : (t.insert k v 0).ValsLe 1023 := vals_set htop it ifd hvs (by rintro _ ⟨⟩; exact hv)
  have c : ¬ (v.length > valueSize) := by unfold valueSize; omega
  simp only [txInsert, c, if_false, Tx.node, hn, Res.bind_ok]
  rcases this with ⟨n', e, hr2⟩ | ⟨e, hf⟩
  · rw [e]
    rw [rd_of hd] at hr2
    exact ⟨_, rfl, n', rfl, hr2, it, ivs⟩
  · rw [e]
    refine ⟨_, rfl, n, hn, ?_, it, ivs⟩
    have : t.insert k v 0 = t := by
      refine PTree.Top.unique it htop (fun k' => ?_)
      rw [ifd, Contents.set_apply]
      split
      · next e => rw [e, hf]
      · rfl
    rw [this]; exact hr'

theorem txInsert_big {E : Env} {db : Db} {tx : Tx} {k : B32} {v : Bytes} (hv : 1023 < v.length) :
    txInsert E db tx k v = .ok (tx, .error .EINVAL) := by
  have c : v.length > valueSize := hv
  simp only [txInsert, c, if_true]

theorem txRemove_ok {E : Env} {db : Db} {hist : List PTree} (hd : DInv E db hist) {tx : Tx} {t : PTree}
    (ht : TxIs E db tx t) (k : B32) :
    match t.find k with
    | some _ => ∃ tx', txRemove db tx k = .ok (tx', .ok ()) ∧ TxIs E db tx' (t.remove k 0)
    | none => txRemove db tx k = .ok (tx, .error .ENOTFOUND) := by
  obtain ⟨n, hn, hr, htop, hvs⟩ := ht
  rw [← rd_of hd] at hr
  have := treeRemove_ok k treeFuel hr (p := []) htop List.nil_prefix (Top.cost_le htop n)
  simp only [List.length_nil] at this
  cases hf : t.find k with
  | none =>
    rw [hf] at this
    simp only [txRemove, Tx.node, hn, Res.bind_ok, this, Res.pure_eq]
  | some v =>
    rw [hf] at this
    obtain ⟨n', e, hr2⟩ := this
    obtain ⟨rt, rf⟩ := Top.remove htop hf
    rw [rd_of hd] at hr2
    refine ⟨⟨some n'⟩, ?_, n', rfl, hr2, rt, vals_set htop rt rf hvs (by simp)⟩
    simp only [txRemove, Tx.node, hn, Res.bind_ok, e, Res.pure_eq]

theorem txRoot_ok {E : Env} {db : Db} {tx : Tx} {t : PTree}
    (ht : TxIs E db tx t) : ∃ tx', txRoot E tx = .ok (tx', t.hash E.H) ∧ TxIs E db tx' t := by
  obtain ⟨n, hn, hr, htop, hvs⟩ := ht
  obtain ⟨n', e, hr2⟩ := nodeHash_ok hr
  refine ⟨⟨some n'⟩, ?_, n', rfl, hr2, htop, hvs⟩
  simp only [txRoot, Tx.node, hn, Res.bind_ok, e, Res.pure_eq]

theorem verify_honest {H : HashFn} {t : PTree} (ht : t.Top) (hv : t.ValsLe 1023) (k : B32) :
    urkelVerify H (encProof (proveSpec H k t 0)) k (t.hash H) = .ok ⟨.ok (), (t.find k).isSome, (t.find k).getD []⟩ := by
  have hok := (proveSpec_ok (H := H) ht (key := k) List.nil_prefix hv).1
  have ha := proveSpec_answer (H := H) ht (key := k) List.nil_prefix
  simp only [List.length_nil] at hok ha
  simp only [urkelVerify, proofRead_enc hok, Res.bind_ok, proveSpec_verifies ht hv]
  rw [← ha]
  cases (proveSpec H k t 0).body <;> rfl

theorem txProve_ok {E : Env} {db : Db} {hist : List PTree} (hd : DInv E db hist) {tx : Tx} {t : PTree}
    (ht : TxIs E db tx t) (k : B32) :
    ∃ tx' raw, txProve E db tx k = .ok (tx', .ok raw) ∧ TxIs E db tx' t ∧ raw = encProof (proveSpec E.H k t 0) ∧
      ProofOk (proveSpec E.H k t 0) := by
  obtain ⟨n, hn, hr, htop, hvs⟩ := ht
  rw [← rd_of hd] at hr
  obtain ⟨n', e, hr2⟩ := treeProve_ok k treeFuel hr (p := []) (pushed := 0) htop List.nil_prefix (by simp) (Top.cost_le htop n)
  have hok := (proveSpec_ok (H := E.H) htop (key := k) List.nil_prefix hvs).1
  simp only [List.length_nil] at e hok
  rw [rd_of hd] at hr2
  refine ⟨⟨some n'⟩, _, ?_, ⟨n', rfl, hr2, htop, hvs⟩, rfl, hok⟩
  simp only [txProve, Tx.node, hn, Res.bind_ok, e, proofSize_ok hok, proofWrite_ok hok, ne_eq, not_true, if_false,
    Res.pure_eq]

/-- What the capacity guard means for the tree. -/
theorem room_of {E : Env} {db : Db} {t : PTree} {ks : List B32} (ht : t.Top) (hv : t.ValsLe 255)
    (hk : ∀ k, (t.find k).isSome → k ∈ ks) (hr : HasRoom E db.store.files (408 * ks.length + 76)) :
    used E.cfg.maxFile db.store.files + 2 * (t.bytes + 76) < E.cfg.maxFile * E.cfg.maxFiles := by
  have h1 := Top.bytes_le ht hv hk
  unfold HasRoom at hr
  unfold used lastLen
  have : db.store.files.getLastD [] = db.store.files.getLast?.getD [] := by
    rw [List.getLastD_eq_getLast?]
  rw [this] at hr
  omega

theorem canCommit_tree {E : Env} {db : Db} {hist : List PTree} (hd : DInv E db hist) {tx : Tx} {t : PTree}
    (ht : TxIs E db tx t) (hc : CanCommit E db tx) :
    t.ValsLe 255 ∧ used E.cfg.maxFile db.store.files + 2 * (t.bytes + 76) < E.cfg.maxFile * E.cfg.maxFiles := by
  obtain ⟨hv, ks, hks, hroom⟩ := hc
  have hv' : t.ValsLe 255 := by
    rw [PTree.Top.valsLe_iff ht.top]
    intro k v hf
    refine hv k v ?_
    rw [txGet_ok hd ht, hf]; rfl
  refine ⟨hv', room_of ht.top hv' (fun k hk => hks k ?_) hroom⟩
  rw [txHas_ok hd ht]
  obtain ⟨v, hv⟩ := Option.isSome_iff_exists.1 hk
  rw [hv]; rfl

theorem txCommit_ok {E : Env} (hE : EnvOk E) {db : Db} {hist : List PTree} (hd : DInv E db hist) {tx : Tx} {t : PTree}
    (ht : TxIs E db tx t) (hv : t.ValsLe 255)
    (hcap : used E.cfg.maxFile db.store.files + 2 * (t.bytes + 76) < E.cfg.maxFile * E.cfg.maxFiles) :
    ∃ db' tx', txCommit E db tx = .ok (db', tx', .ok ()) ∧ DInv E db' (t :: hist) ∧ TxIs E db' tx' t ∧
      Committed E db.store db'.store hist t ∧ db'.hash = t.hash E.H ∧ db'.revert = db.revert := by
  obtain ⟨n, hn, hr, htop, hvs⟩ := ht
  obtain ⟨s1, root, s2, e1, e2, hri, hrn, hc⟩ := commit_ok hE hd.inv hr htop hv hcap
  refine ⟨⟨s2, rootNodeHash root, db.revert⟩, ⟨some root⟩, ?_, ⟨hc.inv, ⟨t, by simp, hri.hash.symm⟩, fun _ => hri.hash⟩,
    ⟨root, rfl, hri.repr, htop, hvs⟩, hc, hri.hash, rfl⟩
  simp only [txCommit, Tx.node, hn, Res.bind_ok, e1, e2, Bool.not_true, Bool.false_eq_true, if_false, Res.pure_eq]

theorem txClear_ok {E : Env} {db : Db} {hist : List PTree} (hd : DInv E db hist) {tx : Tx} {t : PTree}
    (ht : TxIs E db tx t) : ∃ tx', txClear db tx = .ok tx' ∧ TxIs E db tx' (hist.headD .null) := by
  obtain ⟨n, hn, _⟩ := ht
  obtain ⟨a, b⟩ := RootIs.tx hd.inv hd.inv.root (SInv.head_mem hist)
  refine ⟨⟨some db.store.state.rootNode⟩, ?_, _, rfl, hd.inv.root.repr, a, b⟩
  simp only [txClear, Tx.node, hn, Res.bind_ok, Res.pure_eq]

theorem txDestroy_ok {E : Env} {db : Db} {tx : Tx} {t : PTree} (ht : TxIs E db tx t) : txDestroy tx = .ok () := by
  obtain ⟨n, hn, _⟩ := ht
  simp only [txDestroy, Tx.node, hn, Res.bind_ok, Res.pure_eq]

theorem dir_key (db : Db) (rand : B32) : db.dir.key rand = some db.store.key := by
  unfold Db.dir Dir.key
  simp only [db.store.key.len, Nat.le_refl, dite_true]
  congr 1
  apply B32.ext
  simp [List.take_of_length_le, db.store.key.len]

theorem noForge_self (E : Env) (key : B32) (f : List Bytes) : NoForge E key f f := by
  intro j g n hg h1 h2
  rw [List.getD_eq_getElem?_getD, hg] at h1
  simp only [Option.getD_some] at h1
  have : metaSize = 38 := rfl
  omega

/-- Closing and opening a database whose last record is aligned. -/
theorem reopen_ok {E : Env} (hE : EnvOk E) {db : Db} {hist : List PTree} (hd : DInv E db hist)
    (hal : (db.store.files.getLastD []).length % 38 = 0) (rand : B32) :
    ∃ db', dbOpen E db.dir rand = .ok (db.dir, .ok db') ∧ DInv E db' hist ∧ db'.store.files = db.store.files ∧
      db'.store.key = db.store.key ∧ db'.hash = (hist.headD .null).hash E.H ∧ db'.revert = false := by
  rw [List.getLastD_eq_getLast?] at hal
  have hal : lastLen db.store.files % 38 = 0 := hal
  cases hh : hist with
  | nil =>
    subst hh
    have hf : db.store.files = [[]] := by
      rcases hd.inv.tail with ⟨_, h⟩ | ⟨h1, h2⟩
      · exact h
      · exfalso
        have h3 : db.store.state.metaPtr.index = 0 := by
          rw [show db.store.state.metaPtr = nowhere from hd.inv.chain]; rfl
        obtain ⟨i, l, e, _⟩ := hd.inv.slab.sok.files_snoc
        rw [e] at h1
        simp at h1; omega
    have hnf : ∀ P : Prop, ∀ (j n : Nat) (f : Bytes), [([] : Bytes)][j]? = some f → metaSize * n + metaSize ≤ f.length → P := by
      intro P j n f h1 h2
      have : f = [] := by
        cases j with
        | zero => simpa using h1.symm
        | succ j => simp at h1
      subst this
      simp [metaSize] at h2
    obtain ⟨s', e, i, k, f, rh⟩ := open_empty (E := E) (d := db.dir) (rand := rand) (key := db.store.key) (dir_key db rand)
      (by
        intro j f n h1 h2 h3
        rw [show db.dir.files = [[]] from hf] at h1
        exact hnf _ j n f h1 h3)
      (by
        intro j f n h1 h2 h3
        rw [show db.dir.files = [[]] from hf] at h1
        exact hnf _ j n f h1 h3)
    refine ⟨⟨s', rootHash s', false⟩, ?_, ⟨i, ⟨.null, by simp, rh.symm⟩, fun _ => rh⟩, by rw [f, hf], k, rh, rfl⟩
    simp only [dbOpen, e, Res.bind_ok, Res.pure_eq]
    simp only [Db.dir, Option.getD_some, hf]
  | cons t ts =>
    rw [← hh]
    have hne : hist ≠ [] := by simp [hh]
    have hpos : db.store.state.metaPtr.pos % metaSize = 0 := by
      rcases hd.inv.tail with ⟨h, _⟩ | ⟨_, h2⟩
      · exact (hne h).elim
      · have : metaSize = 38 := rfl
        rw [this] at h2 ⊢
        omega
    obtain ⟨s', e, i, k, f, rh, _⟩ := open_ok hE hd.inv hne hpos (d := db.dir) (FExt.refl _) (noForge_self _ _ _) rand
      (dir_key db rand)
    have rh2 : rootHash s' = (hist.headD .null).hash E.H := i.rootHash
    refine ⟨⟨s', rootHash s', false⟩, ?_, ⟨i, ⟨hist.headD .null, SInv.head_mem hist, rh2.symm⟩, fun _ => rh2⟩, f, k, rh2, rfl⟩
    simp only [dbOpen, e, Res.bind_ok, Res.pure_eq]
    simp only [Db.dir, Option.getD_some]

end Urkel
