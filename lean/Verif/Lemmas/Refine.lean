import Verif.Lemmas.Db
/-
Forward simulation between the library and the specification database.
-/
namespace Urkel
open PTree

theorem IsRoot.of_tree {H : HashFn} {t : PTree} (h : t.Top) : IsRoot H t.find (t.hash H) := ⟨t, h, rfl, rfl⟩

theorem find_inj {t u : PTree} (ht : t.Top) (hu : u.Top) (h : t.find = u.find) : t = u :=
  PTree.Top.unique ht hu (fun k => by rw [h])

theorem IsRoot.iff {H : HashFn} {t : PTree} (h : t.Top) {r : B32} : IsRoot H t.find r ↔ t.hash H = r := by
  constructor
  · rintro ⟨u, hu, e, rfl⟩
    rw [find_inj hu h e]
  · rintro rfl; exact .of_tree h

/-- A transaction handle and the map it shows. -/
def TxMatch (E : Env) (db : Db) : Option Tx → Option Contents → Prop
  | some tx, some c => ∃ t, TxIs E db tx t ∧ t.find = c
  | none, none => True
  | _, _ => False

/-- The library state implements the specification state. -/
structure Sim (E : Env) (s : Sys) (sp : SpecDb) (hist : List PTree) : Prop where
  db : DInv E s.db hist
  hist : sp.hist = hist.map PTree.find
  root : sp.root = s.db.hash
  txs : ∀ id, TxMatch E s.db (s.txs id) (sp.txs id)

theorem DInv.top {E : Env} {db : Db} {hist : List PTree} (h : DInv E db hist) {t : PTree}
    (ht : t ∈ PTree.null :: hist) : t.Top := by
  rcases List.mem_cons.1 ht with rfl | ht
  · exact Or.inl rfl
  · exact h.inv.top t ht

theorem Sim.snapshot {E : Env} {s : Sys} {sp : SpecDb} {hist : List PTree} (h : Sim E s sp hist) {r : B32} {c : Contents} :
    sp.Snapshot E.H r c ↔ ∃ t ∈ PTree.null :: hist, t.find = c ∧ t.hash E.H = r := by
  have e : Contents.empty :: sp.hist = (PTree.null :: hist).map PTree.find := by
    rw [h.hist]; rfl
  unfold SpecDb.Snapshot
  rw [e, List.mem_map]
  constructor
  · rintro ⟨⟨t, ht, rfl⟩, hr⟩
    exact ⟨t, ht, rfl, (IsRoot.iff (h.db.top ht)).1 hr⟩
  · rintro ⟨t, ht, rfl, hr⟩
    exact ⟨⟨t, ht, rfl⟩, (IsRoot.iff (h.db.top ht)).2 hr⟩

theorem Sim.last {E : Env} {s : Sys} {sp : SpecDb} {hist : List PTree} (h : Sim E s sp hist) :
    sp.last = (hist.headD .null).find := by
  unfold SpecDb.last
  rw [h.hist]
  cases hist <;> rfl

theorem TxMatch.mono {E : Env} {db db' : Db} (hx : FExt db.store.files db'.store.files) {a : Option Tx} {b : Option Contents}
    (h : TxMatch E db a b) : TxMatch E db' a b := by
  cases a <;> cases b <;> try exact h
  obtain ⟨t, h1, h2⟩ := h
  exact ⟨t, h1.mono hx, h2⟩

theorem Sim.set {E : Env} {s : Sys} {sp : SpecDb} {hist : List PTree} (h : Sim E s sp hist) (id : Nat)
    {a : Option Tx} {b : Option Contents} (hm : TxMatch E s.db a b) : Sim E (s.setTx id a) (sp.setTx id b) hist := by
  refine ⟨h.db, h.hist, h.root, fun i => ?_⟩
  simp only [Sys.setTx, SpecDb.setTx]
  split
  · exact hm
  · exact h.txs i

/-- The database changed without losing data. -/
theorem Sim.withDb {E : Env} {s : Sys} {sp : SpecDb} {hist : List PTree} (h : Sim E s sp hist) {db : Db}
    (hd : DInv E db hist) (hs : SameDb s.db db) : Sim E { s with db := db } sp hist := by
  refine ⟨hd, h.hist, by rw [h.root]; exact hs.hash.symm, fun i => (h.txs i).mono ?_⟩
  show FExt s.db.store.files db.store.files
  rw [hs.store.files]; exact FExt.refl _

theorem Sim.keep {E : Env} {s : Sys} {sp : SpecDb} {hist : List PTree} (h : Sim E s sp hist) {id : Nat} {tx : Tx}
    {c : Contents} (hc : sp.txs id = some c) {t : PTree} (ht : TxIs E s.db tx t) (hf : t.find = c) :
    Sim E (s.setTx id (some tx)) sp hist := by
  refine ⟨h.db, h.hist, h.root, fun i => ?_⟩
  simp only [Sys.setTx]
  split
  · next e => subst e; rw [hc]; exact ⟨t, ht, hf⟩
  · exact h.txs i

/-- A handle in use. -/
theorem Sim.tx {E : Env} {s : Sys} {sp : SpecDb} {hist : List PTree} (h : Sim E s sp hist) {id : Nat}
    (hid : s.txs id ≠ none) : ∃ tx t, s.txs id = some tx ∧ s.tx id = .ok tx ∧ TxIs E s.db tx t ∧ sp.txs id = some t.find := by
  have hm := h.txs id
  cases e : s.txs id with
  | none => exact (hid e).elim
  | some tx =>
    rw [e] at hm
    cases e2 : sp.txs id with
    | none => rw [e2] at hm; exact hm.elim
    | some c =>
      rw [e2] at hm
      obtain ⟨t, h1, h2⟩ := hm
      exact ⟨tx, t, rfl, by simp [Sys.tx, e], h1, by rw [h2]⟩

theorem lookup_getRet {t : PTree} {k : B32} :
    ∃ r, catchErr (lookupRes (t.find k) true) = .ok r ∧ Ret.ofBytes r = Contents.getRet t.find k := by
  unfold Contents.getRet
  cases t.find k <;> exact ⟨_, rfl, rfl⟩

theorem lookup_hasRet {t : PTree} {k : B32} :
    ∃ r, catchErr (hasRes (t.find k)) = .ok r ∧
      Ret.ofUnit r = Contents.hasRet t.find k := by
  unfold Contents.hasRet
  cases t.find k <;> exact ⟨_, rfl, rfl⟩

theorem FExt.of_same {s s' : Store} (h : SameData s s') : FExt s.files s'.files := by
  rw [h.files]; exact FExt.refl _

theorem Sim.commit {E : Env} {s : Sys} {sp : SpecDb} {hist : List PTree} (h : Sim E s sp hist) {db : Db} {t : PTree}
    (hd : DInv E db (t :: hist)) (hx : FExt s.db.store.files db.store.files) (hh : db.hash = t.hash E.H) (ht : t.Top) :
    ∃ sp', CommitTo E.H sp t.find sp' ∧ sp'.txs = sp.txs ∧ Sim E { s with db := db } sp' (t :: hist) := by
  refine ⟨{ sp with hist := t.find :: sp.hist, root := t.hash E.H }, ⟨_, .of_tree ht, rfl⟩, rfl, hd, ?_, hh.symm, fun i => ?_⟩
  · simp [h.hist]
  · exact (h.txs i).mono hx

/-- Reading through a temporary transaction. -/
theorem create_read {E : Env} (hE : EnvOk E) {s : Sys} {sp : SpecDb} {hist : List PTree} (h : Sim E s sp hist)
    (hr : Option B32) :
    ∃ db' r, txCreate E s.db hr = .ok (db', r) ∧ Sim E { s with db := db' } sp hist ∧ SameDb s.db db' ∧
      ((∃ tx t, r = .ok tx ∧ TxIs E db' tx t ∧ sp.Snapshot E.H (hr.getD sp.root) t.find) ∨
        (r = .error .ENOTFOUND ∧ ∀ c, ¬ sp.Snapshot E.H (hr.getD sp.root) c)) := by
  obtain ⟨db', r, e, hd, hs, hc⟩ := txCreate_ok hE h.db hr
  refine ⟨db', r, e, h.withDb hd hs, hs, ?_⟩
  rw [h.root]
  rcases hc with ⟨tx, t, hr1, htm, hth, htx, _⟩ | ⟨hr1, hn⟩
  · exact Or.inl ⟨tx, t, hr1, htx, h.snapshot.2 ⟨t, htm, rfl, hth⟩⟩
  · refine Or.inr ⟨hr1, fun c hc => ?_⟩
    obtain ⟨t, ht, _, hh⟩ := h.snapshot.1 hc
    exact hn t ht hh

theorem goodProof {E : Env} {t : PTree} (ht : t.Top) (hv : t.ValsLe 1023) (k : B32) :
    GoodProof E.H t.find k (encProof (proveSpec E.H k t 0)) :=
  ⟨_, .of_tree ht, verify_honest ht hv k⟩

/-- One-shot writing: what the temporary transaction leaves to commit. -/
theorem oneShot_commit {E : Env} (hE : EnvOk E) {s : Sys} {sp : SpecDb} {hist : List PTree} (h : Sim E s sp hist)
    {tx : Tx} {t : PTree} (htx : TxIs E s.db tx t) (hv : t.ValsLe 255) {ks : List B32}
    (hk : ∀ k, (t.find k).isSome → k ∈ ks) (hr : HasRoom E s.db.store.files (408 * ks.length + 76)) :
    ∃ db' tx' sp', txCommit E s.db tx = .ok (db', tx', .ok ()) ∧ txDestroy tx' = .ok () ∧
      CommitTo E.H sp t.find sp' ∧ Sim E { s with db := db' } sp' (t :: hist) := by
  obtain ⟨db', tx', e, hd, ht', hc, hh, _⟩ := txCommit_ok hE h.db htx hv (room_of htx.top hv hk hr)
  obtain ⟨sp', c1, _, c2⟩ := h.commit hd hc.ext hh htx.top
  exact ⟨db', tx', sp', e, txDestroy_ok ht', c1, c2⟩

theorem canCommit1_tree {E : Env} (hE : EnvOk E) {s : Sys} {sp : SpecDb} {hist : List PTree} (h : Sim E s sp hist)
    (hc : CanCommit1 E s.db) :
    ∃ (db' : Db) (tx : Tx) (t : PTree) (ks : List B32), txCreate E s.db none = .ok (db', .ok tx) ∧ Sim E { s with db := db' } sp hist ∧ TxIs E db' tx t ∧
      sp.Snapshot E.H sp.root t.find ∧ t.ValsLe 255 ∧ (∀ k, (t.find k).isSome → k ∈ ks) ∧
      HasRoom E db'.store.files (408 * (ks.length + 1) + 76) := by
  obtain ⟨db', r, e, hs, hsame, hcase⟩ := create_read hE h none
  rcases hcase with ⟨tx, t, rfl, htx, hsn⟩ | ⟨_, hn⟩
  · obtain ⟨hv, ks, hk, hroom⟩ := hc db' tx e
    refine ⟨db', tx, t, ks, e, hs, htx, hsn, ?_, ?_, ?_⟩
    · rw [PTree.Top.valsLe_iff htx.top]
      intro k v hf
      refine hv k v ?_
      rw [txGet_ok hs.db htx, hf]; rfl
    · intro k hk'
      refine hk k ?_
      rw [txHas_ok hs.db htx]
      obtain ⟨v, hv⟩ := Option.isSome_iff_exists.1 hk'
      rw [hv]; rfl
    · rw [hsame.store.files]; exact hroom
  · obtain ⟨t, ht, hh⟩ := h.db.known
    exact (hn _ (h.snapshot.2 ⟨t, ht, rfl, by rw [hh]; exact h.root.symm⟩)).elim

/-- Every allowed call returns (no abort, no undefined behaviour) and does what
the specification says. -/
theorem step_sim {E : Env} (hE : EnvOk E) {s : Sys} {sp : SpecDb} {hist : List PTree} (h : Sim E s sp hist) (op : Op)
    (ha : Allowed E s op) :
    ∃ s' r sp' hist', step E s op = .ok (s', r) ∧ SpecStep E.H sp op r sp' ∧ Sim E s' sp' hist' := by
  cases op with
  | root => exact ⟨_, _, sp, hist, rfl, ⟨by rw [h.root]; rfl, rfl⟩, h⟩
  | inject r =>
    obtain ⟨db0, tx0, e0⟩ := ha
    obtain ⟨db1, r1, e1, _, _, hc⟩ := create_read hE h (some r)
    rw [e0] at e1
    cases e1
    rcases hc with ⟨_, t0, _, _, hsn⟩ | ⟨hbad, _⟩
    · have hsn : sp.Snapshot E.H r t0.find := hsn
      obtain ⟨t, ht, hf, hh⟩ := h.snapshot.1 hsn
      obtain ⟨db', e, hd, hs, h1, h2⟩ := dbInject_ok hE h.db ht hh
      refine ⟨{ s with db := db' }, .unit, { sp with root := r }, hist, ?_, ⟨⟨_, hsn⟩, rfl, rfl⟩, hd, h.hist, h1.symm, fun i => ?_⟩
      · simp only [step, e, Res.bind_ok, Res.pure_eq]; rfl
      · exact (h.txs i).mono (.of_same hs)
    · cases hbad
  | create id r =>
    obtain ⟨db', x, e, hs, _, hc⟩ := create_read hE h r
    simp only [step, e, Res.bind_ok]
    rcases hc with ⟨tx, t, rfl, htx, hsn⟩ | ⟨rfl, hn⟩
    · exact ⟨_, _, sp.setTx id (some t.find), hist, rfl, Or.inl ⟨_, hsn, rfl, rfl⟩, hs.set id ⟨t, htx, rfl⟩⟩
    · exact ⟨_, _, sp, hist, rfl, Or.inr ⟨hn, rfl, rfl⟩, hs⟩
  | destroy id =>
    obtain ⟨tx, t, e1, e2, ht, hc⟩ := h.tx ha
    refine ⟨s.setTx id none, .unit, sp.setTx id none, hist, ?_, ⟨rfl, rfl⟩, h.set id trivial⟩
    simp only [step, e2, Res.bind_ok, txDestroy_ok ht, Res.pure_eq]
  | clear id =>
    obtain ⟨tx, t, e1, e2, ht, hc⟩ := h.tx ha
    obtain ⟨tx', e3, ht'⟩ := txClear_ok h.db ht
    refine ⟨s.setTx id (some tx'), .unit, sp.setTx id (some sp.last), hist, ?_, ⟨rfl, rfl⟩,
      h.set id ⟨_, ht', h.last.symm⟩⟩
    simp only [step, e2, Res.bind_ok, e3, Res.pure_eq]
  | txRoot id =>
    obtain ⟨tx, t, e1, e2, ht, hc⟩ := h.tx ha
    obtain ⟨tx', e3, ht'⟩ := txRoot_ok ht
    refine ⟨s.setTx id (some tx'), .hash (t.hash E.H), sp, hist, ?_, ⟨_, _, hc, .of_tree ht.top, rfl, rfl⟩,
      h.keep hc ht' rfl⟩
    simp only [step, e2, Res.bind_ok, e3, Res.pure_eq]
  | txInject id r =>
    obtain ⟨tx, t, e1, e2, ht, hc⟩ := h.tx ha
    obtain ⟨db', tx', x, e3, hd, hs, hcase⟩ := txInject_ok hE h.db ht r
    have hsim := h.withDb hd hs
    simp only [step, e2, Res.bind_ok, e3, Res.pure_eq]
    rcases hcase with ⟨t', rfl, ht', hh, htx'⟩ | ⟨rfl, rfl, hn⟩
    · exact ⟨_, _, sp.setTx id (some t'.find), hist, rfl, Or.inl ⟨_, h.snapshot.2 ⟨t', ht', rfl, hh⟩, rfl, rfl⟩,
        hsim.set id ⟨t', htx', rfl⟩⟩
    · refine ⟨_, _, sp, hist, rfl, Or.inr ⟨fun c hc => ?_, rfl, rfl⟩,
        hsim.keep hc (ht.files hs.store.files) rfl⟩
      obtain ⟨t', ht', _, hh⟩ := h.snapshot.1 hc
      exact hn t' ht' hh
  | get id k =>
    obtain ⟨tx, t, e1, e2, ht, hc⟩ := h.tx ha
    obtain ⟨r, er, hr⟩ := lookup_getRet (t := t) (k := k)
    refine ⟨s, Ret.ofBytes r, sp, hist, ?_, ⟨_, hc, hr, rfl⟩, h⟩
    simp only [step, e2, Res.bind_ok, txGet_ok h.db ht, er, Res.pure_eq]
  | has id k =>
    obtain ⟨tx, t, e1, e2, ht, hc⟩ := h.tx ha
    obtain ⟨r, er, hr⟩ := lookup_hasRet (t := t) (k := k)
    refine ⟨s, Ret.ofUnit r, sp, hist, ?_, ⟨_, hc, hr, rfl⟩, h⟩
    simp only [step, e2, Res.bind_ok, txHas_ok h.db ht, er, Res.pure_eq]
  | insert id k v =>
    obtain ⟨tx, t, e1, e2, ht, hc⟩ := h.tx ha
    by_cases hv : v.length ≤ 1023
    · obtain ⟨tx', e3, ht'⟩ := txInsert_ok h.db ht k hv
      refine ⟨s.setTx id (some tx'), .unit, sp.setTx id (some (Contents.set t.find k (some v))), hist, ?_,
        ⟨_, _, hc, ?_, rfl⟩, h.set id ⟨_, ht', (Top.insert ht.top k v).2⟩⟩
      · simp only [step, e2, Res.bind_ok, e3, Res.pure_eq]; rfl
      · rw [InsertTo, if_pos hv]; exact ⟨rfl, rfl⟩
    · refine ⟨s.setTx id (some tx), .fail .EINVAL, sp.setTx id (some t.find), hist, ?_,
        ⟨_, _, hc, ?_, rfl⟩, h.set id ⟨_, ht, rfl⟩⟩
      · simp only [step, e2, Res.bind_ok, txInsert_big (Nat.lt_of_not_le hv), Res.pure_eq]; rfl
      · rw [InsertTo, if_neg hv]; exact ⟨rfl, rfl⟩
  | remove id k =>
    obtain ⟨tx, t, e1, e2, ht, hc⟩ := h.tx ha
    have hr := txRemove_ok h.db ht k
    cases hf : t.find k with
    | none =>
      rw [hf] at hr
      refine ⟨s.setTx id (some tx), .fail .ENOTFOUND, sp.setTx id (some t.find), hist, ?_,
        ⟨_, _, hc, ?_, rfl⟩, h.set id ⟨_, ht, rfl⟩⟩
      · simp only [step, e2, Res.bind_ok, hr, Res.pure_eq]; rfl
      · rw [RemoveTo, hf]; exact ⟨rfl, rfl⟩
    | some v =>
      rw [hf] at hr
      obtain ⟨tx', e3, ht'⟩ := hr
      refine ⟨s.setTx id (some tx'), .unit, sp.setTx id (some (Contents.set t.find k none)), hist, ?_,
        ⟨_, _, hc, ?_, rfl⟩, h.set id ⟨_, ht', (Top.remove ht.top hf).2⟩⟩
      · simp only [step, e2, Res.bind_ok, e3, Res.pure_eq]; rfl
      · rw [RemoveTo, hf]; exact ⟨rfl, rfl⟩
  | prove id k =>
    obtain ⟨tx, t, e1, e2, ht, hc⟩ := h.tx ha
    obtain ⟨tx', raw, e3, ht', hraw, _⟩ := txProve_ok h.db ht k
    refine ⟨s.setTx id (some tx'), .bytes raw, sp, hist, ?_, ⟨_, _, hc, rfl, ?_, rfl⟩, h.keep hc ht' rfl⟩
    · simp only [step, e2, Res.bind_ok, e3, catchErr, Res.pure_eq]; rfl
    · rw [hraw]; exact goodProof ht.top ht.vals k
  | commit id =>
    obtain ⟨tx0, etx, hcan⟩ := ha
    obtain ⟨tx, t, e1, e2, ht, hc⟩ := h.tx (id := id) (by rw [etx]; simp)
    rw [etx] at e1; cases e1
    obtain ⟨hv, hcap⟩ := canCommit_tree h.db ht hcan
    obtain ⟨db', tx', e3, hd, ht', hcm, hh, _⟩ := txCommit_ok hE h.db ht hv hcap
    obtain ⟨sp', c1, c2, c3⟩ := h.commit hd hcm.ext hh ht.top
    refine ⟨_, .unit, sp', t :: hist, ?_, ⟨_, hc, rfl, c1⟩, c3.keep (id := id) (tx := tx') (by rw [c2]; exact hc) ht' rfl⟩
    simp only [step, e2, Res.bind_ok, e3, Res.pure_eq]; rfl
  | reopen rand =>
    obtain ⟨db', e, hd, _, _, hh, _⟩ := reopen_ok hE h.db ha rand
    refine ⟨⟨db', fun _ => none⟩, .unit, ⟨sp.hist, db'.hash, fun _ => none⟩, hist, ?_,
      ⟨rfl, _, ?_, rfl⟩, hd, h.hist, rfl, fun _ => trivial⟩
    · simp only [step, e, Res.bind_ok, Res.pure_eq]
    · rw [h.last, hh]; exact .of_tree (h.db.top (SInv.head_mem hist))
  | get1 k r =>
    obtain ⟨db', x, e, hs, _, hc⟩ := create_read hE h r
    rcases hc with ⟨tx, t, rfl, htx, hsn⟩ | ⟨rfl, hn⟩
    · obtain ⟨y, er, hr⟩ := lookup_getRet (t := t) (k := k)
      refine ⟨{ s with db := db' }, Ret.ofBytes y, sp, hist, ?_, ⟨Or.inl ⟨_, hsn, hr⟩, rfl⟩, hs⟩
      simp only [step, urkelGet, e, Res.bind_ok, txGet_ok hs.db htx, er, txDestroy_ok htx, Res.pure_eq]
    · refine ⟨{ s with db := db' }, .fail .ENOTFOUND, sp, hist, ?_, ⟨Or.inr ⟨hn, rfl⟩, rfl⟩, hs⟩
      simp only [step, urkelGet, e, Res.bind_ok, Res.pure_eq]; rfl
  | has1 k r =>
    obtain ⟨db', x, e, hs, _, hc⟩ := create_read hE h r
    rcases hc with ⟨tx, t, rfl, htx, hsn⟩ | ⟨rfl, hn⟩
    · obtain ⟨y, er, hr⟩ := lookup_hasRet (t := t) (k := k)
      refine ⟨{ s with db := db' }, Ret.ofUnit y, sp, hist, ?_, ⟨Or.inl ⟨_, hsn, hr⟩, rfl⟩, hs⟩
      simp only [step, urkelHas, e, Res.bind_ok, txHas_ok hs.db htx, er, txDestroy_ok htx, Res.pure_eq]
    · refine ⟨{ s with db := db' }, .fail .ENOTFOUND, sp, hist, ?_, ⟨Or.inr ⟨hn, rfl⟩, rfl⟩, hs⟩
      simp only [step, urkelHas, e, Res.bind_ok, Res.pure_eq]; rfl
  | prove1 k r =>
    obtain ⟨db', x, e, hs, _, hc⟩ := create_read hE h r
    rcases hc with ⟨tx, t, rfl, htx, hsn⟩ | ⟨rfl, hn⟩
    · obtain ⟨tx', raw, e3, ht', hraw, _⟩ := txProve_ok hs.db htx k
      refine ⟨{ s with db := db' }, .bytes raw, sp, hist, ?_, ⟨Or.inl ⟨_, hsn, raw, rfl, ?_⟩, rfl⟩, hs⟩
      · simp only [step, urkelProve, e, Res.bind_ok, e3, catchErr, txDestroy_ok ht', Res.pure_eq]; rfl
      · rw [hraw]; exact goodProof htx.top htx.vals k
    · refine ⟨{ s with db := db' }, .fail .ENOTFOUND, sp, hist, ?_, ⟨Or.inr ⟨hn, rfl⟩, rfl⟩, hs⟩
      simp only [step, urkelProve, e, Res.bind_ok, Res.pure_eq]; rfl
  | insert1 k v =>
    obtain ⟨hlen, hcan⟩ := ha
    obtain ⟨db', tx, t, ks, e, hs, htx, hsn, hv, hk, hroom⟩ := canCommit1_tree hE h hcan
    rcases hlen with hlen | hlen
    · obtain ⟨tx', e3, ht'⟩ := txInsert_ok hs.db htx k (v := v) (by omega)
      obtain ⟨it, ifd⟩ := Top.insert htx.top k v
      obtain ⟨db2, tx2, sp', e4, e5, c1, c2⟩ := oneShot_commit hE hs ht' (ks := k :: ks)
        (vals_set htx.top it ifd hv (by rintro _ ⟨⟩; exact hlen))
        (fun k' hk' => by
          rw [ifd, Contents.set_apply] at hk'
          split at hk'
          · next e => simp [e]
          · exact List.mem_cons_of_mem _ (hk k' hk'))
        (by simpa using hroom)
      refine ⟨{ s with db := db2 }, .unit, sp', _, ?_, ⟨_, _, hsn, ?_, fun _ => ifd ▸ c1, fun h => (h rfl).elim⟩, c2⟩
      · simp only [step, urkelInsert, e, Res.bind_ok, e3, e4, e5, Res.pure_eq]; rfl
      · rw [InsertTo, if_pos (by omega)]; exact ⟨rfl, rfl⟩
    · refine ⟨{ s with db := db' }, .fail .EINVAL, sp, hist, ?_, ⟨_, t.find, hsn, ?_, fun h => (nomatch h), fun _ => rfl⟩, hs⟩
      · simp only [step, urkelInsert, e, Res.bind_ok, txInsert_big hlen, txDestroy_ok htx, Res.pure_eq]; rfl
      · rw [InsertTo, if_neg (by omega)]; exact ⟨rfl, rfl⟩
  | remove1 k =>
    obtain ⟨db', tx, t, ks, e, hs, htx, hsn, hv, hk, hroom⟩ := canCommit1_tree hE h ha
    have hr := txRemove_ok hs.db htx k
    cases hf : t.find k with
    | none =>
      rw [hf] at hr
      refine ⟨{ s with db := db' }, .fail .ENOTFOUND, sp, hist, ?_, ⟨_, t.find, hsn, ?_, fun h => (nomatch h), fun _ => rfl⟩, hs⟩
      · simp only [step, urkelRemove, e, Res.bind_ok, hr, txDestroy_ok htx, Res.pure_eq]; rfl
      · rw [RemoveTo, hf]; exact ⟨rfl, rfl⟩
    | some v =>
      rw [hf] at hr
      obtain ⟨tx', e3, ht'⟩ := hr
      obtain ⟨it, ifd⟩ := Top.remove htx.top hf
      obtain ⟨db2, tx2, sp', e4, e5, c1, c2⟩ := oneShot_commit hE hs ht' (ks := k :: ks)
        (vals_set htx.top it ifd hv (by simp))
        (fun k' hk' => by
          rw [ifd, Contents.set_apply] at hk'
          split at hk'
          · next e => simp [e]
          · exact List.mem_cons_of_mem _ (hk k' hk'))
        (by simpa using hroom)
      refine ⟨{ s with db := db2 }, .unit, sp', _, ?_, ⟨_, _, hsn, ?_, fun _ => ifd ▸ c1, fun h => (h rfl).elim⟩, c2⟩
      · simp only [step, urkelRemove, e, Res.bind_ok, e3, e4, e5, Res.pure_eq]; rfl
      · rw [RemoveTo, hf]; exact ⟨rfl, rfl⟩

theorem start_sim {E : Env} {s : Sys} (h : Started E s) : Sim E s SpecDb.new [] := by
  obtain ⟨rand, d, db, e, rfl⟩ := h
  obtain ⟨s', e1, i, k, f, rh⟩ := open_empty (E := E) (d := Dir.fresh) (rand := rand) (key := rand) rfl
    (by intro j f n h; simp [Dir.fresh] at h) (by intro j f n h; simp [Dir.fresh] at h)
  simp only [dbOpen, e1, Res.bind_ok, Res.pure_eq, Res.ok.injEq, Prod.mk.injEq, Except.ok.injEq] at e
  obtain ⟨_, rfl⟩ := e
  exact ⟨⟨i, ⟨.null, by simp, rh.symm⟩, fun _ => rh⟩, rfl, rh.symm, fun _ => trivial⟩

theorem started_exists (E : Env) (rand : B32) : ∃ s, Started E s ∧ s.db.store.key = rand ∧ s.db.store.files = [[]] := by
  obtain ⟨s', e1, i, k, f, rh⟩ := open_empty (E := E) (d := Dir.fresh) (rand := rand) (key := rand) rfl
    (by intro j f n h; simp [Dir.fresh] at h) (by intro j f n h; simp [Dir.fresh] at h)
  exact ⟨⟨⟨s', rootHash s', false⟩, fun _ => none⟩, ⟨rand, _, _, by simp only [dbOpen, e1, Res.bind_ok, Res.pure_eq]; rfl, rfl⟩, k, f⟩

theorem exec_sim {E : Env} (hE : EnvOk E) {tr : List (Op × Ret)} {s : Sys} (h : Exec E tr s) :
    ∃ sp hist, SpecExec E.H SpecDb.new tr sp ∧ Sim E s sp hist := by
  induction h with
  | start hs => exact ⟨_, _, .nil _, start_sim hs⟩
  | step _ ha hstep ih =>
    obtain ⟨sp, hist, h1, h2⟩ := ih
    obtain ⟨s2, r2, sp', hist', e, h3, h4⟩ := step_sim hE h2 _ ha
    rw [hstep] at e
    cases e
    exact ⟨sp', hist', .snoc h1 h3, h4⟩

theorem Reachable.sim {E : Env} (hE : EnvOk E) {s : Sys} (h : Reachable E s) : ∃ sp hist, Sim E s sp hist := by
  obtain ⟨tr, h⟩ := h
  obtain ⟨sp, hist, _, h⟩ := exec_sim hE h
  exact ⟨sp, hist, h⟩

end Urkel
