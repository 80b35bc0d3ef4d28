import Verif.Props.Durable
import Verif.Lemmas.Idem
/-
C24-C28: history across sessions, crashes, recovery, append-only files.
-/
namespace Urkel
open PTree

/-- C24, as far as it is true: after closing and opening, the roots that can be
opened by hash are exactly those that could before, with the same contents
(unless two committed trees collide under the hash). Missing: see
`C23_reopen_partial`; for misaligned databases the claim is false
(`C24_history_false`). -/
theorem C24_history_partial {E : Env} (hE : EnvOk E) {log : List (B32 × Contents)} {s : Sys} (hl : Logged E log s)
    (hal : Aligned s.db) (rand : B32) :
    ∃ db', dbOpen E s.db.dir rand = .ok (s.db.dir, .ok db') ∧
      (∀ h c, (h, c) ∈ (B32.zero, Contents.empty) :: log →
        ∃ db'' tx c', txCreate E db' (some h) = .ok (db'', .ok tx) ∧ Shows db'' tx c' ∧ (c' = c ∨ TreesCollide E.H c c')) ∧
      (∀ h db1 tx1 c, txCreate E s.db (some h) = .ok (db1, .ok tx1) → Shows db1 tx1 c →
        ∃ db'' tx c', txCreate E db' (some h) = .ok (db'', .ok tx) ∧ Shows db'' tx c' ∧ (c' = c ∨ TreesCollide E.H c c')) ∧
      (∀ h db1, txCreate E s.db (some h) = .ok (db1, .error .ENOTFOUND) →
        ∃ db'', txCreate E db' (some h) = .ok (db'', .error .ENOTFOUND)) := by
  obtain ⟨sp, hist, hs, e1, e2⟩ := hl.sim hE
  obtain ⟨db', e, hd', hf, hk, hh, hrv⟩ := reopen_ok hE hs.db (hal.mod hs.db) rand
  have e3 : step E s (.reopen rand) = .ok (⟨db', fun _ => none⟩, .unit) := by
    simp only [step, e, Res.bind_ok]; rfl
  have hl' : Logged E log ⟨db', fun _ => none⟩ :=
    .other (op := .reopen rand) hl (hal.mod hs.db) e3 (Or.inr fun c hc => hc.elim)
  have look : ∀ h c, (h, c) ∈ (B32.zero, Contents.empty) :: log →
        ∃ db'' tx c', txCreate E db' (some h) = .ok (db'', .ok tx) ∧ Shows db'' tx c' ∧ (c' = c ∨ TreesCollide E.H c c') := by
    intro h c hm
    obtain ⟨db'', tx, c', a, b, _, d⟩ := C19_snapshots hE hl' hm
    exact ⟨db'', tx, c', a, b, d⟩
  refine ⟨db', e, look, ?_, ?_⟩
  · intro h db1 tx1 c ec hsh
    obtain ⟨db2, r, ec', hs', _, hc⟩ := create_read hE hs (some h)
    rw [ec] at ec'; cases ec'
    rcases hc with ⟨tx, t, hr, ht, hsn⟩ | ⟨hr, _⟩
    · cases hr
      have hm := (hs.snapshot_log e1 e2).1 hsn
      rw [ht.find_eq hs'.db hsh] at hm
      exact look h c hm
    · cases hr
  · intro h db1 ec
    obtain ⟨db2, r, ec', hs', _, hc⟩ := create_read hE hs (some h)
    rw [ec] at ec'; cases ec'
    rcases hc with ⟨tx, t, hr, ht, hsn⟩ | ⟨_, hno⟩
    · cases hr
    · obtain ⟨sp2, hist2, hs2, f1, f2⟩ := hl'.sim hE
      obtain ⟨db3, r3, ec3, hs3, _, hc3⟩ := create_read hE hs2 (some h)
      rcases hc3 with ⟨tx, t, _, _, hsn⟩ | ⟨rfl, _⟩
      · exact (hno t.find ((hs.snapshot_log e1 e2).2 ((hs2.snapshot_log f1 f2).1 hsn))).elim
      · exact ⟨db3, ec3⟩

example : ∃ (s : Sys) (h1 h2 : B32), Logged toyEnv [(h2, demoC2), (h1, demoC1)] s ∧ Aligned s.db ∧
    (h1, demoC1) ∈ (B32.zero, Contents.empty) :: [(h2, demoC2), (h1, demoC1)] ∧ h1 ≠ h2 := by
  obtain ⟨s, h1, h2, g, hne, _⟩ := demo2
  exact ⟨s, h1, h2, g.logged, Or.inl g.one, by simp, hne⟩

/-- C24 is false: there is a history after which the newest root can be opened by
its hash and, after closing and opening, cannot (`H` is any hash under which the
committed tree does not hash to zero). -/
theorem C24_history_false {E : Env} (hE : EnvOk E) (hc : E.cfg = realCfg) (k rand : B32)
    (hz : ¬ IsRoot E.H (Contents.ofList [(k, [])]) B32.zero) :
    ∃ s h db1 tx d db' db'', Reachable E s ∧ txCreate E s.db (some h) = .ok (db1, .ok tx) ∧ txGet db1 tx k = .ok [] ∧
      dbOpen E s.db.dir rand = .ok (d, .ok db') ∧ txCreate E db' (some h) = .ok (db'', .error .ENOTFOUND) := by
  obtain ⟨log, s0, s3, hl, hle, hal, hl3, hrv, hopen, _⟩ := lost_commit hE hc k rand
  obtain ⟨sp3, hist3, hs3, f1, f2⟩ := hl3.sim hE
  have hroot : IsRoot E.H (Contents.ofList [(k, [])]) (dbRoot s3.db) := f2 (dbRoot s3.db, Contents.ofList [(k, [])]) (by simp)
  have hnz : dbRoot s3.db ≠ B32.zero := fun e => hz (e ▸ hroot)
  have hlogz : ∀ p ∈ log, p.1 = B32.zero := by
    intro p hp
    have := f2 p (by simp [hp])
    rw [hle p hp] at this
    exact ((IsRoot.iff (t := .null) (Or.inl rfl)).1 this).symm
  -- before closing
  obtain ⟨db1, r, e1, hs1, _, hc1⟩ := create_read hE hs3 (some (dbRoot s3.db))
  have hsn : sp3.Snapshot E.H (dbRoot s3.db) (Contents.ofList [(k, [])]) := (hs3.snapshot_log f1 f2).2 (by simp)
  rcases hc1 with ⟨tx, t, rfl, ht, hsn'⟩ | ⟨_, hno⟩
  · have hfind : t.find = Contents.ofList [(k, [])] := by
      have hm := (hs3.snapshot_log f1 f2).1 hsn'
      rcases List.mem_cons.1 hm with h | hm
      · exact (hnz (Prod.mk.inj h).1).elim
      rcases List.mem_cons.1 hm with h | hm
      · exact (Prod.mk.inj h).2
      · exact (hnz (hlogz _ hm)).elim
    obtain ⟨sp, hist, hs, g1, g2⟩ := hl.sim hE
    obtain ⟨db', e, hd', hf, hk, hh, hrv'⟩ := reopen_ok hE hs.db (hal.mod hs.db) rand
    have e3 : step E s0 (.reopen rand) = .ok (⟨db', fun _ => none⟩, .unit) := by
      simp only [step, e, Res.bind_ok]; rfl
    have hl' : Logged E log ⟨db', fun _ => none⟩ :=
      .other (op := .reopen rand) hl (hal.mod hs.db) e3 (Or.inr fun c hc => hc.elim)
    obtain ⟨sp4, hist4, hs4, i1, i2⟩ := hl'.sim hE
    obtain ⟨db'', r, e4, _, _, hc4⟩ := create_read hE hs4 (some (dbRoot s3.db))
    rcases hc4 with ⟨_, t4, _, _, hsn4⟩ | ⟨rfl, _⟩
    · have hm := (hs4.snapshot_log i1 i2).1 hsn4
      rcases List.mem_cons.1 hm with h | hm
      · exact (hnz (Prod.mk.inj h).1).elim
      · exact (hnz (hlogz _ hm)).elim
    · refine ⟨s3, dbRoot s3.db, db1, tx, _, db', db'', hl3.reachable, e1, ?_, hopen.trans e, e4⟩
      rw [ht.shows hs1.db k, hfind]
      simp [Contents.ofList, Contents.set, Contents.read]
  · exact (hno _ hsn).elim

/-- The toy hash never gives zero, so the hypothesis holds for it. -/
example (k : B32) : EnvOk toyEnv ∧ toyEnv.cfg = realCfg ∧ ¬ IsRoot toyEnv.H (Contents.ofList [(k, [])]) B32.zero := by
  refine ⟨toyEnv_ok, rfl, ?_⟩
  rintro ⟨t, ht, hf, hh⟩
  cases t with
  | null =>
    have := congrFun hf k
    simp [PTree.find, Contents.ofList, Contents.set] at this
  | leaf k' v =>
    have := congrArg (fun h : B32 => h.bytes.head?) hh
    simp [PTree.hash, toyEnv, B32.zero, List.replicate] at this
  | node pre l r =>
    have h1 : ∀ d, (toyEnv.H d).bytes.head? = some 1 := fun d => rfl
    have hz : B32.zero.bytes.head? = some 0 := rfl
    cases pre with
    | nil =>
      rw [PTree.hash] at hh
      have e : some (1 : UInt8) = some 0 := (h1 _).symm.trans ((congrArg (fun h : B32 => h.bytes.head?) hh).trans hz)
      exact absurd e (by decide)
    | cons b pre =>
      rw [PTree.hash] at hh
      have e : some (1 : UInt8) = some 0 := (h1 _).symm.trans ((congrArg (fun h : B32 => h.bytes.head?) hh).trans hz)
      exact absurd e (by decide)

/-! ### Crashes during a commit -/

/-- C25, as far as it is true. If the process stops while a commit is appending
to the files, whatever prefix of the new bytes has arrived (`F`), the next open
succeeds and the database is exactly as it was before the commit (same outcome
of opening, hence same root, contents and history, and the files are cut back to
the old ones), or the commit was complete and the database shows what was
committed. Missing: databases whose last commit record is already misaligned
(see `C23_reopen_false`). -/
theorem C25_crash_atomic_partial {E : Env} (hE : EnvOk E) {log : List (B32 × Contents)} {s : Sys} (hl : Logged E log s)
    {id : Nat} {tx : Tx} (hid : s.txs id = some tx) (hc : CanCommit E s.db tx) {c : Contents} (hsh : Shows s.db tx c)
    (hal : Aligned s.db) {db' : Db} {tx' : Tx} (e : txCommit E s.db tx = .ok (db', tx', .ok ()))
    {F : List Bytes} (himg : CrashImage s.db.store.files db'.store.files F)
    (hown : OnlyOwnRecord E s.db.store.key s.db.store.files db'.store.files) (rand : B32) :
    ∃ d db0 tx0, dbOpen E ⟨some s.db.store.key.bytes, F⟩ rand = .ok (d, .ok db0) ∧ txCreate E db0 none = .ok (db0, .ok tx0) ∧
      ((dbOpen E s.db.dir rand = .ok (d, .ok db0) ∧ d = s.db.dir ∧ dbRoot db0 = (log.map Prod.fst).headD B32.zero ∧
          Shows db0 tx0 ((log.map Prod.snd).headD Contents.empty)) ∨
       (F = db'.store.files ∧ d.files = F ∧ dbRoot db0 = dbRoot db' ∧ Shows db0 tx0 c)) := by
  obtain ⟨sp, hist, hs, e1, e2⟩ := hl.sim hE
  obtain ⟨tx1, t, h1, _, ht, _⟩ := hs.tx (id := id) (by rw [hid]; simp)
  rw [hid] at h1; cases h1
  obtain ⟨hv, hcap⟩ := canCommit_tree hs.db ht hc
  obtain ⟨db2, tx2, e3, hd2, ht2, hcm, hh, hrv⟩ := txCommit_ok hE hs.db ht hv hcap
  rw [e] at e3; cases e3
  by_cases hcase : F = db'.store.files ∧ lastLen db'.store.files % metaSize = 0
  · -- the commit was complete
    obtain ⟨rfl, hal2⟩ := hcase
    have es : step E s (.commit id) = .ok (({ s with db := db' } : Sys).setTx id (some tx'), .unit) := by
      simp only [step, Sys.tx, hid, Res.bind_ok, e, Res.pure_eq]; rfl
    have hl2 := Logged.commit (op := .commit id) hl ⟨tx, hid, hc⟩ es ⟨tx, hid, hsh⟩
    have hal3 : Aligned db' := by
      refine Or.inr ?_
      rw [List.getLastD_eq_getLast?]; exact hal2
    obtain ⟨db0, tx0, a, b, c1, d, _⟩ := C23_reopen_partial hE hl2 hal3 rand
    refine ⟨db'.dir, db0, tx0, ?_, c1, Or.inr ⟨rfl, rfl, b, d⟩⟩
    have : db'.dir = ⟨some s.db.store.key.bytes, db'.store.files⟩ := by unfold Db.dir; rw [hcm.key]
    rw [← this]; exact a
  · have hne : F ≠ db'.store.files ∨ lastLen db'.store.files % metaSize ≠ 0 := by
      by_cases h : F = db'.store.files
      · exact Or.inr fun h2 => hcase ⟨h, h2⟩
      · exact Or.inl h
    obtain ⟨c1, c2⟩ := image_clean himg hown hne
    have hal2 : lastLen s.db.store.files % metaSize = 0 := by
      have := hal.mod hs.db
      rw [List.getLastD_eq_getLast?] at this; exact this
    have himg2 : openStore E ⟨some s.db.store.key.bytes, F⟩ rand = openStore E s.db.dir rand := by
      refine open_image hE hs.db.inv hal2 himg.1 c1 (fun h => c2 ?_) _ rand (dir_key s.db rand)
      subst h
      exact hs.db.inv.no_commit
    obtain ⟨db0, tx0, a, b, c3, d, _⟩ := C23_reopen_partial hE hl hal rand
    refine ⟨s.db.dir, db0, tx0, ?_, c3, Or.inl ⟨a, rfl, b, d⟩⟩
    unfold dbOpen at a ⊢
    rw [himg2]; exact a

/-- The crash images above include everything that failing system calls can
leave: whatever fails during a commit, the files hold a prefix of what the
commit would have written, and all of it if it reports success. -/
theorem C25_faults_are_crashes {E : Env} (hE : EnvOk E) {s : Sys} (hr : Reachable E s) {id : Nat} {tx : Tx}
    (hid : s.txs id = some tx) (hc : CanCommit E s.db tx) {db' : Db} {tx' : Tx} (e : txCommit E s.db tx = .ok (db', tx', .ok ()))
    (fs : List (Option Fault)) :
    ∃ dbf txf r, txCommit E { s.db with store := { s.db.store with faults := fs } } tx = .ok (dbf, txf, r) ∧
      CrashImage s.db.store.files db'.store.files dbf.store.files ∧ (r = .ok () → dbf.store.files = db'.store.files) := by
  obtain ⟨hist, t, hd, ht⟩ := hr.tree hE hid
  have hf : s.db.store.faults = [] := by
    obtain ⟨_, _, i, _⟩ := hd.inv.slab
    exact i.faults
  obtain ⟨hv, hcap⟩ := canCommit_tree hd ht hc
  obtain ⟨db2, tx2, e3, _, _, hcm, _⟩ := txCommit_ok hE hd ht hv hcap
  rw [e] at e3; cases e3
  rcases txCommit_faults hd.inv.slab.sok hf e fs with ⟨fs', a⟩ | ⟨s', a, b⟩
  · exact ⟨_, _, _, a, ⟨hcm.ext, FExt.refl _⟩, fun _ => rfl⟩
  · exact ⟨_, _, _, a, ⟨b.from_old, b.to_new⟩, fun h => by cases h⟩

end Urkel
