import Verif.Lemmas.Concrete
/-
C29: what a failed commit leaves, and the concrete cases beside C25 and C28.
-/
namespace Urkel
open PTree

/-- The database with the next system calls decided by `fs`. -/
def Db.under (db : Db) (fs : List (Option Fault)) : Db := { db with store := { db.store with faults := fs } }

/-- What the kernel finds when it runs a commit whose first write stops after five
bytes, then a second commit by a new transaction, then a read and a reopen. -/
def retryCheck : Bool :=
  match txCommit toyEnv (db0.under [some (.writeFail 5)]) (leafTx (keyOf 1) [7]) with
  | .ok (db1, ⟨none⟩, .error .EBADWRITE) =>
    decide (db1.store.faults = [] ∧ db1.revert = false ∧ db1.store.state.rootNode = .null) &&
    match txCommit toyEnv db1 (leafTx (keyOf 2) [9]) with
    | .ok (db2, tx2, .ok ()) =>
      decide (txGet db2 tx2 (keyOf 2) = .err .ECORRUPTION) &&
      match dbOpen toyEnv db2.dir B32.zero with
      | .ok (_, .ok db3) => decide (db3.hash = B32.zero ∧ db3.revert = false ∧ db3.store.state.rootNode = .null)
      | _ => false
    | _ => false
  | _ => false

theorem failed_once : ∃ db1, txCommit toyEnv (db0.under [some (.writeFail 5)]) (leafTx (keyOf 1) [7]) =
      .ok (db1, ⟨none⟩, .error .EBADWRITE) ∧
    db1.store.faults = [] ∧ db1.revert = false ∧ db1.store.state.rootNode = .null ∧
    ∃ db2 tx2, txCommit toyEnv db1 (leafTx (keyOf 2) [9]) = .ok (db2, tx2, .ok ()) ∧
      txGet db2 tx2 (keyOf 2) = .err .ECORRUPTION ∧
      ∃ d db3, dbOpen toyEnv db2.dir B32.zero = .ok (d, .ok db3) ∧ db3.hash = B32.zero ∧ db3.revert = false ∧
        db3.store.state.rootNode = .null := by
  have h : retryCheck = true := by decide +kernel
  unfold retryCheck at h
  split at h
  · next db1 e1 =>
    rw [Bool.and_eq_true, decide_eq_true_eq] at h
    obtain ⟨⟨a, b, c⟩, h⟩ := h
    refine ⟨db1, e1, a, b, c, ?_⟩
    split at h
    · next db2 tx2 e2 =>
      rw [Bool.and_eq_true, decide_eq_true_eq] at h
      obtain ⟨d, h⟩ := h
      refine ⟨db2, tx2, e2, d, ?_⟩
      split at h
      · next d3 db3 e3 =>
        rw [decide_eq_true_eq] at h
        exact ⟨d3, db3, e3, h⟩
      · cases h
    · cases h
  · cases h

/-- C29 is false: whenever a commit fails, the transaction cannot be used any
more; even destroying it or committing it again is undefined behaviour (its root
has been freed), and a commit can fail (a `write` that fails is enough). -/
theorem C29_failed_commit_false :
    (∀ (E : Env) (db db' : Db) (tx tx' : Tx) (e : Err), txCommit E db tx = .ok (db', tx', .error e) →
      txDestroy tx' = .ub ∧ txCommit E db' tx' = .ub ∧ txRoot E tx' = .ub ∧ ∀ k, txGet db' tx' k = .ub) ∧
    ∃ (s : Sys) (tx : Tx) (fs : List (Option Fault)) (db' : Db) (tx' : Tx), Reachable toyEnv s ∧ s.txs 0 = some tx ∧
      CanCommit toyEnv s.db tx ∧ txCommit toyEnv (s.db.under fs) tx = .ok (db', tx', .error .EBADWRITE) := by
  constructor
  · intro E db db' tx tx' e h
    have : tx' = ⟨none⟩ := by
      unfold txCommit at h
      obtain ⟨n, _, h⟩ := Res.bind_eq_ok.1 h
      obtain ⟨⟨s, r⟩, _, h⟩ := Res.bind_eq_ok.1 h
      cases r with
      | none => cases h; rfl
      | some root =>
        simp only at h
        obtain ⟨⟨s, ok⟩, _, h⟩ := Res.bind_eq_ok.1 h
        cases ok with
        | false => cases h; rfl
        | true => cases h
    subst this
    exact ⟨rfl, rfl, rfl, fun _ => rfl⟩
  · obtain ⟨db', h, _⟩ := failed_once
    exact ⟨sys2 (keyOf 1) [7], leafTx (keyOf 1) [7], _, db', ⟨none⟩, (sys2_logged _ _ (by decide)).reachable, sys2_tx _ _,
      sys2_can _ _ (by decide), h⟩

/-- C29 is false in a second way: after a commit that failed because a `write`
stopped half way, a later commit by another transaction reports success, but
what it stored cannot be read (ECORRUPTION) and is gone after closing and
opening. All system calls after the first one succeed. -/
theorem C29_retry_false :
    ∃ (s : Sys) (tx tx' : Tx) (db1 : Db), Reachable toyEnv s ∧ s.txs 0 = some tx ∧ CanCommit toyEnv s.db tx ∧
      txCommit toyEnv (s.db.under [some (.writeFail 5)]) tx = .ok (db1, tx', .error .EBADWRITE) ∧ db1.store.faults = [] ∧
      ∃ (k : B32) (v : Bytes) (t1 t2 t3 : Tx) (db2 : Db),
        txCreate toyEnv db1 none = .ok (db1, .ok t1) ∧ txInsert toyEnv db1 t1 k v = .ok (t2, .ok ()) ∧
        txCommit toyEnv db1 t2 = .ok (db2, t3, .ok ()) ∧ txGet db2 t3 k = .err .ECORRUPTION ∧
        ∃ (d : Dir) (db3 : Db) (t4 : Tx), dbOpen toyEnv db2.dir B32.zero = .ok (d, .ok db3) ∧
          txCreate toyEnv db3 none = .ok (db3, .ok t4) ∧ txGet db3 t4 k = .err .ENOTFOUND := by
  obtain ⟨db1, e1, hf, hr, hn, db2, tx2, e2, hg, d, db3, e3, hh, hr3, hn3⟩ := failed_once
  refine ⟨sys2 (keyOf 1) [7], leafTx (keyOf 1) [7], ⟨none⟩, db1, (sys2_logged _ _ (by decide)).reachable, sys2_tx _ _,
    sys2_can _ _ (by decide), e1, hf, keyOf 2, [9], ⟨some .null⟩, leafTx (keyOf 2) [9], tx2, db2, ?_, ?_, e2, hg,
    d, db3, ⟨some .null⟩, e3, ?_, ?_⟩
  · simp only [txCreate, hr, hn]; rfl
  · exact txInsert_null db1 _ _ (by decide)
  · simp only [txCreate, hr3, hn3]; rfl
  · have : ∀ f, treeGet db3.store (keyOf 2) true (f + 1) .null 0 = .err .ENOTFOUND := fun _ => rfl
    simp only [txGet, Tx.node, Res.bind_ok]
    exact this 599

/-- C29, as far as it is true: whatever fails during a commit, if it returns 0
then the error is EBADWRITE, `urkel_root` reports the same root, every other
transaction shows the same contents, and exactly the same roots can be opened,
with the same contents, as if the commit had not been tried. Missing: the
transaction itself and later commits, for which the claim is false
(`C29_failed_commit_false`, `C29_retry_false`). -/
theorem C29_failed_commit_partial {E : Env} (hE : EnvOk E) {log : List (B32 × Contents)} {s : Sys} (hl : Logged E log s)
    {id : Nat} {tx : Tx} (hid : s.txs id = some tx) (hc : CanCommit E s.db tx) (fs : List (Option Fault))
    {dbf : Db} {txf : Tx} {e : Err} (h : txCommit E (s.db.under fs) tx = .ok (dbf, txf, .error e)) :
    e = .EBADWRITE ∧ dbRoot dbf = dbRoot s.db ∧
    (∀ i t c, s.txs i = some t → Shows s.db t c → Shows dbf t c) ∧
    (∀ h c, (h, c) ∈ (B32.zero, Contents.empty) :: log →
      ∃ db' t c', txCreate E dbf (some h) = .ok (db', .ok t) ∧ Shows db' t c' ∧ (c' = c ∨ TreesCollide E.H c c')) ∧
    (∀ h, (∀ c, (h, c) ∉ (B32.zero, Contents.empty) :: log) → ∃ db', txCreate E dbf (some h) = .ok (db', .error .ENOTFOUND)) ∧
    (∀ db1 t1 c, txCreate E s.db none = .ok (db1, .ok t1) → Shows db1 t1 c →
      ∃ db2 t2 c', txCreate E dbf none = .ok (db2, .ok t2) ∧ Shows db2 t2 c' ∧ (c' = c ∨ TreesCollide E.H c c')) := by
  obtain ⟨sp, hist, hs, e1, e2⟩ := hl.sim hE
  obtain ⟨hist', t, hd0, ht⟩ := hl.reachable.tree hE hid
  have hd := hs.db
  obtain ⟨hv, hcap⟩ := canCommit_tree hd0 ht hc
  obtain ⟨db2, tx2, e3, _, _, hcm, _⟩ := txCommit_ok hE hd0 ht hv hcap
  have hf : s.db.store.faults = [] := by
    obtain ⟨_, _, i, _⟩ := hd.inv.slab
    exact i.faults
  rcases txCommit_faults hd.inv.slab.sok hf e3 fs with ⟨fs', a⟩ | ⟨s', a, b⟩
  · have := h.symm.trans a
    cases this
  · have := h.symm.trans a
    cases this
    have hri := hd.inv.readable.broke b
    have hshow : ∀ (st : Store) (tx : Tx) (n : Node) (t : PTree), Repr E.H st.rd n t → t.Top → tx.root = some n →
        Shows { s.db with store := st } tx t.find := by
      intro st tx n t hr htop hn k
      simp only [txGet, Tx.node, hn, Res.bind_ok]
      have := treeGet_ok k true treeFuel hr (p := []) htop List.nil_prefix (Top.cost_le htop n)
      rw [← lookup_read]
      exact this
    refine ⟨rfl, rfl, ?_, ?_, ?_, ?_⟩
    · intro i t c hi hsh
      obtain ⟨t', tr, h1, _, htx, _⟩ := hs.tx (id := i) (by rw [hi]; simp)
      rw [hi] at h1; cases h1
      rw [← htx.find_eq hd hsh]
      obtain ⟨n, hn, hr, htop, _⟩ := htx
      rw [← rd_of hd] at hr
      exact hshow s' t n tr (hr.mono b.rd) htop hn
    · intro h c hm
      obtain ⟨s2, r, e4, hri2, hsd, hsome, hnone⟩ := readHistory_readable hE h hri
      have hsn := (hs.snapshot_log e1 e2).2 hm
      obtain ⟨t0, hmem, hf0, hh0⟩ := hs.snapshot.1 hsn
      cases r with
      | none => exact (hnone rfl t0 hmem hh0).elim
      | some n =>
        obtain ⟨t1, hm1, hh1, hroot⟩ := hsome n rfl
        refine ⟨{ s.db with store := s2 }, ⟨some n⟩, t1.find, ?_, ?_, ?_⟩
        · simp only [txCreate, e4, Res.bind_ok, Res.pure_eq]
        · refine hshow s2 ⟨some n⟩ n t1 ?_ (hd.top hm1) rfl
          obtain ⟨_, _, rfl⟩ := hsd
          exact hroot.repr
        · have h1 : IsRoot E.H t1.find h := ⟨t1, hd.top hm1, rfl, hh1⟩
          exact hsn.2.binds h1
    · intro h hno
      obtain ⟨s2, r, e4, hri2, hsd, hsome, hnone⟩ := readHistory_readable hE h hri
      cases r with
      | none =>
        refine ⟨{ s.db with store := s2 }, ?_⟩
        simp only [txCreate, e4, Res.bind_ok, Res.pure_eq]
      | some n =>
        obtain ⟨t1, hm1, hh1, hroot⟩ := hsome n rfl
        exact (hno t1.find ((hs.snapshot_log e1 e2).1 (hs.snapshot.2 ⟨t1, hm1, rfl, hh1⟩))).elim
    · intro db1 t1 c ec hsh
      obtain ⟨db', r, ec', hd', hsame, hcs⟩ := txCreate_ok hE hd none
      rw [ec] at ec'; cases ec'
      rcases hcs with ⟨tx', t', hr, hm, hh, htx, hrev⟩ | ⟨hr, _⟩
      · cases hr
        have hfe := htx.find_eq hd' hsh
        by_cases hrv : s.db.revert = true
        · obtain ⟨s2, r, e4, hri2, hsd, hsome, hnone⟩ := readHistory_readable hE s.db.hash hri
          cases r with
          | none => exact (hnone rfl t' hm hh).elim
          | some n =>
            obtain ⟨t2, hm2, hh2, hroot⟩ := hsome n rfl
            refine ⟨{ s.db with store := s2 }, ⟨some n⟩, t2.find, ?_, ?_, ?_⟩
            · simp only [txCreate]
              rw [if_pos hrv]
              simp only [e4, Res.bind_ok, Res.pure_eq]
            · refine hshow s2 ⟨some n⟩ n t2 ?_ (hd.top hm2) rfl
              obtain ⟨_, _, rfl⟩ := hsd
              exact hroot.repr
            · have h1 : IsRoot E.H t2.find s.db.hash := ⟨t2, hd.top hm2, rfl, hh2⟩
              have h2 : IsRoot E.H c s.db.hash := ⟨t', hd.top hm, hfe, hh⟩
              exact h2.binds h1
        · have ht' := hrev rfl (by simpa using hrv)
          refine ⟨{ s.db with store := s' }, ⟨some s'.state.rootNode⟩, t'.find, ?_, ?_, Or.inl hfe⟩
          · simp only [txCreate]
            rw [if_neg hrv]
          · refine hshow s' _ s'.state.rootNode t' ?_ (hd.top hm) rfl
            rw [ht']
            exact hri.root.repr
      · cases hr

example : ∃ (s : Sys) (tx : Tx) (db1 : Db) (tx' : Tx), Logged toyEnv [] s ∧ s.txs 0 = some tx ∧ CanCommit toyEnv s.db tx ∧
    txCommit toyEnv (s.db.under [some (.writeFail 5)]) tx = .ok (db1, tx', .error .EBADWRITE) := by
  obtain ⟨db1, e1, _⟩ := failed_once
  exact ⟨sys2 (keyOf 1) [7], leafTx (keyOf 1) [7], db1, _, sys2_logged _ _ (by decide), sys2_tx _ _, sys2_can _ _ (by decide), e1⟩

/-! ### Concrete cases beside C25 and C28 -/

/-- The files after the first commit of one pair. -/
def firstFiles : List Bytes :=
  match txCommit toyEnv db0 (leafTx (keyOf 1) [7]) with
  | .ok (db, _, .ok ()) => db.store.files
  | _ => []

/-- C25 applies to a crash after 50 of the bytes of a first commit. -/
example : ∃ (s : Sys) (tx : Tx) (c : Contents) (db' : Db) (tx' : Tx) (F : List Bytes), Logged toyEnv [] s ∧ s.txs 0 = some tx ∧
    CanCommit toyEnv s.db tx ∧ Shows s.db tx c ∧ Aligned s.db ∧ txCommit toyEnv s.db tx = .ok (db', tx', .ok ()) ∧
    CrashImage s.db.store.files db'.store.files F ∧ OnlyOwnRecord toyEnv s.db.store.key s.db.store.files db'.store.files ∧
    F ≠ s.db.store.files ∧ F ≠ db'.store.files := by
  have hlen : firstFiles = [(firstFiles.getD 0 []).take 50 ++ (firstFiles.getD 0 []).drop 50] ∧ (firstFiles.getD 0 []).length = 114 := by
    decide +kernel
  set_option synthInstance.maxHeartbeats 200000 in
  set_option synthInstance.maxSize 1000 in
  have hown : OnlyOwnRecord toyEnv B32.zero [[]] firstFiles := onlyOwn_of (by decide +kernel)
  obtain ⟨hist, t, hd, ht⟩ := (sys2_logged (keyOf 1) [7] (by decide)).reachable.tree toyEnv_ok (sys2_tx _ _)
  have hcan := sys2_can (keyOf 1) [7] (by decide)
  have hlg := sys2_logged (keyOf 1) [7] (by decide)
  have hsh := sys2_shows (keyOf 1) [7] (by decide)
  obtain ⟨hv, hcap⟩ := canCommit_tree hd ht hcan
  obtain ⟨db', tx', e, _, _, _⟩ := txCommit_ok toyEnv_ok hd ht hv hcap
  have hff : firstFiles = db'.store.files := by
    unfold firstFiles
    rw [show txCommit toyEnv db0 (leafTx (keyOf 1) [7]) = _ from e]
  refine ⟨sys2 (keyOf 1) [7], leafTx (keyOf 1) [7], _, db', tx', [(firstFiles.getD 0 []).take 50],
    hlg, sys2_tx _ _, hcan, hsh, ?_, e, ⟨?_, ?_⟩, ?_, ?_, ?_⟩
  · exact Or.inl rfl
  · exact Or.inr ⟨[], [], (firstFiles.getD 0 []).take 50, [], rfl, by simp only [List.nil_append, List.append_nil]⟩
  · refine Or.inr ⟨[], (firstFiles.getD 0 []).take 50, (firstFiles.getD 0 []).drop 50, [], rfl, ?_⟩
    rw [← hff]; exact hlen.1
  · rw [← hff]; exact hown
  · decide +kernel
  · rw [← hff]; decide +kernel

/-- A program to which C28 applies: it creates, inserts and commits; the write stops half way. -/
example : ∃ s', Calls toyEnv ⟨db0.under [some (.writeFail 5)], fun _ => none⟩ [.create 0 none, .insert 0 (keyOf 1) [7], .commit 0] s' ∧
    s'.db.store.files = [[7, 2, 2, 0, 0]] := by
  have hrun : ∃ db1 tx1, txCommit toyEnv (db0.under [some (.writeFail 5)]) (leafTx (keyOf 1) [7]) = .ok (db1, tx1, .error .EBADWRITE) ∧
      db1.store.files = [[7, 2, 2, 0, 0]] := by
    obtain ⟨db1, e1, _⟩ := failed_once
    refine ⟨db1, _, e1, ?_⟩
    have : (match txCommit toyEnv (db0.under [some (.writeFail 5)]) (leafTx (keyOf 1) [7]) with
      | .ok (db, _, _) => decide (db.store.files = [[7, 2, 2, 0, 0]]) | _ => false) = true := by decide +kernel
    rw [e1] at this
    simpa using this
  obtain ⟨db1, tx1, e1, hf⟩ := hrun
  let s : Sys := ⟨db0.under [some (.writeFail 5)], fun _ => none⟩
  have a : step toyEnv s (.create 0 none) = .ok (s.setTx 0 (some ⟨some .null⟩), .unit) := rfl
  have b : step toyEnv (s.setTx 0 (some ⟨some .null⟩)) (.insert 0 (keyOf 1) [7]) =
      .ok ((s.setTx 0 (some ⟨some .null⟩)).setTx 0 (some (leafTx (keyOf 1) [7])), .unit) := by
    have h0 : (s.setTx 0 (some ⟨some .null⟩)).tx 0 = .ok ⟨some .null⟩ := rfl
    simp only [step, h0, Res.bind_ok]
    rw [txInsert_null _ _ _ (by decide)]
    rfl
  have c : ∃ s', step toyEnv ((s.setTx 0 (some ⟨some .null⟩)).setTx 0 (some (leafTx (keyOf 1) [7]))) (.commit 0) =
      .ok (s', .fail .EBADWRITE) ∧ s'.db = db1 := by
    have h0 : ((s.setTx 0 (some ⟨some .null⟩)).setTx 0 (some (leafTx (keyOf 1) [7]))).tx 0 = .ok (leafTx (keyOf 1) [7]) := rfl
    have h1 : ((s.setTx 0 (some ⟨some .null⟩)).setTx 0 (some (leafTx (keyOf 1) [7]))).db = db0.under [some (.writeFail 5)] := rfl
    simp only [step, h0, Res.bind_ok, h1, e1]
    exact ⟨_, rfl, rfl⟩
  obtain ⟨s', c, hs'⟩ := c
  exact ⟨s', .cons (op := .create 0 none) a (.cons (op := .insert 0 (keyOf 1) [7]) b (.cons (op := .commit 0) c (.nil _))), by rw [hs', hf]⟩

end Urkel
