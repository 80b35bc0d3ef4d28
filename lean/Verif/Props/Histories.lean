import Verif.Lemmas.Interrupt
import Verif.Props.Open
import Verif.Props.Failed
/-
C57: histories in which the process is killed any number of times.
-/
namespace Urkel
open PTree

theorem SameView.symm {E : Env} {a b : Db} (h : SameView E a b) : SameView E b a :=
  ⟨h.root.symm, fun tx k => (h.get tx k).symm, fun x r => (h.create x r).symm⟩

theorem SameView.trans {E : Env} {a b c : Db} (h1 : SameView E a b) (h2 : SameView E b c) : SameView E a c :=
  ⟨h2.root.trans h1.root, fun tx k => (h2.get tx k).trans (h1.get tx k), fun x r => (h2.create x r).trans (h1.create x r)⟩

theorem SameOutcome.symm {E : Env} {a b : Except Err Db} (h : SameOutcome E a b) : SameOutcome E b a := by
  cases a <;> cases b
  · exact Eq.symm h
  · exact h.elim
  · exact h.elim
  · exact SameView.symm h

theorem SameOutcome.trans {E : Env} {a b c : Except Err Db} (h1 : SameOutcome E a b) (h2 : SameOutcome E b c) : SameOutcome E a c := by
  cases a <;> cases b <;> cases c <;>
    first | exact Eq.trans h1 h2 | exact SameView.trans h1 h2 | exact h1.elim | exact h2.elim

/-- A killed `urkel_open`, at whatever moment and of whatever directory, is harmless: the
next open leaves the same directory and has the same outcome as if it had not been
started. -/
theorem C57_interrupted_open {E : Env} {d d' : Dir} {rand key : B32} {r : Except Err Db} (hk : d.key rand = some key)
    (h : dbOpen E d rand = .ok (d', r)) {F : List Bytes} (hc : OpenCut E key d.files F) (rand' : B32) :
    ∃ r', dbOpen E ⟨some (d.keyFile.getD rand.bytes), F⟩ rand' = .ok (d', r') ∧ SameOutcome E r r' := by
  obtain ⟨tr, et, hF⟩ := hc
  have h0 := h
  unfold dbOpen at h
  obtain ⟨⟨d1, r1⟩, e1, h⟩ := Res.bind_eq_ok.1 h
  have hd : d1 = d' := by cases r1 <;> cases h <;> rfl
  subst hd
  have e1' := e1
  rw [openStore_def E d rand hk] at e1
  obtain ⟨⟨st, lm, fs, idx⟩, e2, e1⟩ := Res.bind_eq_ok.1 e1
  obtain ⟨⟨lm', e3, h3⟩, _⟩ := trace_recover (Nat.le_refl _) rfl e2 et hF
  have hk' : Dir.key ⟨some (d.keyFile.getD rand.bytes), F⟩ rand' = some key := Dir.key_again hk F rand'
  by_cases hfs : fs = []
  · -- nothing was found
    subst hfs
    rcases recover_again (Nat.le_refl _) e2 with ⟨rfl, _, rfl⟩ | ⟨a, b, _⟩
    · have hd1 : d1 = ⟨some (d.keyFile.getD rand.bytes), [[]]⟩ := by
        simp only [List.length_nil, Nat.zero_lt_one, if_true, List.nil_append] at e1
        rw [storeReadRoot_null rfl] at e1
        simp only [Res.bind_ok, Res.pure_eq] at e1
        cases e1; rfl
      have e4 : ∃ s', openStore E ⟨some (d.keyFile.getD rand.bytes), F⟩ rand' = .ok (d1, some s') := by
        rw [openStore_def E _ rand' hk', e3, hd1]
        simp only [Res.bind_ok, List.length_nil, Nat.zero_lt_one, if_true, List.nil_append]
        rw [storeReadRoot_null rfl]
        exact ⟨_, rfl⟩
      obtain ⟨s', e4⟩ := e4
      have e5 : dbOpen E ⟨some (d.keyFile.getD rand.bytes), F⟩ rand' = .ok (d1, .ok ⟨s', rootHash s', false⟩) := by
        unfold dbOpen; rw [e4]; rfl
      refine ⟨_, e5, ?_⟩
      obtain ⟨ra, ea, sa⟩ := C26_recovery_idempotent h0 rand'
      obtain ⟨rb, eb, sb⟩ := C26_recovery_idempotent e5 rand'
      rw [ea] at eb; cases eb
      exact sa.trans sb.symm
    · simp at a; omega
  · refine ⟨r, ?_, ?_⟩
    · have : openStore E ⟨some (d.keyFile.getD rand.bytes), F⟩ rand' = openStore E d rand := by
        rw [openStore_def E _ rand' hk', openStore_def E d rand hk, e2, e3, h3 hfs]
        rfl
      unfold dbOpen
      rw [this, e1', Res.bind_ok]
      exact h
    · cases r with
      | error e => exact rfl
      | ok db => exact SameView.refl db

/-- An open that is killed after deleting one file. -/
example : ∃ F, OpenCut toyEnv B32.zero [[], [1, 2, 3]] F ∧ F ≠ [[], [1, 2, 3]] ∧
    (Dir.key ⟨some B32.zero.bytes, [[], [1, 2, 3]]⟩ B32.zero = some B32.zero) := by
  refine ⟨[[]], ⟨[[[]], [], [[]]], by decide +kernel, by decide⟩, by decide, by decide +kernel⟩

/-- The key of a database never changes. -/
theorem step_key {E : Env} {s s' : Sys} {op : Op} {r : Ret} (hop : ∀ rand, op ≠ .reopen rand)
    (e : step E s op = .ok (s', r)) : s'.db.store.key = s.db.store.key := by
  refine step_rel (R := fun a b => b.key = a.key) (E := E) ⟨fun h1 h2 => h2.trans h1, fun h => h.2.2.2.1, ?_, ?_⟩ hop e
  · intro s s' d ok e
    unfold storeWrite at e
    have wr : ∀ {x : Store}, x.key = s.key →
      (if d.length = 0 then Res.ok (x, true)
       else match s.faults.head?.join with
        | some (.writeFail k) => .ok ({ x with files := appendFile x.files x.index (d.take k), io := .append x.index (d.take k) :: x.io }, false)
        | some .mapFail =>
          .ok ({ x with files := appendFile x.files x.index d, curSize := x.curSize + d.length, io := .append x.index d :: x.io }, false)
        | _ =>
          .ok ({ x with files := appendFile x.files x.index d, curSize := x.curSize + d.length, io := .append x.index d :: x.io }, true)) = .ok (s', ok) →
      s'.key = s.key := by
      intro x hx e
      split at e
      · cases e; exact hx
      · split at e <;> cases e <;> exact hx
    simp only at e
    split at e
    · split at e
      · cases e; rfl
      · split at e
        · cases e
        · split at e
          · cases e
            split <;> rfl
          · refine wr ?_ e
            simp only
            split <;> rfl
    · exact wr (x := { s with faults := s.faults.tail }) rfl e
  · intro s s' ok e
    unfold commitSync at e
    split at e
    · split at e <;> cases e <;> rfl
    · cases e; rfl

theorem Commits.writes {E : Env} {s : Sys} {op : Op} {c : Contents} (h : Commits E s op c) : op.Writes := by
  cases op <;> first | trivial | exact h.elim

/-- Opening after killed opens of a healthy database's files, or of an image of them. -/
theorem open_after_cuts {E : Env} (hE : EnvOk E) {log : List (B32 × Contents)} {s : Sys} (hl : Logged E log s)
    (hal : (s.db.store.files.getLastD []).length % 38 = 0) {F F' : List Bytes} (hext : FExt s.db.store.files F)
    (hnf : NoForge E s.db.store.key s.db.store.files F) (hnm : s.db.store.files = [[]] → NoMagic s.db.store.files F)
    (hc : OpensCut E s.db.store.key F F') (rand : B32) :
    dbOpen E ⟨some s.db.store.key.bytes, F'⟩ rand = dbOpen E s.db.dir rand := by
  obtain ⟨sp, hist, hs⟩ := hl.reachable.sim hE
  have hal2 : lastLen s.db.store.files % metaSize = 0 := by
    rw [List.getLastD_eq_getLast?] at hal; exact hal
  have hri := recover_image hE hs.db.inv hal2 hext hnf (fun h => hnm (by subst h; exact hs.db.inv.no_commit))
  obtain ⟨db', e, _⟩ := reopen_ok hE hs.db hal rand
  have e0 := e
  unfold dbOpen at e
  obtain ⟨⟨d1, r1⟩, e1, e⟩ := Res.bind_eq_ok.1 e
  rw [openStore_def E s.db.dir rand (dir_key s.db rand)] at e1
  obtain ⟨⟨st, lm, fs, idx⟩, e2, e1⟩ := Res.bind_eq_ok.1 e1
  have e2' : recoverState E s.db.store.key s.db.store.files s.db.store.files.length Meta.init = .ok (st, lm, fs, idx) := e2
  have hno : fs = [] → NoMagicAt F := by
    rintro rfl
    -- recovery found nothing, so nothing has been committed
    have hh : hist = [] := by
      cases hh : hist with
      | nil => rfl
      | cons t ts =>
        exfalso
        obtain ⟨i, l, r, e, h1, h2, h3, h4, h5⟩ := hs.db.inv.last_record (by simp [hh]) hal2
        have b := recover_hit hE (key := s.db.store.key) (i := i) (extra := []) (l := l) (junk := []) (r := r) h1 h2 h3 h4 h5
          (by simp only [List.append_nil]; exact noForge_self _ _ _)
        simp only [List.append_nil] at b
        rw [← e, e2'] at b
        injection b with b
        have hb := congrArg (fun x : Meta × Meta × List Bytes × Nat => x.2.2.1) b
        simp only at hb
        rw [e] at hb
        simp at hb
    subst hh
    have hf := hs.db.inv.no_commit
    intro j f n hj hl
    refine hnm hf j f n hj ?_ hl
    rw [hf]
    cases j <;> simp
  have hcut := opensCut_recover hc (hri.trans e2') hno
  unfold dbOpen
  rw [openStore_of_recover (F := s.db.store.files) (key := s.db.store.key) (dir_key s.db rand) (hcut.trans e2'.symm)]
  rfl

theorem noMagic_self (F : List Bytes) : NoMagic F F := by
  intro j f n hj h1 h2
  rw [List.getD_eq_getElem?_getD, hj] at h1
  simp [metaSize] at h1 h2
  omega

/-- C57, in terms of executions without kills: whatever was killed whenever, the
database is in a state that an execution without kills reaches, whose log has every
commit whose call returned success, and of the others only ones that had been started. -/
theorem C57_crashes_partial {E : Env} (hE : EnvOk E) {log : List ((B32 × Contents) × Bool)} {s : Sys} (h : Crashy E log s) :
    ∃ log', Logged E log' s ∧ ((log.filter (·.2)).map (·.1)).Sublist log' ∧ log'.Sublist (log.map (·.1)) := by
  induction h with
  | start h => exact ⟨[], .start h, .slnil, .slnil⟩
  | commit _ ha e hc ih =>
    obtain ⟨log', hl, h1, h2⟩ := ih
    exact ⟨_, .commit hl ha e hc, by simpa using h1, by simpa using h2⟩
  | other _ ha e hc ih =>
    obtain ⟨log', hl, h1, h2⟩ := ih
    exact ⟨_, .other hl ha e hc, h1, h2⟩
  | @idle log s F' rand d db _ hal hc ho ih =>
    obtain ⟨log', hl, h1, h2⟩ := ih
    refine ⟨log', ?_, h1, h2⟩
    rw [open_after_cuts hE hl hal (FExt.refl _) (noForge_self _ _ _) (fun _ => noMagic_self _) hc rand] at ho
    refine .other (op := .reopen rand) (r := .unit) hl hal ?_ (Or.inr fun c hc => hc.elim)
    simp only [step, ho, Res.bind_ok]; rfl
  | @killed log s s' op c F F' rand d db _ hal ha e hcm hown himg hc ho ih =>
    obtain ⟨log', hl, h1, h2⟩ := ih
    have hop : ∀ rand, op ≠ .reopen rand := by rintro rand rfl; exact hcm.writes
    have hkey := step_key hop e
    by_cases hcase : F = s'.db.store.files ∧ lastLen s'.db.store.files % metaSize = 0
    · -- the commit was complete
      obtain ⟨rfl, hal2⟩ := hcase
      have hl2 := Logged.commit hl ha e hcm
      have hal3 : (s'.db.store.files.getLastD []).length % 38 = 0 := by
        rw [List.getLastD_eq_getLast?]; exact hal2
      refine ⟨_, ?_, ?_, List.Sublist.cons_cons _ h2⟩
      · rw [← hkey] at hc ho
        rw [open_after_cuts hE hl2 hal3 (FExt.refl _) (noForge_self _ _ _) (fun _ => noMagic_self _) hc rand] at ho
        refine .other (op := .reopen rand) (r := .unit) hl2 hal3 ?_ (Or.inr fun c hc => hc.elim)
        simp only [step, ho, Res.bind_ok]; rfl
      · simpa using h1.cons _
    · have hne : F ≠ s'.db.store.files ∨ lastLen s'.db.store.files % metaSize ≠ 0 := by
        by_cases h : F = s'.db.store.files
        · exact Or.inr fun h2 => hcase ⟨h, h2⟩
        · exact Or.inl h
      obtain ⟨c1, c2⟩ := image_clean himg hown hne
      refine ⟨log', ?_, by simpa using h1, h2.cons _⟩
      rw [open_after_cuts hE hl hal himg.1 c1 c2 hc rand] at ho
      refine .other (op := .reopen rand) (r := .unit) hl hal ?_ (Or.inr fun c hc => hc.elim)
      simp only [step, ho, Res.bind_ok]; rfl

/-- C57: in a history with any number of kills, at any moments, the next `urkel_open`
succeeds. Missing: as in C25 (a misaligned database, values that imitate commit records,
commits outside the limits). -/
theorem C57_opens_partial {E : Env} (hE : EnvOk E) {log : List ((B32 × Contents) × Bool)} {s s' : Sys} (h : Crashy E log s)
    (hal : (s.db.store.files.getLastD []).length % 38 = 0) {op : Op} (ha : Allowed E s op)
    (e : step E s op = .ok (s', .unit)) {c : Contents} (hcm : Commits E s op c)
    (hown : OnlyOwnRecord E s.db.store.key s.db.store.files s'.db.store.files) {F F' : List Bytes}
    (himg : CrashImage s.db.store.files s'.db.store.files F) (hc : OpensCut E s.db.store.key F F') (rand : B32) :
    ∃ d db, dbOpen E ⟨some s.db.store.key.bytes, F'⟩ rand = .ok (d, .ok db) ∧
      Crashy E (((dbRoot s'.db, c), false) :: log) ⟨db, fun _ => none⟩ := by
  obtain ⟨log', hl, h1, h2⟩ := C57_crashes_partial hE h
  have hop : ∀ rand, op ≠ .reopen rand := by rintro rand rfl; exact hcm.writes
  have hkey := step_key hop e
  have key : ∃ d db, dbOpen E ⟨some s.db.store.key.bytes, F'⟩ rand = .ok (d, .ok db) := by
    by_cases hcase : F = s'.db.store.files ∧ lastLen s'.db.store.files % metaSize = 0
    · obtain ⟨rfl, hal2⟩ := hcase
      have hl2 := Logged.commit hl ha e hcm
      have hal3 : (s'.db.store.files.getLastD []).length % 38 = 0 := by
        rw [List.getLastD_eq_getLast?]; exact hal2
      rw [← hkey] at hc ⊢
      obtain ⟨sp, hist, hs⟩ := hl2.reachable.sim hE
      obtain ⟨db', e', _⟩ := reopen_ok hE hs.db hal3 rand
      exact ⟨_, db', (open_after_cuts hE hl2 hal3 (FExt.refl _) (noForge_self _ _ _) (fun _ => noMagic_self _) hc rand).trans e'⟩
    · have hne : F ≠ s'.db.store.files ∨ lastLen s'.db.store.files % metaSize ≠ 0 := by
        by_cases h : F = s'.db.store.files
        · exact Or.inr fun h2 => hcase ⟨h, h2⟩
        · exact Or.inl h
      obtain ⟨c1, c2⟩ := image_clean himg hown hne
      obtain ⟨sp, hist, hs⟩ := hl.reachable.sim hE
      obtain ⟨db', e', _⟩ := reopen_ok hE hs.db hal rand
      exact ⟨_, db', (open_after_cuts hE hl hal himg.1 c1 c2 hc rand).trans e'⟩
  obtain ⟨d, db, e'⟩ := key
  exact ⟨d, db, e', .killed h hal ha e hcm hown himg hc e'⟩

/-- C57 in terms of contents: after any history with kills, every commit whose call
returned success can be opened by its root and shows what was committed (unless two trees
collide under the hash). -/
theorem C57_history_partial {E : Env} (hE : EnvOk E) {log : List ((B32 × Contents) × Bool)} {s : Sys} (h : Crashy E log s)
    {x : B32} {c : Contents} (hm : ((x, c), true) ∈ log) :
    ∃ db' tx c', txCreate E s.db (some x) = .ok (db', .ok tx) ∧ Shows db' tx c' ∧ (c' = c ∨ TreesCollide E.H c c') := by
  obtain ⟨log', hl, h1, _⟩ := C57_crashes_partial hE h
  have hmem : (x, c) ∈ log' := by
    refine h1.subset (List.mem_map.2 ⟨((x, c), true), ?_, rfl⟩)
    exact List.mem_filter.2 ⟨hm, rfl⟩
  obtain ⟨db', tx, c', a, b, _, d⟩ := C19_snapshots hE hl (h := x) (c := c) (by simp [hmem])
  exact ⟨db', tx, c', a, b, d⟩

/-- A history with a commit killed after 50 bytes, and an open killed after it had deleted
the file. -/
example : ∃ (log : List ((B32 × Contents) × Bool)) (s : Sys), Crashy toyEnv log s ∧ log.length = 1 := by
  have hlen : firstFiles = [(firstFiles.getD 0 []).take 50 ++ (firstFiles.getD 0 []).drop 50] ∧ (firstFiles.getD 0 []).length = 114 := by
    decide +kernel
  set_option synthInstance.maxHeartbeats 200000 in
  set_option synthInstance.maxSize 1000 in
  have hown : OnlyOwnRecord toyEnv B32.zero [[]] firstFiles := onlyOwn_of (by decide +kernel)
  obtain ⟨hist, t, hd, ht⟩ := (sys2_logged (keyOf 1) [7] (by decide)).reachable.tree toyEnv_ok (sys2_tx _ _)
  have hcan := sys2_can (keyOf 1) [7] (by decide)
  have hsh := sys2_shows (keyOf 1) [7] (by decide)
  obtain ⟨hv, hcap⟩ := canCommit_tree hd ht hcan
  obtain ⟨db', tx', e, _, _, _⟩ := txCommit_ok toyEnv_ok hd ht hv hcap
  have hff : firstFiles = db'.store.files := by
    unfold firstFiles
    rw [show txCommit toyEnv db0 (leafTx (keyOf 1) [7]) = _ from e]
  have c0 : Crashy toyEnv [] sys0 := .start sys0_started
  have c1 : Crashy toyEnv [] sys1 := .other (op := .create 0 none) c0 trivial sys1_step (Or.inr fun c hc => hc.elim)
  have c2 : Crashy toyEnv [] (sys2 (keyOf 1) [7]) :=
    .other (op := .insert 0 (keyOf 1) [7]) c1 (by simp only [Allowed]; exact fun h => nomatch h) (sys2_step _ _ (by decide))
      (Or.inr fun c hc => hc.elim)
  have es : step toyEnv (sys2 (keyOf 1) [7]) (.commit 0) =
      .ok (({ sys2 (keyOf 1) [7] with db := db' } : Sys).setTx 0 (some tx'), .unit) := by
    simp only [step, Sys.tx, sys2_tx, Res.bind_ok, e, Res.pure_eq]; rfl
  have hcut : OpenCut toyEnv B32.zero [(firstFiles.getD 0 []).take 50] [] := ⟨[[], [[]]], by decide +kernel, by decide⟩
  obtain ⟨d, db, _, h⟩ := C57_opens_partial toyEnv_ok c2 rfl (op := .commit 0) ⟨_, sys2_tx _ _, hcan⟩ es
    (c := Contents.ofList [(keyOf 1, [7])]) ⟨_, sys2_tx _ _, hsh⟩
    (show OnlyOwnRecord toyEnv B32.zero [[]] db'.store.files by rw [← hff]; exact hown)
    (F := [(firstFiles.getD 0 []).take 50]) (F' := [])
    ⟨Or.inr ⟨[], [], (firstFiles.getD 0 []).take 50, [], rfl, by simp only [List.nil_append, List.append_nil]⟩,
     Or.inr ⟨[], (firstFiles.getD 0 []).take 50, (firstFiles.getD 0 []).drop 50, [], rfl, by
      show db'.store.files = _
      rw [← hff]; exact hlen.1⟩⟩
    (.cons hcut (.nil _)) B32.zero
  exact ⟨_, _, h, rfl⟩

end Urkel
