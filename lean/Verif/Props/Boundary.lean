import Verif.Lemmas.Boundary
/-
C79: exactly which commits survive.
-/
namespace Urkel

theorem Anchor.answers {E : Env} (hE : EnvOk E) {log : List ((B32 × Contents) × Bool)} {key : B32} {F F' : List Bytes} {s0 : Sys}
    (h : Anchor E ((survivors log).map Prod.fst) key F s0) (hc : OpensCut E key F F') (rand : B32) :
    ∃ (d : Dir) (db : Db) (tx : Tx), dbOpen E ⟨some key.bytes, F'⟩ rand = .ok (d, .ok db) ∧ FExt d.files F ∧ Sys.onBoundary ⟨db, fun _ => none⟩ = true ∧
      dbRoot db = ((survivors log).map (·.1.1)).headD B32.zero ∧ txCreate E db none = .ok (db, .ok tx) ∧
      Shows db tx (((survivors log).map (·.1.2)).headD Contents.empty) := by
  obtain ⟨db, tx, o1, o2, o3, o4, _⟩ := C23_reopen_partial hE h.logged (.inr h.boundary) rand
  have o := (h.opens hE hc rand).trans o1
  obtain ⟨_, r2, r3, _⟩ := h.reopened hE hc o
  refine ⟨_, db, tx, o, by rw [r3]; exact h.ext, r2, ?_, o3, ?_⟩
  · rw [o2, List.map_map]; rfl
  · rw [List.map_map] at o4; exact o4

/-- C79: the process stops (or closes the database) between two calls, wherever the files end, and any
number of opens are killed. Then `urkel_open` succeeds, and the database is exactly as after
the newest commit whose record is on a boundary, or empty if there is none: only the newest
commits, with records off a boundary, are lost. The files then end on a boundary. -/
theorem C79_closed {E : Env} (hE : EnvOk E) {log : List ((B32 × Contents) × Bool)} {s : Sys} (h : Stopped E log s) {F' : List Bytes}
    (hc : OpensCut E s.db.store.key s.db.store.files F') (rand : B32) :
    ∃ (lost kept : List ((B32 × Contents) × Bool)) (d : Dir) (db : Db) (tx : Tx),
      log = lost ++ kept ∧ (∀ e ∈ lost, e.2 = false) ∧ (kept = [] ∨ ∃ e rest, kept = e :: rest ∧ e.2 = true) ∧
      dbOpen E ⟨some s.db.store.key.bytes, F'⟩ rand = .ok (d, .ok db) ∧ Stopped E kept ⟨db, fun _ => none⟩ ∧
      FExt d.files s.db.store.files ∧ Sys.onBoundary ⟨db, fun _ => none⟩ = true ∧
      dbRoot db = (kept.map (·.1.1)).headD B32.zero ∧ txCreate E db none = .ok (db, .ok tx) ∧ Shows db tx ((kept.map (·.1.2)).headD Contents.empty) := by
  obtain ⟨s0, h0⟩ := (h.inv hE).anchor
  obtain ⟨d, db, tx, o, a1, a2, a3, a4, a5⟩ := h0.answers hE hc rand
  obtain ⟨lost, p1, p2, p3⟩ := survivors_parts log
  exact ⟨lost, survivors log, d, db, tx, p1, p2, p3, o, .idle h hc o, a1, a2, a3, a4, a5⟩

/-- C79 for a process that is killed in the middle of a call that commits, after any part `F` of the bytes
of that call has arrived: as above, where the commit in progress counts if all its bytes are
there and its record is on a boundary. -/
theorem C79_killed {E : Env} (hE : EnvOk E) {log : List ((B32 × Contents) × Bool)} {s s' : Sys} (h : Stopped E log s) {op : Op} {c : Contents}
    (ha : Allowed E s op) (e : step E s op = .ok (s', .unit)) (hcm : Commits E s op c)
    (hn : NoImitation E s.db.store.key (survivors log = []) s.db.store.files s'.db.store.files) {F F' : List Bytes}
    (hi : CrashImage s.db.store.files s'.db.store.files F) (hc : OpensCut E s.db.store.key F F') (rand : B32) :
    ∃ (lost kept : List ((B32 × Contents) × Bool)) (d : Dir) (db : Db) (tx : Tx),
      (if F = s'.db.store.files ∧ s'.onBoundary = true then lost = [] ∧ kept = ((dbRoot s'.db, c), true) :: log else log = lost ++ kept) ∧
      (∀ e ∈ lost, e.2 = false) ∧ (kept = [] ∨ ∃ e rest, kept = e :: rest ∧ e.2 = true) ∧
      dbOpen E ⟨some s.db.store.key.bytes, F'⟩ rand = .ok (d, .ok db) ∧ Stopped E kept ⟨db, fun _ => none⟩ ∧
      FExt d.files F ∧ Sys.onBoundary ⟨db, fun _ => none⟩ = true ∧
      dbRoot db = (kept.map (·.1.1)).headD B32.zero ∧ txCreate E db none = .ok (db, .ok tx) ∧ Shows db tx ((kept.map (·.1.2)).headD Contents.empty) := by
  obtain ⟨s0, h0⟩ := (h.inv hE).image hE ha e hcm hn hi
  obtain ⟨d, db, tx, o, a1, a2, a3, a4, a5⟩ := h0.answers hE hc rand
  have hst : Stopped E _ ⟨db, fun _ => none⟩ := .killed h ha e hcm hn hi hc o
  by_cases hF : F = s'.db.store.files ∧ s'.onBoundary = true
  · rw [if_pos hF.1, hF.2] at a3 a5 hst
    exact ⟨[], ((dbRoot s'.db, c), true) :: log, d, db, tx, by rw [if_pos hF]; exact ⟨rfl, rfl⟩, (fun _ h => nomatch h), .inr ⟨_, _, rfl, rfl⟩,
      o, hst, a1, a2, a3, a4, a5⟩
  · have hsv : survivors (if F = s'.db.store.files then ((dbRoot s'.db, c), s'.onBoundary) :: log else log) = survivors log := by
      split
      · next h1 =>
        have : s'.onBoundary = false := by
          cases hb : s'.onBoundary with
          | false => rfl
          | true => exact (hF ⟨h1, hb⟩).elim
        rw [this]; rfl
      · rfl
    rw [hsv] at a3 a5 hst
    obtain ⟨lost, p1, p2, p3⟩ := survivors_parts log
    exact ⟨lost, survivors log, d, db, tx, by rw [if_neg hF]; exact p1, p2, p3, o, hst, a1, a2, a3, a4, a5⟩

/-- C79: at every moment of such a history the database has exactly the commits of its log: each can be
opened by its root and shows what was committed (unless two trees collide under the hash), and
no other root is known. -/
theorem C79_holds {E : Env} (hE : EnvOk E) {log : List ((B32 × Contents) × Bool)} {s : Sys} (h : Stopped E log s) (x : B32) :
    (∀ (c : Contents) (b : Bool), ((x, c), b) ∈ log →
      ∃ db' tx c', txCreate E s.db (some x) = .ok (db', .ok tx) ∧ Shows db' tx c' ∧ (c' = c ∨ TreesCollide E.H c c')) ∧
    (x ≠ B32.zero → (∀ (c : Contents) (b : Bool), ((x, c), b) ∉ log) → ∃ db', txCreate E s.db (some x) = .ok (db', .error .ENOTFOUND)) := by
  have hl := (h.inv hE).logged
  constructor
  · intro c b hm
    obtain ⟨db', tx', c', b1, b2, _, b3⟩ := C19_snapshots hE hl (h := x) (c := c) (.tail _ (List.mem_map.2 ⟨_, hm, rfl⟩))
    exact ⟨db', tx', c', b1, b2, b3⟩
  · intro hx hno
    obtain ⟨⟨db', b1, _⟩, _⟩ := C20_unknown_root_partial hE hl (h := x) hx (fun c hm => by
      obtain ⟨⟨⟨y, c'⟩, b⟩, hm, he⟩ := List.mem_map.1 hm
      cases he
      exact hno _ _ hm)
    exact ⟨db', b1⟩

/-- C79: nothing is lost while the data fits one file, and nothing after a later commit whose record is on a
boundary. -/
theorem C79_safe {E : Env} (hE : EnvOk E) {log : List ((B32 × Contents) × Bool)} {s : Sys} (h : Stopped E log s) :
    (s.db.store.files.length = 1 → s.onBoundary = true) ∧ (s.onBoundary = true → log = [] ∨ ∃ e rest, log = e :: rest ∧ e.2 = true) := by
  obtain ⟨hl, hfl, _⟩ := h.inv hE
  constructor
  · intro h1
    obtain ⟨sp, hist, hs⟩ := hl.reachable.sim hE
    exact decide_eq_true (Aligned.mod (db := s.db) (.inl h1) hs.db)
  · intro hb
    have := hfl.1 hb
    obtain ⟨_, _, _, h3⟩ := survivors_parts log
    rw [this] at h3
    exact h3

theorem StopSeq.stopped {E : Env} {a : List (Op × Ret)} {log log' : List ((B32 × Contents) × Bool)} {s S : Sys}
    (h : StopSeq E log s a log' S) (h0 : Stopped E log s) : Stopped E log' S := by
  induction h with
  | nil => exact h0
  | commit ha e hc hn _ ih => exact ih (.commit h0 ha e hc fun _ => hn)
  | other ha e hc _ ih => exact ih (.other h0 ha e hc)

theorem StopSeq.files {E : Env} (hE : EnvOk E) {a : List (Op × Ret)} {log log' : List ((B32 × Contents) × Bool)} {s S : Sys}
    (h : StopSeq E log s a log' S) (hr : Reachable E s) : FExt s.db.store.files S.db.store.files ∧ S.db.store.key = s.db.store.key := by
  induction h with
  | nil => exact ⟨FExt.refl _, rfl⟩
  | commit ha e _ _ _ ih =>
    obtain ⟨h1, h2⟩ := step_ext hE hr ha e
    obtain ⟨h3, h4⟩ := ih (hr.next ha e)
    exact ⟨h1.trans h3, h4.trans h2⟩
  | other ha e _ _ ih =>
    obtain ⟨h1, h2⟩ := step_ext hE hr ha e
    obtain ⟨h3, h4⟩ := ih (hr.next ha e)
    exact ⟨h1.trans h3, h4.trans h2⟩

/-- C79 when the end of the files is lost: of the bytes that a history has written, only a first
part `F` remains. With `l1` the calls whose bytes are all there, up to the first one some
byte of which is missing, `urkel_open` succeeds and gives the newest commit of `l1` and before whose record is
on a boundary. -/
theorem C79_tail {E : Env} (hE : EnvOk E) {l : List (Op × Ret)} {log log' : List ((B32 × Contents) × Bool)} {s S : Sys}
    (h : StopSeq E log s l log' S) : Stopped E log s → ∀ {F : List Bytes}, FExt s.db.store.files F → FExt F S.db.store.files → ∀ rand : B32,
    ∃ (l1 l2 : List (Op × Ret)) (log1 lost kept : List ((B32 × Contents) × Bool)) (S1 : Sys) (d : Dir) (db : Db) (tx : Tx), l = l1 ++ l2 ∧
      StopSeq E log s l1 log1 S1 ∧ StopSeq E log1 S1 l2 log' S ∧ FExt S1.db.store.files F ∧
      (∀ (l3 l4 : List (Op × Ret)) (log3 : List ((B32 × Contents) × Bool)) (S3 : Sys), l2 = l3 ++ l4 → l3 ≠ [] → StopSeq E log1 S1 l3 log3 S3 → ¬ FExt S3.db.store.files F) ∧
      log1 = lost ++ kept ∧ (∀ e ∈ lost, e.2 = false) ∧ (kept = [] ∨ ∃ e rest, kept = e :: rest ∧ e.2 = true) ∧
      dbOpen E ⟨some s.db.store.key.bytes, F⟩ rand = .ok (d, .ok db) ∧ Stopped E kept ⟨db, fun _ => none⟩ ∧
      dbRoot db = (kept.map (·.1.1)).headD B32.zero ∧ txCreate E db none = .ok (db, .ok tx) ∧ Shows db tx ((kept.map (·.1.2)).headD Contents.empty) := by
  induction h with
  | nil log s =>
    intro h0 F h1 h2 rand
    have : F = s.db.store.files := h2.antisymm h1
    subst this
    obtain ⟨lost, kept, d, db, tx, a1, a2, a3, a4, a5, _, _, a6⟩ := C79_closed hE h0 (.nil _) rand
    refine ⟨[], [], log, lost, kept, s, d, db, tx, rfl, .nil _ _, .nil _ _, h1, ?_, a1, a2, a3, a4, a5, a6⟩
    intro l3 l4 _ _ h hn
    cases l3 with
    | nil => exact (hn rfl).elim
    | cons _ _ => simp at h
  | @commit log log' s s1 S op c t ha e hcm hn hrest ih =>
    intro h0 F h1 h2 rand
    have hr := (h0.inv hE).logged.reachable
    have h01 : Stopped E _ s1 := .commit h0 ha e hcm fun _ => hn
    have hr1 := (h01.inv hE).logged.reachable
    obtain ⟨hx, hk⟩ := step_ext hE hr ha e
    obtain ⟨hx2, hk2⟩ := hrest.files hE hr1
    have hF : F ≠ [] := h1.ne_nil (hr.files_ne hE)
    by_cases hin : FExt s1.db.store.files F
    · obtain ⟨l1, l2, log1, lost, kept, S1, d, db, tx, rfl, a1, a2, a3, a4, a5, a6, a7, a8, a9⟩ := ih h01 hin h2 rand
      exact ⟨_ :: l1, l2, log1, lost, kept, S1, d, db, tx, rfl, .commit ha e hcm hn a1, a2, a3, a4, a5, a6, a7, by rw [← hk]; exact a8, a9⟩
    · have himg : FExt F s1.db.store.files := by
        rcases FExt.total h2 hx2 hF (hr1.files_ne hE) with h | h
        · exact h
        · exact (hin h).elim
      have hFne : ¬ (F = s1.db.store.files ∧ s1.onBoundary = true) := fun h => hin (h.1 ▸ FExt.refl _)
      obtain ⟨lost, kept, d, db, tx, a1, a2, a3, a4, a5, _, _, a6⟩ := C79_killed hE h0 ha e hcm hn ⟨h1, himg⟩ (.nil _) rand
      rw [if_neg hFne] at a1
      refine ⟨[], _, log, lost, kept, s, d, db, tx, rfl, .nil _ _, .commit ha e hcm hn hrest, h1, ?_, a1, a2, a3, a4, a5, a6⟩
      intro l3 l4 log3 S3 h hn hs hF3
      cases l3 with
      | nil => exact hn rfl
      | cons x l3 =>
        rw [List.cons_append, List.cons.injEq] at h
        obtain ⟨rfl, _⟩ := h
        have hnext : ∀ {lg : List ((B32 × Contents) × Bool)}, StopSeq E lg s1 l3 log3 S3 → False := fun h => by
          exact hin ((h.files hE hr1).1.trans hF3)
        cases hs with
        | commit _ e' _ _ h => rw [e] at e'; cases e'; exact hnext h
        | other _ e' _ h => rw [e] at e'; cases e'; exact hnext h
  | @other log log' s s1 S op r t ha e hcm hrest ih =>
    intro h0 F h1 h2 rand
    have hr := (h0.inv hE).logged.reachable
    have h01 : Stopped E log s1 := .other h0 ha e hcm
    obtain ⟨_, hk⟩ := step_ext hE hr ha e
    have hin : FExt s1.db.store.files F := by rw [other_same hE hr ha e hcm]; exact h1
    obtain ⟨l1, l2, log1, lost, kept, S1, d, db, tx, rfl, a1, a2, a3, a4, a5, a6, a7, a8, a9⟩ := ih h01 hin h2 rand
    exact ⟨_ :: l1, l2, log1, lost, kept, S1, d, db, tx, rfl, .other ha e hcm a1, a2, a3, a4, a5, a6, a7, by rw [← hk]; exact a8, a9⟩

/-- While the data is in one file every history is such an execution. -/
theorem Logged.stopped {E : Env} (hE : EnvOk E) {log : List (B32 × Contents)} {s : Sys} (h : Logged E log s) : s.db.store.files.length = 1 →
    Stopped E (log.map fun x => (x, true)) s := by
  have back : ∀ {s s' : Sys} {op : Op} {r : Ret}, Reachable E s → Allowed E s op → step E s op = .ok (s', r) → s'.db.store.files.length = 1 → s.db.store.files.length = 1 := by
    intro s s' op r hr ha e h1
    have := (step_ext hE hr ha e).1.length_le
    have hne := hr.files_ne hE
    have : 0 < s.db.store.files.length := List.length_pos_iff.2 hne
    omega
  induction h with
  | start h => exact fun _ => .start h
  | @commit log s s' op c hl ha e hc ih =>
    intro h1
    have hl' := Logged.commit hl ha e hc
    obtain ⟨sp, hist, hs⟩ := hl'.reachable.sim hE
    have hb : s'.onBoundary = true := decide_eq_true (Aligned.mod (db := s'.db) (.inl h1) hs.db)
    have := Stopped.commit (ih (back hl.reachable ha e h1)) ha e hc (fun h => by rw [hb] at h; cases h)
    rw [hb] at this
    exact this
  | @other log s s' op r hl ha e hc ih => exact fun h1 => .other (ih (back hl.reachable ha e h1)) ha e hc

/-- The history that loses its newest commit. -/
theorem off_boundary {E : Env} (hE : EnvOk E) (hc : E.cfg = realCfg) (k rand : B32) :
    ∃ (log : List (B32 × Contents)) (s2 s3 : Sys), Stopped E (log.map fun x => (x, true)) s2 ∧ Allowed E s2 (.commit 0) ∧
      step E s2 (.commit 0) = .ok (s3, .unit) ∧ Commits E s2 (.commit 0) (Contents.ofList [(k, [])]) ∧
      NoImitation E s2.db.store.key (survivors (log.map fun x => (x, true)) = []) s2.db.store.files s3.db.store.files ∧ s3.onBoundary = false := by
  obtain ⟨log, s0, s3, hl, hle, hal, hl3, hrv, hopen, ⟨s2, h2db, i1, i2, i3, i4, i5⟩, hone, hmis, hmag⟩ := lost_commit hE hc k rand
  have h0 := hl.stopped hE hone
  have h2 : Stopped E (log.map fun x => (x, true)) s2 := .other h0 i1 i2 (.inr fun c h => h)
  have hb : s3.onBoundary = false := decide_eq_false hmis
  have hb0 : (s0.db.store.files.getLastD []).length % 38 = 0 := of_decide_eq_true ((C79_safe hE h0).1 hone)
  have hno : NoImitation E s2.db.store.key (survivors (log.map fun x => (x, true)) = []) s2.db.store.files s3.db.store.files := by
    intro j f n hf h1 h2 _
    have h38 : metaSize = 38 := rfl
    rw [h2db] at h1
    have hle : (s0.db.store.files.getD j []).length ≤ metaSize * n := by
      cases j with
      | zero =>
        obtain ⟨g, hg⟩ : ∃ g, s0.db.store.files = [g] := List.length_eq_one_iff.1 hone
        rw [hg] at hb0 h1 ⊢
        simp only [List.getLastD_cons, List.getLastD_nil, List.getD_cons_zero] at hb0 h1 ⊢
        rw [h38] at h1 ⊢
        omega
      | succ j =>
        rw [List.getD_eq_getElem?_getD, List.getElem?_eq_none (by omega)]
        exact Nat.zero_le _
    have := hmag j f n hf hle h2
    exact ⟨fun hv => this hv.1, fun _ => this⟩
  exact ⟨log, s2, s3, h2, i3, i4, i5, hno, hb⟩

/-- C79 is about something: there is a history, with the real limits, whose newest commit is off a boundary;
after it the database knows the root of that commit, and after closing and opening it does not (unless
an older commit has the same root), but every older commit is still there. -/
theorem C79_loses {E : Env} (hE : EnvOk E) (hc : E.cfg = realCfg) (k rand : B32) :
    ∃ (log : List ((B32 × Contents) × Bool)) (x : B32) (s : Sys) (d : Dir) (db : Db), Stopped E (((x, Contents.ofList [(k, [])]), false) :: log) s ∧
      dbOpen E s.db.dir rand = .ok (d, .ok db) ∧ Stopped E log ⟨db, fun _ => none⟩ ∧ dbRoot s.db = x ∧
      ((∀ c b, ((x, c), b) ∉ log) → x ≠ B32.zero → ∃ db', txCreate E db (some x) = .ok (db', .error .ENOTFOUND)) := by
  obtain ⟨log, s2, s3, h2, i3, i4, i5, hno, hb⟩ := off_boundary hE hc k rand
  have h3 : Stopped E (((dbRoot s3.db, Contents.ofList [(k, [])]), s3.onBoundary) :: log.map fun x => (x, true)) s3 := .commit h2 i3 i4 i5 fun _ => hno
  rw [hb] at h3
  obtain ⟨lost, kept, d, db, tx, a1, a2, a3, a4, a5, _⟩ := C79_closed hE h3 (.nil _) rand
  have hk : kept = log.map fun x => (x, true) := by
    cases lost with
    | nil =>
      rcases a3 with rfl | ⟨e, rest, rfl, he⟩
      · simp at a1
      · rw [List.nil_append, List.cons.injEq] at a1
        rw [← a1.1] at he; cases he
    | cons y lost =>
      rw [List.cons_append, List.cons.injEq] at a1
      obtain ⟨_, a1⟩ := a1
      cases lost with
      | nil => exact a1.symm
      | cons z lost =>
        have hz := a2 z (by simp)
        have : z ∈ log.map fun x => (x, true) := by rw [a1]; simp
        obtain ⟨w, _, rfl⟩ := List.mem_map.1 this
        cases hz
  rw [hk] at a5
  refine ⟨_, _, s3, d, db, h3, a4, a5, rfl, fun hno hx => (C79_holds hE a5 (dbRoot s3.db)).2 hx hno⟩

example : EnvOk toyEnv ∧ toyEnv.cfg = realCfg := ⟨toyEnv_ok, rfl⟩

/-- A kill that meets the hypotheses of `C79_killed`: all bytes of that commit have arrived. -/
example : ∃ (log : List ((B32 × Contents) × Bool)) (s s' : Sys) (c : Contents), Stopped toyEnv log s ∧ Allowed toyEnv s (.commit 0) ∧
    step toyEnv s (.commit 0) = .ok (s', .unit) ∧ Commits toyEnv s (.commit 0) c ∧
    NoImitation toyEnv s.db.store.key (survivors log = []) s.db.store.files s'.db.store.files ∧
    CrashImage s.db.store.files s'.db.store.files s'.db.store.files ∧ StopSeq toyEnv log s [(.commit 0, .unit)] (((dbRoot s'.db, c), s'.onBoundary) :: log) s' := by
  obtain ⟨log, s2, s3, h2, i3, i4, i5, hno, hb⟩ := off_boundary toyEnv_ok rfl (keyOf 1) B32.zero
  exact ⟨_, s2, s3, _, h2, i3, i4, i5, hno, ⟨(step_ext toyEnv_ok (h2.inv toyEnv_ok).logged.reachable i3 i4).1, FExt.refl _⟩,
    .commit i3 i4 i5 hno (.nil _ _)⟩

end Urkel
