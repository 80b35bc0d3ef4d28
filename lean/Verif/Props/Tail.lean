import Verif.Lemmas.Tail
/-
C76: the end of the files is lost.
-/
namespace Urkel

theorem LogSeq.files {E : Env} (hE : EnvOk E) {log log' : List ((B32 × Contents) × Bool)} {s S : Sys} {l : List (Op × Ret)}
    (h : LogSeq E log s l log' S) (hr : Reachable E s) : FExt s.db.store.files S.db.store.files ∧ S.db.store.key = s.db.store.key := by
  induction h with
  | nil => exact ⟨FExt.refl _, rfl⟩
  | commit ha e _ _ ih =>
    obtain ⟨h1, h2⟩ := step_ext hE hr ha e
    obtain ⟨h3, h4⟩ := ih (hr.next ha e)
    exact ⟨h1.trans h3, h4.trans h2⟩
  | other ha e _ _ ih =>
    obtain ⟨h1, h2⟩ := step_ext hE hr ha e
    obtain ⟨h3, h4⟩ := ih (hr.next ha e)
    exact ⟨h1.trans h3, h4.trans h2⟩

theorem Reachable.files_ne {E : Env} (hE : EnvOk E) {s : Sys} (hr : Reachable E s) : s.db.store.files ≠ [] := by
  obtain ⟨sp, hist, hs⟩ := hr.sim hE
  obtain ⟨i, l, e, _⟩ := hs.db.inv.slab.sok.files_snoc
  rw [e]; simp

/-- The first call whose bytes are not all there. -/
theorem cut_stops {E : Env} (hE : EnvOk E) {s s1 : Sys} {llog : List (B32 × Contents)} (hl : Logged E llog s) {op : Op} {r : Ret} {t : List (Op × Ret)}
    (ha : Allowed E s op) (e : step E s op = .ok (s1, r)) (hc : Careful E s ((op, r) :: t)) {F : List Bytes} (h1 : FExt s.db.store.files F)
    (h2 : FExt F s1.db.store.files) (hne : ¬ FExt s1.db.store.files F) (rand : B32) :
    dbOpen E ⟨some s.db.store.key.bytes, F⟩ rand = dbOpen E s.db.dir rand := by
  have hop : ∀ rand, op ≠ .reopen rand := by
    rintro rand rfl
    obtain ⟨sp, hist, hs⟩ := hl.reachable.sim hE
    obtain ⟨db', e', _, hf, hk, _⟩ := reopen_ok hE hs.db ha rand
    simp only [step, e', Res.bind_ok, Res.pure_eq] at e
    cases e
    exact hne (by show FExt db'.store.files F; rw [hf]; exact h1)
  have hw : op.Writes := by
    by_cases hw : op.Writes
    · exact hw
    · exact (hne (by rw [(step_same hop hw e).1]; exact h1)).elim
  cases hc with
  | cons hal _ hown _ =>
    obtain ⟨c1, c2⟩ := image_clean ⟨h1, h2⟩ (hown _ e hw) (.inl fun h => hne (h ▸ FExt.refl _))
    exact open_after_cuts hE hl hal h1 c1 c2 (.nil _) rand

theorem tail_go {E : Env} (hE : EnvOk E) {log log' : List ((B32 × Contents) × Bool)} {s S : Sys} {l : List (Op × Ret)}
    (h : LogSeq E log s l log' S) : Logged E (log.map Prod.fst) s → Careful E s l → ∀ {F : List Bytes}, FExt s.db.store.files F →
    FExt F S.db.store.files → ∀ rand : B32, ∃ (l1 l2 : List (Op × Ret)) (log1 : List ((B32 × Contents) × Bool)) (S1 : Sys), l = l1 ++ l2 ∧
      LogSeq E log s l1 log1 S1 ∧ LogSeq E log1 S1 l2 log' S ∧ FExt S1.db.store.files F ∧
      (∀ (l3 l4 : List (Op × Ret)) (log3 : List ((B32 × Contents) × Bool)) (S3 : Sys), l2 = l3 ++ l4 → l3 ≠ [] → LogSeq E log1 S1 l3 log3 S3 → ¬ FExt S3.db.store.files F) ∧
      Logged E (log1.map Prod.fst) S1 ∧ (S1.db.store.files.getLastD []).length % 38 = 0 ∧
      dbOpen E ⟨some s.db.store.key.bytes, F⟩ rand = dbOpen E S1.db.dir rand := by
  induction h with
  | nil log s =>
    intro hl hc F h1 h2 rand
    have : F = s.db.store.files := h2.antisymm h1
    subst this
    refine ⟨[], [], log, s, rfl, .nil _ _, .nil _ _, h1, ?_, hl, hc.aligned, rfl⟩
    intro l3 l4 _ _ h hn
    cases l3 with
    | nil => exact (hn rfl).elim
    | cons _ _ => simp at h
  | @commit log log' s s1 S op c t ha e hcm hrest ih =>
    intro hl hc F h1 h2 rand
    have hr := hl.reachable
    obtain ⟨hx, hk⟩ := step_ext hE hr ha e
    have hl1 : Logged E ((((dbRoot s1.db, c), true) :: log).map Prod.fst) s1 := .commit hl ha e hcm
    obtain ⟨hx2, hk2⟩ := hrest.files hE hl1.reachable
    have hF : F ≠ [] := h1.ne_nil (hr.files_ne hE)
    by_cases hin : FExt s1.db.store.files F
    · have hc1 : Careful E s1 t := by cases hc with | cons _ _ _ hn => exact hn _ e
      obtain ⟨l1, l2, log1, S1, rfl, a1, a2, a3, a4, a5, a6, a7⟩ := ih hl1 hc1 hin h2 rand
      exact ⟨_ :: l1, l2, log1, S1, rfl, .commit ha e hcm a1, a2, a3, a4, a5, a6, by rw [← hk]; exact a7⟩
    · have himg : FExt F s1.db.store.files := by
        rcases FExt.total h2 hx2 hF (hl1.reachable.files_ne hE) with h | h
        · exact h
        · exact (hin h).elim
      refine ⟨[], _, log, s, rfl, .nil _ _, .commit ha e hcm hrest, h1, ?_, hl, hc.aligned, cut_stops hE hl ha e hc h1 himg hin rand⟩
      intro l3 l4 log3 S3 h hn hs hF3
      cases l3 with
      | nil => exact hn rfl
      | cons x l3 =>
        rw [List.cons_append, List.cons.injEq] at h
        obtain ⟨rfl, _⟩ := h
        have hnext : ∀ {lg : List ((B32 × Contents) × Bool)}, LogSeq E lg s1 l3 log3 S3 → False := fun h => by
          exact hin ((h.files hE hl1.reachable).1.trans hF3)
        cases hs with
        | commit _ e' _ h => rw [e] at e'; cases e'; exact hnext h
        | other _ e' _ h => rw [e] at e'; cases e'; exact hnext h
  | @other log log' s s1 S op r t ha e hcm hrest ih =>
    intro hl hc F h1 h2 rand
    have hr := hl.reachable
    obtain ⟨hx, hk⟩ := step_ext hE hr ha e
    have hl1 : Logged E (log.map Prod.fst) s1 := .other hl ha e hcm
    obtain ⟨hx2, hk2⟩ := hrest.files hE hl1.reachable
    have hF : F ≠ [] := h1.ne_nil (hr.files_ne hE)
    by_cases hin : FExt s1.db.store.files F
    · have hc1 : Careful E s1 t := by cases hc with | cons _ _ _ hn => exact hn _ e
      obtain ⟨l1, l2, log1, S1, rfl, a1, a2, a3, a4, a5, a6, a7⟩ := ih hl1 hc1 hin h2 rand
      exact ⟨_ :: l1, l2, log1, S1, rfl, .other ha e hcm a1, a2, a3, a4, a5, a6, by rw [← hk]; exact a7⟩
    · have himg : FExt F s1.db.store.files := by
        rcases FExt.total h2 hx2 hF (hl1.reachable.files_ne hE) with h | h
        · exact h
        · exact (hin h).elim
      refine ⟨[], _, log, s, rfl, .nil _ _, .other ha e hcm hrest, h1, ?_, hl, hc.aligned, cut_stops hE hl ha e hc h1 himg hin rand⟩
      intro l3 l4 log3 S3 h hn hs hF3
      cases l3 with
      | nil => exact hn rfl
      | cons x l3 =>
        rw [List.cons_append, List.cons.injEq] at h
        obtain ⟨rfl, _⟩ := h
        have hnext : ∀ {lg : List ((B32 × Contents) × Bool)}, LogSeq E lg s1 l3 log3 S3 → False := fun h => by
          exact hin ((h.files hE hl1.reachable).1.trans hF3)
        cases hs with
        | commit _ e' _ h => rw [e] at e'; cases e'; exact hnext h
        | other _ e' _ h => rw [e] at e'; cases e'; exact hnext h

/-- C76: the end of the data files is lost: of the bytes that a history has written, only
a first part `F` remains (the last file is shorter, or the last files are missing). Then
`urkel_open` succeeds and gives exactly the state after the calls `l1`, those whose bytes are all
there, up to the first one some byte of which is missing: it reports the root of their last
commit and shows its contents, every commit among them can be opened by its root and shows what
was committed (unless two trees collide under the hash), and none that came later. Missing:
as in C23 and C25 (databases whose last record is misaligned, for which not even the whole files
are opened as they were: `C23_reopen_false`; values that imitate commit records): `Careful`. -/
theorem C76_tail_partial {E : Env} (hE : EnvOk E) {log log' : List ((B32 × Contents) × Bool)} {s S : Sys} {l : List (Op × Ret)}
    (h0 : Logged E (log.map Prod.fst) s) (h : LogSeq E log s l log' S) (hc : Careful E s l) {F : List Bytes}
    (h1 : FExt s.db.store.files F) (h2 : FExt F S.db.store.files) (rand : B32) :
    ∃ (l1 l2 : List (Op × Ret)) (log1 : List ((B32 × Contents) × Bool)) (S1 : Sys) (db : Db) (tx : Tx), l = l1 ++ l2 ∧
      LogSeq E log s l1 log1 S1 ∧ LogSeq E log1 S1 l2 log' S ∧ FExt S1.db.store.files F ∧
      (∀ (l3 l4 : List (Op × Ret)) (log3 : List ((B32 × Contents) × Bool)) (S3 : Sys), l2 = l3 ++ l4 → l3 ≠ [] → LogSeq E log1 S1 l3 log3 S3 → ¬ FExt S3.db.store.files F) ∧
      dbOpen E ⟨some S.db.store.key.bytes, F⟩ rand = .ok (⟨some S.db.store.key.bytes, S1.db.store.files⟩, .ok db) ∧
      dbRoot db = (log1.map (·.1.1)).headD B32.zero ∧
      txCreate E db none = .ok (db, .ok tx) ∧ Shows db tx ((log1.map (·.1.2)).headD Contents.empty) ∧
      (∀ (x : B32) (c : Contents) (b : Bool), ((x, c), b) ∈ log1 →
        ∃ db' tx' c', txCreate E db (some x) = .ok (db', .ok tx') ∧ Shows db' tx' c' ∧ (c' = c ∨ TreesCollide E.H c c')) ∧
      ∀ x : B32, x ≠ B32.zero → (∀ (c : Contents) (b : Bool), ((x, c), b) ∉ log1) → ∃ db', txCreate E db (some x) = .ok (db', .error .ENOTFOUND) := by
  obtain ⟨l1, l2, log1, S1, e1, a1, a2, a3, a4, a5, a6, a7⟩ := tail_go hE h h0 hc h1 h2 rand
  obtain ⟨db, tx, o1, o2, o3, o4, _⟩ := C23_reopen_partial hE a5 (.inr a6) rand
  obtain ⟨_, hk⟩ := h.files hE h0.reachable
  obtain ⟨_, hk1⟩ := a1.files hE h0.reachable
  have hlog : Logged E (log1.map Prod.fst) ⟨db, fun _ => none⟩ := by
    refine .other (op := .reopen rand) (r := .unit) a5 a6 ?_ (Or.inr fun c hc => hc.elim)
    simp only [step, o1, Res.bind_ok]; rfl
  refine ⟨l1, l2, log1, S1, db, tx, e1, a1, a2, a3, a4, ?_, ?_, o3, ?_, ?_, ?_⟩
  · rw [hk, a7, o1, Db.dir, hk1]
  · rw [o2, List.map_map]; rfl
  · rw [List.map_map] at o4; exact o4
  · intro x c b hm
    obtain ⟨db', tx', c', b1, b2, _, b3⟩ := C19_snapshots hE hlog (h := x) (c := c) (.tail _ (List.mem_map.2 ⟨_, hm, rfl⟩))
    exact ⟨db', tx', c', b1, b2, b3⟩
  · intro x hx hno
    obtain ⟨⟨db', b1, _⟩, _⟩ := C20_unknown_root_partial hE hlog (h := x) hx (fun c hm => by
      obtain ⟨⟨⟨y, c'⟩, b⟩, hm, he⟩ := List.mem_map.1 hm
      cases he
      exact hno _ _ hm)
    exact ⟨db', b1⟩

/-- When not even a first file is left, the next `urkel_open` starts an empty database. -/
theorem C76_all_gone (E : Env) (key rand : B32) :
    ∃ (db : Db) (tx : Tx), dbOpen E ⟨some key.bytes, []⟩ rand = .ok (⟨some key.bytes, [[]]⟩, .ok db) ∧ dbRoot db = B32.zero ∧
      txCreate E db none = .ok (db, .ok tx) ∧ Shows db tx Contents.empty := by
  have hkey : Dir.key ⟨some key.bytes, []⟩ rand = some key := by
    unfold Dir.key
    simp only [key.len, Nat.le_refl, dite_true]
    congr 1
    apply B32.ext
    simp [List.take_of_length_le, key.len]
  obtain ⟨s', e, hs, _, _, hr⟩ := open_empty (E := E) hkey (fun j f n hj _ hl => by simp at hj) (fun j f n hj _ hl => by simp at hj)
  refine ⟨⟨s', rootHash s', false⟩, ⟨some s'.state.rootNode⟩, ?_, hr, rfl, ?_⟩
  · unfold dbOpen; rw [e]; rfl
  · have := TxIs.shows (db := ⟨s', rootHash s', false⟩) (hist := []) (t := .null) (E := E)
      (DInv.mk hs ⟨.null, by simp, hr.symm⟩ (fun _ => hr)) (tx := ⟨some s'.state.rootNode⟩) ⟨_, rfl, hs.root.repr, Or.inl rfl, trivial⟩
    exact this

end Urkel
