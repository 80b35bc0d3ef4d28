import Verif.Spec.Procs
import Verif.Lemmas.Scenario
import Verif.Props.Durable
import Verif.Props.Snapshots
import Verif.Props.Scan
import Verif.Props.Histories
/-
C80: several processes that open and use one directory.
-/
namespace Urkel

/-- What recovery leaves: as many files as the index says, or none and index 1. -/
theorem recoverState_left {E : Env} {key : B32} {files : List Bytes} {n : Nat} {m st lm : Meta} {fs : List Bytes} {i : Nat}
    (hn : n ≤ files.length) (h : recoverState E key files n m = .ok (st, lm, fs, i)) :
    (fs = [] ∧ i = 1) ∨ (fs.length = i ∧ 0 < i ∧ i ≤ n) := by
  induction n generalizing m with
  | zero =>
    simp only [recoverState, Res.ok.injEq, Prod.mk.injEq] at h
    exact .inl ⟨h.2.2.1.symm, h.2.2.2.symm⟩
  | succ n ih =>
    simp only [recoverState] at h
    obtain ⟨⟨r, m'⟩, _, h⟩ := Res.bind_eq_ok.1 h
    cases r with
    | none =>
      rcases ih (by omega) h with h1 | h1
      · exact .inl h1
      · exact .inr ⟨h1.1, h1.2.1, by omega⟩
    | some off =>
      simp only [Res.pure_eq, Res.ok.injEq, Prod.mk.injEq] at h
      obtain ⟨-, -, rfl, rfl⟩ := h
      refine .inr ⟨?_, by omega, by omega⟩
      rw [List.length_append, List.length_take]
      simp only [List.length_cons, List.length_nil]
      omega

/-- With the right count, the last part of `urkel_open` does what a whole one does. -/
theorem openAt_now {E : Env} {d : Dir} {rand key : B32} (hk : d.key rand = some key) {d' : Dir} {r : Option Store}
    (h : openStore E d rand = .ok (d', r)) : openAt E key d.files.length d.files = .ok (d'.files, r) := by
  unfold openStore at h
  simp only [hk] at h
  obtain ⟨⟨st, lm, fs, i⟩, e, h⟩ := Res.bind_eq_ok.1 h
  have hfs : afterRecovery d.files d.files.length fs = some (if fs.length < i then fs ++ [[]] else fs) := by
    have hl := recoverState_left (Nat.le_refl _) e
    unfold afterRecovery
    simp only [List.drop_length]
    by_cases hn : d.files.length = 0
    · rw [if_pos hn]
      rcases hl with ⟨rfl, rfl⟩ | hl
      · rfl
      · omega
    · rw [if_neg hn]
      simp only [or_true, if_true, List.append_nil]
      rcases hl with ⟨rfl, rfl⟩ | hl
      · rfl
      · rw [if_neg (by rintro rfl; simp at hl; omega), if_neg (by omega)]
  unfold openAt
  rw [if_neg (by omega), e]
  simp only [Res.bind_ok, hfs]
  obtain ⟨⟨s1, r1⟩, e1, h⟩ := Res.bind_eq_ok.1 h
  rw [e1]
  cases r1 with
  | none => simp only [Res.pure_eq, Res.ok.injEq, Prod.mk.injEq] at h; obtain ⟨rfl, rfl⟩ := h; rfl
  | some n => simp only [Res.pure_eq, Res.ok.injEq, Prod.mk.injEq] at h; obtain ⟨rfl, rfl⟩ := h; rfl

/-- The processes go by one database: whoever has it open has what all of them committed. -/
structure Shared (E : Env) (log : List (B32 × Contents)) (w : World) (s : Sys) : Prop where
  logged : Logged E log s
  dir : w.dir = s.db.dir
  holds : ∀ p, w.holder = some p → w.proc p = .inside s
  inside : ∀ p x, w.proc p = .inside x → w.holder = some p
  keyed : ∀ p k, w.proc p = .keyed k → k = s.db.store.key
  counted : ∀ p k n, w.proc p = .counted k n → k = s.db.store.key
  saw : ∀ p, w.proc p ≠ .saw false

theorem World.set_proc (w : World) (p : Nat) (x : Phase) (q : Nat) : (w.set p x).proc q = if q = p then x else w.proc q := rfl

/-- A process outside gets on to another phase outside. -/
theorem Shared.set {E : Env} {log : List (B32 × Contents)} {w : World} {s : Sys} (h : Shared E log w s) {p : Nat} {x : Phase}
    (hp : ∀ y, w.proc p ≠ .inside y) (hx : ∀ y, x ≠ .inside y) (hk : ∀ k, x = .keyed k → k = s.db.store.key)
    (hc : ∀ k n, x = .counted k n → k = s.db.store.key) (hs : x ≠ .saw false) : Shared E log (w.set p x) s := by
  refine ⟨h.logged, h.dir, ?_, ?_, ?_, ?_, ?_⟩
  · intro q e
    rw [World.set_proc, if_neg]
    · exact h.holds q e
    · rintro rfl; exact hp _ (h.holds q e)
  · intro q y e
    rw [World.set_proc] at e
    split at e
    · exact absurd e (hx y)
    · exact h.inside q y e
  · intro q k e
    rw [World.set_proc] at e
    split at e
    · exact hk k e
    · exact h.keyed q k e
  · intro q k n e
    rw [World.set_proc] at e
    split at e
    · exact hc k n e
    · exact h.counted q k n e
  · intro q e
    rw [World.set_proc] at e
    split at e
    · exact hs e
    · exact h.saw q e

/-- The process inside makes a call. -/
theorem Shared.called {E : Env} {log log' : List (B32 × Contents)} {w : World} {s s' : Sys} (h : Shared E log w s) {p : Nat}
    (hp : w.proc p = .inside s) (hl : Logged E log' s') (hk : s'.db.store.key = s.db.store.key) :
    Shared E log' (({ w with dir := { w.dir with files := s'.db.store.files } } : World).set p (.inside s')) s' := by
  have hh : w.holder = some p := h.inside p s hp
  refine ⟨hl, ?_, ?_, ?_, ?_, ?_, ?_⟩
  · show (⟨w.dir.keyFile, s'.db.store.files⟩ : Dir) = s'.db.dir
    rw [h.dir]; unfold Db.dir; rw [hk]
  · intro q e
    have e : w.holder = some q := e
    rw [hh] at e; cases e
    rw [World.set_proc, if_pos rfl]
  · intro q y e
    rw [World.set_proc] at e
    split at e
    · rename_i hq; rw [hq]; exact hh
    · exact h.inside q y e
  · intro q k e
    rw [World.set_proc] at e
    split at e
    · cases e
    · rw [hk]; exact h.keyed q k e
  · intro q k n e
    rw [World.set_proc] at e
    split at e
    · cases e
    · rw [hk]; exact h.counted q k n e
  · intro q e
    rw [World.set_proc] at e
    split at e
    · cases e
    · exact h.saw q e

/-- A call that is no `reopen`, as an event. -/
theorem procStep_call {E : Env} {w w' : World} {p : Nat} {op : Op} {r : Ret} {s : Sys} (hp : w.proc p = .inside s)
    (hop : ∀ rand, op ≠ .reopen rand) (h : procStep E w (.call p op) = .ok (w', r)) :
    ∃ s', step E s op = .ok (s', r) ∧ w' = ({ w with dir := { w.dir with files := s'.db.store.files } } : World).set p (.inside s') := by
  have h' : (step E s op >>= fun x => (pure (({ w with dir := { w.dir with files := x.1.db.store.files } } : World).set p (.inside x.1), x.2) : Res (World × Ret))) = .ok (w', r) := by
    unfold procStep at h
    simp only [hp] at h
    cases op <;> first | exact h | exact absurd rfl (hop _)
  obtain ⟨⟨s', r'⟩, e, h'⟩ := Res.bind_eq_ok.1 h'
  simp only [Res.pure_eq, Res.ok.injEq, Prod.mk.injEq] at h'
  obtain ⟨rfl, rfl⟩ := h'
  exact ⟨s', e, rfl⟩

theorem commits_not_reopen {E : Env} {s : Sys} {op : Op} {c : Contents} (h : Commits E s op c) (rand : B32) : op ≠ .reopen rand := by
  rintro rfl; exact h

theorem Together.shared {E : Env} (hE : EnvOk E) {log : List (B32 × Contents)} {w : World} (h : Together E log w) :
    ∃ s, Shared E log w s := by
  induction h with
  | @start log s hl =>
    exact ⟨s, hl, rfl, fun _ h => (nomatch h), fun _ _ h => (nomatch h), fun _ _ h => (nomatch h), fun _ _ _ h => (nomatch h), fun _ h => (nomatch h)⟩
  | @commit log w w' p op s' c _ ht e hc hin ih =>
    obtain ⟨s, ih⟩ := ih
    obtain ⟨x, hp, hc⟩ := hc
    have hx : x = s := by have := ih.holds p (ih.inside p x hp); rw [hp] at this; exact Phase.inside.inj this
    subst hx
    obtain ⟨s1, e1, rfl⟩ := procStep_call hp (commits_not_reopen hc) e
    have : s1 = s' := by rw [World.set_proc, if_pos rfl] at hin; exact Phase.inside.inj hin
    subst this
    exact ⟨s1, ih.called hp (ih.logged.commit (ht x hp) e1 hc) (step_key (commits_not_reopen hc) e1)⟩
  | @other log w w' ev r _ ht e hno ih =>
    obtain ⟨s, ih⟩ := ih
    have hkf : w.dir.keyFile = some s.db.store.key.bytes := by rw [ih.dir]; rfl
    cases ev with
    | look p =>
      dsimp only [procStep] at e
      split at e
      · rename_i hp
        cases e
        refine ⟨s, ih.set (by rw [hp]; exact fun _ h => nomatch h) (fun _ h => nomatch h) (fun _ h => nomatch h) (fun _ _ h => nomatch h) ?_⟩
        rw [hkf]; exact fun h => nomatch h
      · cases e; exact ⟨s, ih⟩
    | key p rand =>
      dsimp only [procStep] at e
      split at e
      · rename_i hp
        simp only [hkf] at e
        have hk : w.dir.key rand = some s.db.store.key := by rw [ih.dir]; exact dir_key s.db rand
        rw [hk] at e
        cases e
        exact ⟨s, ih.set (by rw [hp]; exact fun _ h => nomatch h) (fun _ h => nomatch h) (fun k h => (Phase.keyed.inj h).symm) (fun _ _ h => nomatch h) (fun h => nomatch h)⟩
      · rename_i hp
        exact absurd hp (ih.saw p)
      · cases e; exact ⟨s, ih⟩
    | count p =>
      dsimp only [procStep] at e
      split at e
      · rename_i k hp
        cases e
        exact ⟨s, ih.set (by rw [hp]; exact fun _ h => nomatch h) (fun _ h => nomatch h) (fun _ h => nomatch h)
          (fun k' n h => by cases h; exact ih.keyed p _ hp) (fun h => nomatch h)⟩
      · cases e; exact ⟨s, ih⟩
    | leave p =>
      dsimp only [procStep] at e
      split at e
      · rename_i x hp
        cases e
        have hh := ih.inside p x hp
        refine ⟨s, ih.logged, ih.dir, fun _ h => (nomatch h), ?_, ?_, ?_, ?_⟩
        · intro q y e
          rw [World.set_proc] at e
          split at e
          · cases e
          · rename_i hq
            have := ih.inside q y e
            rw [hh] at this; cases this; exact absurd rfl hq
        · intro q k e
          rw [World.set_proc] at e
          split at e
          · cases e
          · exact ih.keyed q k e
        · intro q k n e
          rw [World.set_proc] at e
          split at e
          · cases e
          · exact ih.counted q k n e
        · intro q e
          rw [World.set_proc] at e
          split at e
          · cases e
          · exact ih.saw q e
      · rename_i hp
        cases e
        exact ⟨s, ih.set hp (fun _ h => nomatch h) (fun _ h => nomatch h) (fun _ _ h => nomatch h) (fun h => nomatch h)⟩
    | call p op =>
      cases hp : w.proc p with
      | inside x =>
        have hx : x = s := by have := ih.holds p (ih.inside p x hp); rw [hp] at this; exact Phase.inside.inj this
        subst hx
        by_cases hop : ∃ rand, op = .reopen rand
        · obtain ⟨rand, rfl⟩ := hop
          dsimp only [procStep] at e
          simp only [hp] at e
          cases e
          exact ⟨x, ih⟩
        · have hop' : ∀ rand, op ≠ .reopen rand := fun rand h => hop ⟨rand, h⟩
          obtain ⟨s1, e1, rfl⟩ := procStep_call hp hop' e
          refine ⟨s1, ih.called hp (ih.logged.other (ht x hp) e1 ?_) (step_key hop' e1)⟩
          exact hno.imp id fun h c hc => h c ⟨x, hp, hc⟩
      | _ =>
        dsimp only [procStep] at e
        simp only [hp] at e
        cases e
        exact ⟨s, ih⟩
    | enter p =>
      dsimp only [procStep] at e
      split at e
      · rename_i k n hp
        have hout : ∀ y, w.proc p ≠ .inside y := by rw [hp]; exact fun _ h => nomatch h
        split at e
        · cases e
          exact ⟨s, ih.set hout (fun _ h => nomatch h) (fun _ h => nomatch h) (fun _ _ h => nomatch h) (fun h => nomatch h)⟩
        · rename_i hh
          have hh : w.holder = none := Decidable.not_not.1 hh
          obtain ⟨hn, hal⟩ := ht k n hp hh
          obtain ⟨sp, hist, hs⟩ := ih.logged.reachable.sim hE
          have hdf : w.dir.files = s.db.store.files := by rw [ih.dir]; rfl
          obtain ⟨db', eo, _, hf, hk', _⟩ := reopen_ok hE hs.db (by rw [← hdf]; exact hal) B32.zero
          have hst : step E s (.reopen B32.zero) = .ok (⟨db', fun _ => none⟩, .unit) := by
            simp only [step, eo, Res.bind_ok, Res.pure_eq]
          have hl' : Logged E log ⟨db', fun _ => none⟩ :=
            ih.logged.other (op := .reopen B32.zero) (by show _ % 38 = 0; rw [← hdf]; exact hal) hst (.inr fun c h => h)
          have heo := eo
          unfold dbOpen at heo
          obtain ⟨⟨d1, r1⟩, e1, heo⟩ := Res.bind_eq_ok.1 heo
          cases r1 with
          | none => cases heo
          | some st =>
            simp only [Res.pure_eq, Res.ok.injEq, Prod.mk.injEq, Except.ok.injEq] at heo
            obtain ⟨rfl, rfl⟩ := heo
            have hat := openAt_now (dir_key s.db B32.zero) e1
            have hkk := ih.counted p k n hp
            subst hkk
            have hdf' : s.db.dir.files = w.dir.files := by rw [ih.dir]
            rw [hdf', ← hn] at hat
            rw [hat] at e
            simp only [Res.bind_ok, Res.pure_eq, Res.ok.injEq, Prod.mk.injEq] at e
            obtain ⟨rfl, -⟩ := e
            refine ⟨_, hl', ?_, ?_, ?_, ?_, ?_, ?_⟩
            · show (⟨w.dir.keyFile, w.dir.files⟩ : Dir) = Db.dir _
              unfold Db.dir
              rw [hkf, hdf, hf, hk']
            · intro q e
              cases e
              rw [World.set_proc, if_pos rfl]
            · intro q y e
              rw [World.set_proc] at e
              split at e
              · rename_i hq; rw [hq]; rfl
              · have := ih.inside q y e
                rw [hh] at this; cases this
            · intro q k e
              rw [World.set_proc] at e
              split at e
              · cases e
              · rw [hk']; exact ih.keyed q k e
            · intro q k n e
              rw [World.set_proc] at e
              split at e
              · cases e
              · rw [hk']; exact ih.counted q k n e
            · intro q e
              rw [World.set_proc] at e
              split at e
              · cases e
              · exact ih.saw q e
      · cases e; exact ⟨s, ih⟩

/-- The process that has the database open is the only one, it has the lock, and it has all that
the processes have committed, in order: every committed root can be opened and shows what was committed. -/
theorem C80_together_partial {E : Env} (hE : EnvOk E) {log : List (B32 × Contents)} {w : World} (h : Together E log w) {p : Nat} {s : Sys}
    (hp : w.proc p = .inside s) :
    w.holder = some p ∧ (∀ q s', w.proc q = .inside s' → q = p) ∧ w.dir = s.db.dir ∧ Logged E log s ∧
    ∀ hc ∈ (B32.zero, Contents.empty) :: log, ∃ db' tx c', txCreate E s.db (some hc.1) = .ok (db', .ok tx) ∧ Shows db' tx c' ∧
      (c' = hc.2 ∨ TreesCollide E.H hc.2 c') := by
  obtain ⟨x, hx⟩ := h.shared hE
  have hh := hx.inside p s hp
  have : x = s := by have := hx.holds p hh; rw [hp] at this; exact (Phase.inside.inj this).symm
  subst this
  refine ⟨hh, ?_, hx.dir, hx.logged, ?_⟩
  · intro q s' hq
    have := hx.inside q s' hq
    rw [hh] at this; exact (Option.some.inj this).symm
  · rintro ⟨r, c⟩ hm
    obtain ⟨db', tx, c', e, hs, _, hc⟩ := C19_snapshots hE hx.logged hm
    exact ⟨db', tx, c', e, hs, hc⟩

theorem procRun_cons {E : Env} {w w1 w2 : World} {ev : ProcEv} {evs : List ProcEv} {r : Ret} {rs : List Ret}
    (h1 : procStep E w ev = .ok (w1, r)) (h2 : procRun E w1 evs = .ok (w2, rs)) : procRun E w (ev :: evs) = .ok (w2, r :: rs) := by
  simp only [procRun, h1, h2, Res.bind_ok, Res.pure_eq]

theorem procRun_cons_inv {E : Env} {w w2 : World} {ev : ProcEv} {evs : List ProcEv} {rs : List Ret}
    (h : procRun E w (ev :: evs) = .ok (w2, rs)) :
    ∃ w1 r rs', procStep E w ev = .ok (w1, r) ∧ procRun E w1 evs = .ok (w2, rs') ∧ rs = r :: rs' := by
  simp only [procRun] at h
  obtain ⟨⟨w1, r⟩, h1, h⟩ := Res.bind_eq_ok.1 h
  obtain ⟨⟨w2', rs'⟩, h2, h⟩ := Res.bind_eq_ok.1 h
  simp only [Res.pure_eq, Res.ok.injEq, Prod.mk.injEq] at h
  obtain ⟨rfl, rfl⟩ := h
  exact ⟨w1, r, rs', h1, h2, rfl⟩

/-- When nobody has the database open and the files end where a record starts, a process that opens it without
interruption succeeds and finds the last commit, whichever process made it; the directory stays as it is. -/
theorem C80_open_partial {E : Env} (hE : EnvOk E) {log : List (B32 × Contents)} {w : World} (h : Together E log w) {p : Nat} (rand : B32)
    (hnone : ∀ q y, w.proc q ≠ .inside y) (hout : w.proc p = .out) (hal : (w.dir.files.getLastD []).length % 38 = 0) :
    ∃ w' s tx, procRun E w (opening p rand) = .ok (w', [.unit, .unit, .unit, .unit]) ∧ Together E log w' ∧ w'.dir = w.dir ∧
      (∀ q, q ≠ p → w'.proc q = w.proc q) ∧
      w'.proc p = .inside s ∧ dbRoot s.db = (log.map Prod.fst).headD B32.zero ∧ s.db.revert = false ∧
      txCreate E s.db none = .ok (s.db, .ok tx) ∧ Shows s.db tx ((log.map Prod.snd).headD Contents.empty) := by
  obtain ⟨x, hx⟩ := h.shared hE
  have hfree : w.holder = none := by
    cases hh : w.holder with
    | none => rfl
    | some q => exact absurd (hx.holds q hh) (hnone q _)
  have hkf : w.dir.keyFile = some x.db.store.key.bytes := by rw [hx.dir]; rfl
  have hdf : w.dir.files = x.db.store.files := by rw [hx.dir]; rfl
  have hk : w.dir.key rand = some x.db.store.key := by rw [hx.dir]; exact dir_key x.db rand
  have hal' : (x.db.store.files.getLastD []).length % 38 = 0 := by rw [← hdf]; exact hal
  obtain ⟨db', tx, eo, hroot, hcr, hsh, -⟩ := C23_reopen_partial hE hx.logged (.inr hal') rand
  obtain ⟨sp, hist, hs⟩ := hx.logged.reachable.sim hE
  obtain ⟨db2, eo2, -, hf, hk', -, hrv⟩ := reopen_ok hE hs.db hal' rand
  rw [eo] at eo2
  obtain rfl : db' = db2 := Except.ok.inj (Prod.mk.inj (Res.ok.inj eo2)).2
  have heo := eo
  unfold dbOpen at heo
  obtain ⟨⟨d1, r1⟩, e1, heo⟩ := Res.bind_eq_ok.1 heo
  cases r1 with
  | none => cases heo
  | some st =>
    simp only [Res.pure_eq, Res.ok.injEq, Prod.mk.injEq, Except.ok.injEq] at heo
    obtain ⟨rfl, rfl⟩ := heo
    have hat := openAt_now (dir_key x.db rand) e1
    rw [show x.db.dir.files = w.dir.files by rw [hx.dir]] at hat
    let w1 := w.set p (.saw true)
    let w2 := w1.set p (.keyed x.db.store.key)
    let w3 := w2.set p (.counted x.db.store.key w.dir.files.length)
    let y : Sys := ⟨⟨st, rootHash st, false⟩, fun _ => none⟩
    let w4 : World := ({ w3 with holder := some p } : World).set p (.inside y)
    have s1 : procStep E w (.look p) = .ok (w1, .unit) := by
      dsimp only [procStep]; rw [hout, hkf]; rfl
    have s2 : procStep E w1 (.key p rand) = .ok (w2, .unit) := by
      dsimp only [procStep]
      rw [show w1.proc p = .saw true from if_pos rfl, show w1.dir.keyFile = some x.db.store.key.bytes from hkf,
        show w1.dir.key rand = some x.db.store.key from hk]
    have s3 : procStep E w2 (.count p) = .ok (w3, .unit) := by
      dsimp only [procStep]
      rw [show w2.proc p = .keyed x.db.store.key from if_pos rfl]
      rfl
    have s4 : procStep E w3 (.enter p) = .ok (w4, .unit) := by
      dsimp only [procStep]
      rw [show w3.proc p = .counted x.db.store.key w.dir.files.length from if_pos rfl]
      dsimp only
      rw [if_neg (show ¬ w3.holder ≠ none by intro h; exact h hfree), show w3.dir.files = w.dir.files from rfl, hat]
      rfl
    have t1 : Together E log w1 := h.other (ev := .look p) trivial s1 (.inr fun _ h => h)
    have t2 : Together E log w2 := t1.other (ev := .key p rand) trivial s2 (.inr fun _ h => h)
    have t3 : Together E log w3 := t2.other (ev := .count p) trivial s3 (.inr fun _ h => h)
    have t4 : Together E log w4 := by
      refine t3.other (ev := .enter p) ?_ s4 (.inr fun _ h => h)
      intro k n hp _
      rw [show w3.proc p = .counted x.db.store.key w.dir.files.length from if_pos rfl] at hp
      cases hp
      exact ⟨rfl, hal⟩
    refine ⟨w4, y, tx, procRun_cons s1 (procRun_cons s2 (procRun_cons s3 (procRun_cons s4 rfl))), t4, ?_, ?_, if_pos rfl, hroot, hrv, hcr, hsh⟩
    · exact rfl
    · intro q hq
      simp only [w4, w3, w2, w1, World.set, if_neg hq]

/-- Whatever the other processes do, a process that has the database open is not disturbed: neither the directory nor what the
process has changes. The directory has its key file and no process is about to create it. Nothing is assumed about
counts. -/
theorem C80_undisturbed_partial {E : Env} {w w' : World} {p : Nat} {s : Sys} {evs : List ProcEv} {rs : List Ret}
    (hp : w.proc p = .inside s) (hh : w.holder = some p) (hothers : ∀ q x, w.proc q = .inside x → q = p)
    (hkey : w.dir.keyFile ≠ none) (hsaw : ∀ q, w.proc q ≠ .saw false) (hby : ∀ ev ∈ evs, ev.by ≠ p)
    (e : procRun E w evs = .ok (w', rs)) : w'.dir = w.dir ∧ w'.proc p = .inside s ∧ w'.holder = some p := by
  induction evs generalizing w rs with
  | nil => cases e; exact ⟨rfl, hp, hh⟩
  | cons ev evs ih =>
    obtain ⟨w1, r, rs', e1, e2, rfl⟩ := procRun_cons_inv e
    have hq : ev.by ≠ p := hby ev (List.mem_cons_self ..)
    have hqi : ∀ x, w.proc ev.by ≠ .inside x := fun x hx => hq (hothers _ _ hx)
    suffices hw : w1 = w ∨ ∃ x, w1 = w.set ev.by x ∧ (∀ y, x ≠ .inside y) ∧ x ≠ .saw false by
      rcases hw with rfl | ⟨x, rfl, hx, hx'⟩
      · exact ih hp hh hothers hkey hsaw (fun ev h => hby ev (List.mem_cons_of_mem _ h)) e2
      · refine ih (w := w.set ev.by x) ?_ hh ?_ hkey ?_ (fun ev h => hby ev (List.mem_cons_of_mem _ h)) e2
        · rw [World.set_proc, if_neg (Ne.symm hq)]; exact hp
        · intro q y h
          rw [World.set_proc] at h
          split at h
          · exact absurd h (hx y)
          · exact hothers q y h
        · intro q h
          rw [World.set_proc] at h
          split at h
          · exact hx' h
          · exact hsaw q h
    cases ev with
    | look q =>
      dsimp only [procStep] at e1
      split at e1
      · cases e1
        obtain ⟨b, hb⟩ := Option.ne_none_iff_exists'.1 hkey
        exact .inr ⟨_, rfl, (fun _ h => nomatch h), (by rw [hb]; exact fun h => nomatch h)⟩
      · cases e1; exact .inl rfl
    | key q rand =>
      dsimp only [procStep] at e1
      split at e1
      · split at e1
        · cases e1; exact .inr ⟨_, rfl, (fun _ h => nomatch h), (fun h => nomatch h)⟩
        · split at e1
          · cases e1; exact .inr ⟨_, rfl, (fun _ h => nomatch h), (fun h => nomatch h)⟩
          · cases e1; exact .inr ⟨_, rfl, (fun _ h => nomatch h), (fun h => nomatch h)⟩
      · rename_i h; exact absurd h (hsaw q)
      · cases e1; exact .inl rfl
    | count q =>
      dsimp only [procStep] at e1
      split at e1
      · cases e1; exact .inr ⟨_, rfl, (fun _ h => nomatch h), (fun h => nomatch h)⟩
      · cases e1; exact .inl rfl
    | enter q =>
      dsimp only [procStep] at e1
      split at e1
      · rw [if_pos (by rw [hh]; exact fun h => nomatch h)] at e1
        cases e1; exact .inr ⟨_, rfl, (fun _ h => nomatch h), (fun h => nomatch h)⟩
      · cases e1; exact .inl rfl
    | call q op =>
      dsimp only [procStep] at e1
      split at e1
      · rename_i x hx; exact absurd hx (hqi x)
      · cases e1; exact .inl rfl
    | leave q =>
      dsimp only [procStep] at e1
      split at e1
      · rename_i x hx; exact absurd hx (hqi x)
      · cases e1; exact .inr ⟨_, rfl, (fun _ h => nomatch h), (fun h => nomatch h)⟩

/-- The count of a process stays right as long as no other process opens the database: if nobody has it open when the
files are counted and none takes the lock before the process does, the files are still the ones that were counted. -/
theorem C80_window_partial {E : Env} {w w' : World} {p : Nat} {k : B32} {n : Nat} {evs : List ProcEv} {rs : List Ret}
    (hp : w.proc p = .counted k n) (hn : n = w.dir.files.length) (hfree : w.holder = none) (hin : ∀ q x, w.proc q ≠ .inside x)
    (hby : ∀ ev ∈ evs, ev.by ≠ p ∧ ∀ q, ev ≠ .enter q) (e : procRun E w evs = .ok (w', rs)) :
    w'.proc p = .counted k n ∧ n = w'.dir.files.length ∧ w'.holder = none := by
  induction evs generalizing w rs with
  | nil => cases e; exact ⟨hp, hn, hfree⟩
  | cons ev evs ih =>
    obtain ⟨w1, r, rs', e1, e2, rfl⟩ := procRun_cons_inv e
    obtain ⟨hq, hne⟩ := hby ev (List.mem_cons_self ..)
    suffices hw : w1.dir.files = w.dir.files ∧ w1.holder = w.holder ∧ ((∃ x, (∀ y, x ≠ .inside y) ∧ w1.proc = fun q => if q = ev.by then x else w.proc q) ∨ w1.proc = w.proc) by
      obtain ⟨hf, hh, hw⟩ := hw
      refine ih (w := w1) ?_ (by rw [hf]; exact hn) (by rw [hh]; exact hfree) ?_ (fun ev h => hby ev (List.mem_cons_of_mem _ h)) e2
      · rcases hw with ⟨x, _, hw⟩ | hw
        · rw [hw]; dsimp only; rw [if_neg (Ne.symm hq)]; exact hp
        · rw [hw]; exact hp
      · intro q y h
        rcases hw with ⟨x, hx, hw⟩ | hw
        · rw [hw] at h
          dsimp only at h
          split at h
          · exact hx y h
          · exact hin q y h
        · rw [hw] at h; exact hin q y h
    cases ev with
    | look q =>
      dsimp only [procStep] at e1
      split at e1
      · cases e1; refine ⟨rfl, rfl, .inl ⟨_, ?_, rfl⟩⟩; exact fun _ h => nomatch h
      · cases e1; exact ⟨rfl, rfl, .inr rfl⟩
    | key q rand =>
      dsimp only [procStep] at e1
      split at e1
      · split at e1
        · cases e1; refine ⟨rfl, rfl, .inl ⟨_, ?_, rfl⟩⟩; exact fun _ h => nomatch h
        · split at e1
          · cases e1; refine ⟨rfl, rfl, .inl ⟨_, ?_, rfl⟩⟩; exact fun _ h => nomatch h
          · cases e1; refine ⟨rfl, rfl, .inl ⟨_, ?_, rfl⟩⟩; exact fun _ h => nomatch h
      · cases e1; refine ⟨rfl, rfl, .inl ⟨_, ?_, rfl⟩⟩; exact fun _ h => nomatch h
      · cases e1; exact ⟨rfl, rfl, .inr rfl⟩
    | count q =>
      dsimp only [procStep] at e1
      split at e1
      · cases e1; refine ⟨rfl, rfl, .inl ⟨_, ?_, rfl⟩⟩; exact fun _ h => nomatch h
      · cases e1; exact ⟨rfl, rfl, .inr rfl⟩
    | enter q => exact absurd rfl (hne q)
    | call q op =>
      dsimp only [procStep] at e1
      split at e1
      · rename_i x hx; exact absurd hx (hin q x)
      · cases e1; exact ⟨rfl, rfl, .inr rfl⟩
    | leave q =>
      dsimp only [procStep] at e1
      split at e1
      · rename_i x hx; exact absurd hx (hin q x)
      · cases e1; refine ⟨rfl, rfl, .inl ⟨_, ?_, rfl⟩⟩; exact fun _ h => nomatch h

/-- Whoever has the database open has the lock, whatever the order of the events and however wrong the counts. -/
theorem procStep_holder {E : Env} {w w' : World} {ev : ProcEv} {r : Ret} (h : ∀ p x, w.proc p = .inside x → w.holder = some p)
    (e : procStep E w ev = .ok (w', r)) : ∀ p x, w'.proc p = .inside x → w'.holder = some p := by
  have hset : ∀ (d : Dir) (q : Nat) (x : Phase), (∀ y, x ≠ .inside y) → (∀ y, w.proc q ≠ .inside y) →
      ∀ p y, (({ w with dir := d } : World).set q x).proc p = .inside y → (({ w with dir := d } : World).set q x).holder = some p := by
    intro d q x hx _ p y hp
    rw [World.set_proc] at hp
    split at hp
    · exact absurd hp (hx y)
    · exact h p y hp
  have hno : ∀ {q : Nat} {y : Phase}, w.proc q = y → (∀ z, y ≠ .inside z) → ∀ z, w.proc q ≠ .inside z := fun hq hy => by rw [hq]; exact hy
  cases ev with
  | look q =>
    dsimp only [procStep] at e
    split at e
    · rename_i hq
      cases e; exact hset w.dir q _ (fun _ h => nomatch h) (hno hq fun _ h => nomatch h)
    · cases e; exact h
  | key q rand =>
    dsimp only [procStep] at e
    split at e
    · rename_i hq
      split at e
      · cases e; exact hset w.dir q _ (fun _ h => nomatch h) (hno hq fun _ h => nomatch h)
      · split at e
        · cases e; exact hset w.dir q _ (fun _ h => nomatch h) (hno hq fun _ h => nomatch h)
        · cases e; exact hset w.dir q _ (fun _ h => nomatch h) (hno hq fun _ h => nomatch h)
    · rename_i hq
      cases e; exact hset _ q _ (fun _ h => nomatch h) (hno hq fun _ h => nomatch h)
    · cases e; exact h
  | count q =>
    dsimp only [procStep] at e
    split at e
    · rename_i hq
      cases e; exact hset w.dir q _ (fun _ h => nomatch h) (hno hq fun _ h => nomatch h)
    · cases e; exact h
  | enter q =>
    dsimp only [procStep] at e
    split at e
    · rename_i hq
      have hq := hno hq fun _ h => nomatch h
      split at e
      · cases e; exact hset w.dir q _ (fun _ h => nomatch h) hq
      · rename_i hh
        have hh : w.holder = none := Decidable.not_not.1 hh
        obtain ⟨⟨fs, r1⟩, _, e⟩ := Res.bind_eq_ok.1 e
        cases r1 with
        | none => cases e; exact hset _ q _ (fun _ h => nomatch h) hq
        | some st =>
          cases e
          intro p y hp
          rw [World.set_proc] at hp
          split at hp
          · rename_i hpq; rw [hpq]; rfl
          · have := h p y hp
            rw [hh] at this; cases this
    · cases e; exact h
  | call q op =>
    cases hq : w.proc q with
    | inside x =>
      by_cases hop : ∃ rand, op = .reopen rand
      · obtain ⟨rand, rfl⟩ := hop
        dsimp only [procStep] at e
        simp only [hq] at e
        cases e; exact h
      · obtain ⟨s1, _, rfl⟩ := procStep_call hq (fun rand h => hop ⟨rand, h⟩) e
        intro p y hp
        rw [World.set_proc] at hp
        split at hp
        · rename_i hpq; rw [hpq]; exact h q x hq
        · exact h p y hp
    | _ =>
      dsimp only [procStep] at e
      simp only [hq] at e
      cases e; exact h
  | leave q =>
    dsimp only [procStep] at e
    split at e
    · rename_i x hq
      cases e
      intro p y hp
      rw [World.set_proc] at hp
      split at hp
      · cases hp
      · rename_i hpq
        have h1 := h p y hp
        rw [h q x hq] at h1
        exact absurd (Option.some.inj h1).symm hpq
    · rename_i hq
      cases e; exact hset w.dir q _ (fun _ h => nomatch h) hq

/-- An `urkel_open` that fails leaves the lock as it was, and the process outside; the other processes do not notice. -/
theorem C80_failed {E : Env} {w w' : World} {ev : ProcEv} {x : Err} (e : procStep E w ev = .ok (w', .fail x)) (hop : ∀ p op, ev ≠ .call p op) :
    w'.holder = w.holder ∧ w'.proc ev.by = .out ∧ ∀ q, q ≠ ev.by → w'.proc q = w.proc q := by
  have hset : ∀ (d : Dir) (q : Nat), ev.by = q → (({ w with dir := d } : World).set q .out).holder = w.holder ∧
      (({ w with dir := d } : World).set q .out).proc ev.by = .out ∧ ∀ p, p ≠ ev.by → (({ w with dir := d } : World).set q .out).proc p = w.proc p := by
    rintro d q rfl
    exact ⟨rfl, if_pos rfl, fun p hp => if_neg hp⟩
  cases ev with
  | look q =>
    dsimp only [procStep] at e
    split at e <;> cases e
  | key q rand =>
    dsimp only [procStep] at e
    split at e
    · split at e
      · cases e; exact hset w.dir q rfl
      · split at e
        · cases e; exact hset w.dir q rfl
        · cases e
    · cases e
    · cases e
  | count q =>
    dsimp only [procStep] at e
    split at e <;> cases e
  | enter q =>
    dsimp only [procStep] at e
    split at e
    · split at e
      · cases e; exact hset w.dir q rfl
      · obtain ⟨⟨fs, r1⟩, _, e⟩ := Res.bind_eq_ok.1 e
        cases r1 with
        | none => cases e; exact hset _ q rfl
        | some st => cases e
    · cases e
  | call q op => exact absurd rfl (hop q op)
  | leave q =>
    dsimp only [procStep] at e
    split at e <;> cases e

/-- At most one process has the database open, in every order of events from a directory nobody uses. -/
theorem C80_one {E : Env} {d : Dir} {evs : List ProcEv} {w : World} {rs : List Ret} (e : procRun E (.idle d) evs = .ok (w, rs))
    {p q : Nat} {x y : Sys} (hp : w.proc p = .inside x) (hq : w.proc q = .inside y) : p = q ∧ x = y ∧ w.holder = some p := by
  have : ∀ (evs : List ProcEv) (w0 : World) (rs : List Ret), (∀ p x, w0.proc p = .inside x → w0.holder = some p) →
      procRun E w0 evs = .ok (w, rs) → ∀ p x, w.proc p = .inside x → w.holder = some p := by
    intro evs
    induction evs with
    | nil => intro w0 rs h e; cases e; exact h
    | cons ev evs ih =>
      intro w0 rs h e
      obtain ⟨w1, r, rs', e1, e2, rfl⟩ := procRun_cons_inv e
      exact ih w1 rs' (procStep_holder h e1) e2
  have h := this evs _ rs (fun _ _ h => (by cases h)) e
  have h1 := h p x hp
  have h2 := h q y hq
  rw [h1] at h2
  obtain rfl := Option.some.inj h2
  rw [hp] at hq
  exact ⟨rfl, Phase.inside.inj hq, h1⟩

/-- A call that is no `reopen` and succeeds in the model of one process, as an event. -/
theorem call_step {E : Env} {w : World} {p : Nat} {op : Op} {r : Ret} {s s' : Sys} (hp : w.proc p = .inside s)
    (hop : ∀ rand, op ≠ .reopen rand) (h : step E s op = .ok (s', r)) :
    procStep E w (.call p op) = .ok (({ w with dir := { w.dir with files := s'.db.store.files } } : World).set p (.inside s'), r) := by
  have h' : procStep E w (.call p op) = (step E s op >>= fun x => (pure (({ w with dir := { w.dir with files := x.1.db.store.files } } : World).set p (.inside x.1), x.2) : Res (World × Ret))) := by
    dsimp only [procStep]
    rw [hp]
    cases op <;> first | rfl | exact absurd rfl (hop _)
  rw [h', h]; rfl

/-- The hypotheses of `C80_together_partial`, `C80_open_partial` and `C80_undisturbed_partial` are met: a first process has made two commits; process 1
opens the database, process 2 looks, reads the key, counts the files and is refused; process 1 commits and closes, and
process 2 opens the database and finds all three commits. -/
theorem C80_example : ∃ (log : List (B32 × Contents)) (w : World) (s : Sys) (tx : Tx), log.length = 3 ∧ Together toyEnv log w ∧ w.proc 2 = .inside s ∧
    w.holder = some 2 ∧ txCreate toyEnv s.db none = .ok (s.db, .ok tx) ∧ txGet s.db tx (keyOf 3) = .ok [9] ∧ txGet s.db tx (keyOf 1) = .ok [7] := by
  obtain ⟨s0, h1, h2, g0, -, -, -, -⟩ := demo2
  have t0 : Together toyEnv _ _ := .start g0.logged
  have hal0 := g0.aligned toyEnv_ok
  obtain ⟨w1, x1, tx1, -, t1, hd1, ho1, hp1, hr1, hv1, hc1, hs1⟩ := C80_open_partial toyEnv_ok t0 (p := 1) B32.zero (fun _ _ h => nomatch h) rfl hal0
  -- process 2 is refused
  have hw1p2 : w1.proc 2 = .out := ho1 2 (by decide)
  obtain ⟨hh1, -, hdir1, hl1, -⟩ := C80_together_partial toyEnv_ok t1 hp1
  have hkf : w1.dir.keyFile = some x1.db.store.key.bytes := by rw [hdir1]; rfl
  have hk : w1.dir.key B32.zero = some x1.db.store.key := by rw [hdir1]; exact dir_key _ _
  have a1 : procStep toyEnv w1 (.look 2) = .ok (w1.set 2 (.saw true), .unit) := by
    dsimp only [procStep]; rw [hw1p2, hkf]; rfl
  have u1 := t1.other (ev := .look 2) trivial a1 (.inr fun _ h => h)
  generalize hw2 : w1.set 2 (.saw true) = w2 at a1 u1
  have a2 : procStep toyEnv w2 (.key 2 B32.zero) = .ok (w2.set 2 (.keyed x1.db.store.key), .unit) := by
    subst hw2
    dsimp only [procStep]
    rw [World.set_proc, if_pos rfl, show (w1.set 2 (.saw true)).dir.keyFile = _ from hkf, show (w1.set 2 (.saw true)).dir.key B32.zero = _ from hk]
  have u2 := u1.other (ev := .key 2 B32.zero) trivial a2 (.inr fun _ h => h)
  generalize hw3 : w2.set 2 (.keyed x1.db.store.key) = w3 at a2 u2
  have a3 : procStep toyEnv w3 (.count 2) = .ok (w3.set 2 (.counted x1.db.store.key w3.dir.files.length), .unit) := by
    subst hw3
    dsimp only [procStep]
    rw [World.set_proc, if_pos rfl]
  have u3 := u2.other (ev := .count 2) trivial a3 (.inr fun _ h => h)
  generalize hw4 : w3.set 2 (.counted x1.db.store.key w3.dir.files.length) = w4 at a3 u3
  have hh4 : w4.holder = some 1 := by subst hw4 hw3 hw2; exact hh1
  have a4 : procStep toyEnv w4 (.enter 2) = .ok (w4.set 2 .out, .fail .EBADOPEN) := by
    dsimp only [procStep]
    rw [show w4.proc 2 = .counted x1.db.store.key w3.dir.files.length by subst hw4; rw [World.set_proc, if_pos rfl]]
    dsimp only
    rw [if_pos (by rw [hh4]; exact fun h => nomatch h)]
  have u4 := u3.other (ev := .enter 2) (fun _ _ _ h => by rw [hh4] at h; cases h) a4 (.inr fun _ h => h)
  have hp4 : (w4.set 2 .out).proc 1 = .inside x1 := by
    subst hw4 hw3 hw2; exact hp1
  have hp52 : (w4.set 2 .out).proc 2 = .out := by rw [World.set_proc, if_pos rfl]
  generalize w4.set 2 .out = w5 at a4 u4 hp4 hp52
  -- process 1 commits
  have hone : x1.db.store.files.length = 1 := by
    have : w1.dir.files = s0.db.store.files := by rw [hd1]; rfl
    rw [hdir1] at this
    rw [show x1.db.store.files = s0.db.store.files from this]; exact g0.one
  obtain ⟨x2, e2, g2⟩ := good_create toyEnv_ok hl1 hv1 hone (l := [(keyOf 1, [7]), (keyOf 129, [])]) (by decide) rfl
  have b2 := call_step hp4 (op := .create 0 none) (fun _ h => (by cases h)) e2
  have v2 := u4.other (ev := .call 1 (.create 0 none)) (fun _ _ => trivial) b2 (.inr fun c ⟨_, _, h⟩ => h)
  generalize hw6 : World.set _ 1 (.inside x2) = w6 at b2 v2
  have hp6 : w6.proc 1 = .inside x2 := by subst hw6; rw [World.set_proc, if_pos rfl]
  obtain ⟨x3, e3, g3⟩ := good_insert toyEnv_ok g2 (keyOf 3) [9] (by decide)
  have b3 := call_step hp6 (op := .insert 0 (keyOf 3) [9]) (fun _ h => (by cases h)) e3
  have v3 := v2.other (ev := .call 1 (.insert 0 (keyOf 3) [9])) (fun y hy => by
      rw [hp6] at hy; cases hy
      obtain ⟨tx, h, -⟩ := g2.tx
      show x2.txs 0 ≠ none
      rw [h]; exact fun h => nomatch h) b3 (.inr fun c ⟨_, _, h⟩ => h)
  generalize hw7 : World.set _ 1 (.inside x3) = w7 at b3 v3
  have hp7 : w7.proc 1 = .inside x3 := by subst hw7; rw [World.set_proc, if_pos rfl]
  -- the commit
  have hal1 : (x1.db.store.files.getLastD []).length ≤ 2000 := by
    have : w1.dir.files = s0.db.store.files := by rw [hd1]; rfl
    rw [hdir1] at this
    rw [show x1.db.store.files = s0.db.store.files from this, List.getLastD_eq_getLast?]; exact g0.size
  have hsz : lastLen x1.db.store.files ≤ 2000 := by
    rw [List.getLastD_eq_getLast?] at hal1; exact hal1
  obtain ⟨x4, e4, g4, -⟩ := good_commit toyEnv_ok ⟨rfl, rfl⟩ g3 (by simp only [List.length_append, List.length_cons, List.length_nil]; omega)
  obtain ⟨tx3, htx3, hsh3⟩ := g3.tx
  have hcan : CanCommit toyEnv x3.db tx3 := by
    obtain ⟨hist, t, hd, ht⟩ := g3.logged.reachable.tree toyEnv_ok htx3
    refine canCommit_of hd ht hsh3 (ofList_vals g3.short) (([(keyOf 1, [7]), (keyOf 129, [])] ++ [(keyOf 3, [9])] : List (B32 × Bytes)).map (·.1)) ofList_keys ?_
    have h1 : (x3.db.store.files.getLastD []).length = lastLen x3.db.store.files := by
      rw [List.getLastD_eq_getLast?]; rfl
    have h2 := g3.size
    show x3.db.store.files.length * 2147479552 + _ + 2 * (408 * 3 + 76) < 2147479552 * 32767
    rw [g3.one, h1]
    omega
  have b4 := call_step hp7 (op := .commit 0) (fun _ h => (by cases h)) e4
  have v4 := v3.commit (p := 1) (op := .commit 0) (s' := x4) (c := Contents.ofList ([(keyOf 1, [7]), (keyOf 129, [])] ++ [(keyOf 3, [9])]))
    (fun y hy => by rw [hp7] at hy; cases hy; exact ⟨tx3, htx3, hcan⟩) b4 ⟨x3, hp7, tx3, htx3, hsh3⟩ (by rw [World.set_proc, if_pos rfl])
  generalize hw8 : World.set _ 1 (.inside x4) = w8 at b4 v4
  have hp8 : w8.proc 1 = .inside x4 := by subst hw8; rw [World.set_proc, if_pos rfl]
  have hf8 : w8.dir.files = x4.db.store.files := by subst hw8; rfl
  -- process 1 closes, process 2 opens
  have b5 : procStep toyEnv w8 (.leave 1) = .ok (({ w8 with holder := none } : World).set 1 .out, .unit) := by
    dsimp only [procStep]; rw [hp8]
  have v5 := v4.other (ev := .leave 1) trivial b5 (.inr fun _ h => h)
  have hp28 : w8.proc 2 = .out := by
    subst hw8 hw7 hw6
    simp only [World.set_proc, show (2 : Nat) ≠ 1 by decide, if_false]
    exact hp52
  obtain ⟨w9, x9, tx9, -, v9, -, -, hp9, -, -, hc9, hs9⟩ := C80_open_partial toyEnv_ok v5 (p := 2) B32.zero
    (fun q y hq => by
      rw [World.set_proc] at hq
      split at hq
      · cases hq
      · rename_i hne
        exact hne ((C80_together_partial toyEnv_ok v4 hp8).2.1 q y hq))
    (by rw [World.set_proc, if_neg (by decide)]; exact hp28) (by
      show (w8.dir.files.getLastD []).length % 38 = 0
      rw [hf8]; exact g4.aligned toyEnv_ok)
  refine ⟨_, w9, x9, tx9, rfl, v9, hp9, (C80_together_partial toyEnv_ok v9 hp9).1, hc9, ?_, ?_⟩
  · rw [hs9 (keyOf 3)]
    show (Contents.ofList ([(keyOf 1, [7]), (keyOf 129, [])] ++ [(keyOf 3, [9])])).read (keyOf 3) = .ok [9]
    decide +kernel
  · rw [hs9 (keyOf 1)]
    show (Contents.ofList ([(keyOf 1, [7]), (keyOf 129, [])] ++ [(keyOf 3, [9])])).read (keyOf 1) = .ok [7]
    decide +kernel

theorem afterRecovery_above {files fs files' : List Bytes} {n i : Nat} {b : Bytes} (h : afterRecovery files n fs = some files')
    (hi : n ≤ i) (hb : files[i]? = some b) : files'[i]? = some b := by
  have hd : (files.drop n)[i - n]? = some b := by rw [List.getElem?_drop, Nat.add_sub_cancel' hi]; exact hb
  have hne : files.drop n ≠ [] := by intro e; rw [e] at hd; simp at hd
  unfold afterRecovery at h
  dsimp only at h
  by_cases h0 : n = 0
  · rw [if_pos h0, if_neg hne] at h
    cases h; subst h0; exact hd
  · rw [if_neg h0] at h
    generalize (if fs = [] then [[]] else fs) = gs at h
    by_cases hc : gs.length = n ∨ files.drop n = []
    · rw [if_pos hc] at h
      rcases hc with hc | hc
      · cases h
        rw [List.getElem?_append_right (by omega), hc]; exact hd
      · exact absurd hc hne
    · rw [if_neg hc] at h; cases h

/-- An open whose count is out of date does not touch the data files above the count, nor the key file: whatever other processes have put
there stays. (It does not see them either: `C80_count_false`.) -/
theorem C80_above_partial {E : Env} {w w' : World} {p : Nat} {k : B32} {n : Nat} {r : Ret} (hp : w.proc p = .counted k n)
    (e : procStep E w (.enter p) = .ok (w', r)) :
    w'.dir.keyFile = w.dir.keyFile ∧ ∀ i b, n ≤ i → w.dir.files[i]? = some b → w'.dir.files[i]? = some b := by
  dsimp only [procStep] at e
  rw [hp] at e
  dsimp only at e
  split at e
  · cases e; exact ⟨rfl, fun _ _ _ h => h⟩
  · obtain ⟨⟨files, x⟩, eo, e⟩ := Res.bind_eq_ok.1 e
    have hf : w'.dir = { w.dir with files := files } := by
      cases x <;> (cases e; rfl)
    rw [hf]
    refine ⟨rfl, ?_⟩
    intro i b hi hb
    show files[i]? = some b
    unfold openAt at eo
    split at eo
    · cases eo; exact hb
    · obtain ⟨⟨st, lm, fs, ix⟩, er, eo⟩ := Res.bind_eq_ok.1 eo
      dsimp only at eo
      split at eo
      · cases eo
      · rename_i files1 ha
        obtain ⟨⟨s, y⟩, es, eo⟩ := Res.bind_eq_ok.1 eo
        have h1 := afterRecovery_above ha hi hb
        have h2 := storeReadRoot_files es
        have h3 : files = s.files := by cases y <;> (cases eo; rfl)
        rw [h3, h2]; exact h1

/-- The hypotheses of `C80_above_partial` are met: of two files one was counted, and the open succeeds. -/
theorem C80_above_example : ∃ w', procStep toyEnv ⟨⟨some (keyOf 1).bytes, [[1], [2, 3]]⟩, none, fun _ => .counted (keyOf 1) 1⟩ (.enter 5) = .ok (w', .unit) ∧
    w'.dir.files = [[], [2, 3]] ∧ w'.holder = some 5 := by
  have h : (procStep toyEnv ⟨⟨some (keyOf 1).bytes, [[1], [2, 3]]⟩, none, fun _ => .counted (keyOf 1) 1⟩ (.enter 5) >>= fun x =>
      pure (x.2, x.1.dir.files, x.1.holder)) = .ok (.unit, [[], [2, 3]], some 5) := by decide +kernel
  obtain ⟨⟨w, rs⟩, e, h⟩ := Res.bind_eq_ok.1 h
  simp only [Res.pure_eq, Res.ok.injEq, Prod.mk.injEq] at h
  obtain ⟨rfl, h1, h2⟩ := h
  exact ⟨w, e, h1, h2⟩

/-! ### The order of the steps matters -/

/-- False as stated, for the count: process 1 counts the files of a new directory (none) and is then overtaken by
process 2, which opens the database, commits a pair, reads it back and closes. Process 1 takes the lock and
has an empty database; after it has committed something else, the pair is gone for everybody. -/
theorem C80_count_false : ∃ w, procRun toyEnv (.idle Dir.fresh)
    ([.look 1, .key 1 (keyOf 1), .count 1] ++ opening 2 (keyOf 2) ++
      [.call 2 (.insert1 (keyOf 3) [7]), .call 2 (.get1 (keyOf 3) none), .leave 2,
       .enter 1, .call 1 (.get1 (keyOf 3) none), .call 1 (.insert1 (keyOf 4) [8]), .leave 1] ++ opening 3 (keyOf 5) ++
      [.call 3 (.get1 (keyOf 3) none), .call 3 (.get1 (keyOf 4) none)]) =
    .ok (w, [.unit, .unit, .unit, .unit, .unit, .unit, .unit,
      .unit, .bytes [7], .unit,
      .unit, .fail .ENOTFOUND, .unit, .unit, .unit, .unit, .unit, .unit,
      .fail .ENOTFOUND, .bytes [8]]) := by
  have h : (procRun toyEnv (.idle Dir.fresh)
    ([.look 1, .key 1 (keyOf 1), .count 1] ++ opening 2 (keyOf 2) ++
      [.call 2 (.insert1 (keyOf 3) [7]), .call 2 (.get1 (keyOf 3) none), .leave 2,
       .enter 1, .call 1 (.get1 (keyOf 3) none), .call 1 (.insert1 (keyOf 4) [8]), .leave 1] ++ opening 3 (keyOf 5) ++
      [.call 3 (.get1 (keyOf 3) none), .call 3 (.get1 (keyOf 4) none)]) >>= fun x => pure x.2) =
    .ok [.unit, .unit, .unit, .unit, .unit, .unit, .unit,
      .unit, .bytes [7], .unit,
      .unit, .fail .ENOTFOUND, .unit, .unit, .unit, .unit, .unit, .unit,
      .fail .ENOTFOUND, .bytes [8]] := by decide +kernel
  obtain ⟨⟨w, rs⟩, e, h⟩ := Res.bind_eq_ok.1 h
  simp only [Res.pure_eq, Res.ok.injEq] at h
  exact ⟨w, by rw [e, ← h]⟩

/-- False as stated, for the key: processes 1 and 2 open a new directory at the same time and both find no key file.
Process 1 opens the database and commits; process 2 writes its own key over the one in use, and is then refused because the
database is in use. Process 1 still reads its pair, but after it has closed, the next open finds an empty database and has
removed the data. -/
theorem C80_key_false : ∃ w, procRun keyedEnv (.idle Dir.fresh)
    ([.look 1, .look 2, .key 1 (keyOf 1), .count 1, .enter 1, .call 1 (.insert1 (keyOf 3) [7]),
      .key 2 (keyOf 2), .count 2, .enter 2, .call 1 (.get1 (keyOf 3) none), .leave 1] ++ opening 1 (keyOf 4) ++
      [.call 1 (.get1 (keyOf 3) none)]) =
    .ok (w, [.unit, .unit, .unit, .unit, .unit, .unit,
      .unit, .unit, .fail .EBADOPEN, .bytes [7], .unit, .unit, .unit, .unit, .unit,
      .fail .ENOTFOUND]) ∧ w.dir.files = [[]] := by
  have h : (procRun keyedEnv (.idle Dir.fresh)
    ([.look 1, .look 2, .key 1 (keyOf 1), .count 1, .enter 1, .call 1 (.insert1 (keyOf 3) [7]),
      .key 2 (keyOf 2), .count 2, .enter 2, .call 1 (.get1 (keyOf 3) none), .leave 1] ++ opening 1 (keyOf 4) ++
      [.call 1 (.get1 (keyOf 3) none)]) >>= fun x => pure (x.1.dir.files, x.2)) =
    .ok ([[]], [.unit, .unit, .unit, .unit, .unit, .unit,
      .unit, .unit, .fail .EBADOPEN, .bytes [7], .unit, .unit, .unit, .unit, .unit,
      .fail .ENOTFOUND]) := by decide +kernel
  obtain ⟨⟨w, rs⟩, e, h⟩ := Res.bind_eq_ok.1 h
  simp only [Res.pure_eq, Res.ok.injEq, Prod.mk.injEq] at h
  exact ⟨w, by rw [e, ← h.2], h.1⟩

end Urkel
