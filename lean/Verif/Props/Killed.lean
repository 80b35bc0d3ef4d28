import Verif.Spec.Killed
import Verif.Props.Procs
/-
C91: several processes on one directory, killed at any moment.
-/
namespace Urkel

/-- What the processes go by: whoever has the database open has `s`; if nobody has it open, opening the files, whole or torn, gives `s`. -/
structure KShared (E : Env) (log : List (B32 × Contents)) (w : World) (s : Sys) : Prop where
  logged : Logged E log s
  key : w.dir.keyFile = some s.db.store.key.bytes
  holds : ∀ p, w.holder = some p → w.proc p = .inside s ∧ w.dir.files = s.db.store.files
  free : w.holder = none → (s.db.store.files.getLastD []).length % 38 = 0 ∧
    ∃ F, FExt s.db.store.files F ∧ NoForge E s.db.store.key s.db.store.files F ∧ (s.db.store.files = [[]] → NoMagic s.db.store.files F) ∧
      OpensCut E s.db.store.key F w.dir.files
  inside : ∀ p x, w.proc p = .inside x → w.holder = some p
  keyed : ∀ p k, w.proc p = .keyed k → k = s.db.store.key
  counted : ∀ p k n, w.proc p = .counted k n → k = s.db.store.key
  saw : ∀ p, w.proc p ≠ .saw false

/-- A process that is outside, or that leaves, gets on to another phase outside; files and lock may change with it. -/
theorem KShared.moved {E : Env} {log : List (B32 × Contents)} {w w' : World} {s : Sys} (h : KShared E log w s) {p : Nat} {x : Phase}
    (hw : w'.proc = (w.set p x).proc) (hkf : w'.dir.keyFile = w.dir.keyFile)
    (hx : ∀ y, x ≠ .inside y) (hk : ∀ k, x = .keyed k → k = s.db.store.key)
    (hc : ∀ k n, x = .counted k n → k = s.db.store.key) (hs : x ≠ .saw false)
    (hh : ∀ q, w'.holder = some q ↔ w.holder = some q ∧ q ≠ p) (hf : ∀ q, w'.holder = some q → w'.dir.files = w.dir.files)
    (hfree : w'.holder = none → (s.db.store.files.getLastD []).length % 38 = 0 ∧
      ∃ F, FExt s.db.store.files F ∧ NoForge E s.db.store.key s.db.store.files F ∧ (s.db.store.files = [[]] → NoMagic s.db.store.files F) ∧
        OpensCut E s.db.store.key F w'.dir.files) : KShared E log w' s := by
  have hpr : ∀ q, w'.proc q = if q = p then x else w.proc q := fun q => by rw [hw]; rfl
  refine ⟨h.logged, by rw [hkf]; exact h.key, ?_, hfree, ?_, ?_, ?_, ?_⟩
  · intro q e
    obtain ⟨e1, e2⟩ := (hh q).1 e
    rw [hpr, if_neg e2, hf q e]
    exact h.holds q e1
  · intro q y e
    rw [hpr] at e
    split at e
    · exact absurd e (hx y)
    · rename_i hq
      exact (hh q).2 ⟨h.inside q y e, hq⟩
  · intro q k e
    rw [hpr] at e
    split at e
    · exact hk k e
    · exact h.keyed q k e
  · intro q k n e
    rw [hpr] at e
    split at e
    · exact hc k n e
    · exact h.counted q k n e
  · intro q e
    rw [hpr] at e
    split at e
    · exact hs e
    · exact h.saw q e

/-- The special case of a process outside: neither files nor lock change. -/
theorem KShared.set {E : Env} {log : List (B32 × Contents)} {w : World} {s : Sys} (h : KShared E log w s) {p : Nat} {x : Phase}
    (hp : ∀ y, w.proc p ≠ .inside y) (hx : ∀ y, x ≠ .inside y) (hk : ∀ k, x = .keyed k → k = s.db.store.key)
    (hc : ∀ k n, x = .counted k n → k = s.db.store.key) (hs : x ≠ .saw false) : KShared E log (w.set p x) s := by
  refine h.moved rfl rfl hx hk hc hs (fun q => ?_) (fun _ _ => rfl) h.free
  show w.holder = some q ↔ _
  refine ⟨fun e => ⟨e, ?_⟩, fun e => e.1⟩
  rintro rfl
  exact hp _ (h.holds q e).1

/-- The process inside has a new state. -/
theorem KShared.called {E : Env} {log log' : List (B32 × Contents)} {w w' : World} {s s' : Sys} (h : KShared E log w s) {p : Nat}
    (hw : w'.proc = (w.set p (.inside s')).proc) (hkf : w'.dir.keyFile = w.dir.keyFile) (hf : w'.dir.files = s'.db.store.files)
    (hh : w'.holder = some p) (hp : ∀ q, w.holder = some q → q = p) (hl : Logged E log' s') (hk : s'.db.store.key = s.db.store.key) :
    KShared E log' w' s' := by
  have hpr : ∀ q, w'.proc q = if q = p then .inside s' else w.proc q := fun q => by rw [hw]; rfl
  refine ⟨hl, by rw [hkf, hk]; exact h.key, ?_, fun e => (by rw [hh] at e; cases e), ?_, ?_, ?_, ?_⟩
  · intro q e
    rw [hh] at e; cases e
    exact ⟨by rw [hpr, if_pos rfl], hf⟩
  · intro q y e
    rw [hpr] at e
    split at e
    · rename_i hq; rw [hq]; exact hh
    · rename_i hq
      exact absurd (hp q (h.inside q y e)) hq
  · intro q k e
    rw [hpr] at e
    split at e
    · cases e
    · rw [hk]; exact h.keyed q k e
  · intro q k n e
    rw [hpr] at e
    split at e
    · cases e
    · rw [hk]; exact h.counted q k n e
  · intro q e
    rw [hpr] at e
    split at e
    · cases e
    · exact h.saw q e

/-- Whole files are an image of themselves. -/
theorem image_self {E : Env} {key : B32} (F : List Bytes) :
    ∃ F', FExt F F' ∧ NoForge E key F F' ∧ (F = [[]] → NoMagic F F') ∧ OpensCut E key F' F :=
  ⟨F, FExt.refl _, noForge_self _ _ _, fun _ => noMagic_self _, .nil _⟩

theorem OpensCut.snoc {E : Env} {key : B32} {F G : List Bytes} (h : OpensCut E key F G) {G' : List Bytes} (hc : OpenCut E key G G') : OpensCut E key F G' := by
  induction h with
  | nil F => exact .cons hc (.nil _)
  | cons h1 _ ih => exact .cons h1 (ih hc)

/-- When nobody has the database open, opening it with the right key and count works and gives what there was. -/
theorem KShared.open {E : Env} (hE : EnvOk E) {log : List (B32 × Contents)} {w : World} {s : Sys} (h : KShared E log w s) (hfree : w.holder = none) :
    ∃ st, openAt E s.db.store.key w.dir.files.length w.dir.files = .ok (st.files, some st) ∧ st.key = s.db.store.key ∧
      Logged E log ⟨⟨st, rootHash st, false⟩, fun _ => none⟩ ∧ (s.db.store.files.getLastD []).length % 38 = 0 ∧
      dbOpen E s.db.dir B32.zero = .ok (s.db.dir, .ok ⟨st, rootHash st, false⟩) := by
  obtain ⟨hal, F, h1, h2, h3, h4⟩ := h.free hfree
  obtain ⟨sp, hist, hs⟩ := h.logged.reachable.sim hE
  obtain ⟨db', eo, _, hf, hk', _, hrv⟩ := reopen_ok hE hs.db hal B32.zero
  have hst : step E s (.reopen B32.zero) = .ok (⟨db', fun _ => none⟩, .unit) := by
    simp only [step, eo, Res.bind_ok, Res.pure_eq]
  have hl' : Logged E log ⟨db', fun _ => none⟩ := h.logged.other (op := .reopen B32.zero) hal hst (.inr fun c h => h)
  have eo0 := eo
  rw [← open_after_cuts hE h.logged hal h1 h2 h3 h4 B32.zero] at eo
  have hd : (⟨some s.db.store.key.bytes, w.dir.files⟩ : Dir) = w.dir := by rw [← h.key]
  rw [hd] at eo
  have hk : w.dir.key B32.zero = some s.db.store.key := by
    rw [← hd]; exact dir_key ⟨⟨s.db.store.key, w.dir.files, s.db.store.index, s.db.store.curSize, s.db.store.slab, s.db.store.cache, s.db.store.state, s.db.store.lastMeta, s.db.store.faults, s.db.store.io⟩, s.db.hash, s.db.revert⟩ B32.zero
  unfold dbOpen at eo
  obtain ⟨⟨d1, r1⟩, e1, heo⟩ := Res.bind_eq_ok.1 eo
  cases r1 with
  | none => cases heo
  | some st =>
    simp only [Res.pure_eq, Res.ok.injEq, Prod.mk.injEq, Except.ok.injEq] at heo
    obtain ⟨rfl, rfl⟩ := heo
    have hat := openAt_now hk e1
    refine ⟨st, ?_, hk', hl', hal, eo0⟩
    rw [hat]
    have : s.db.dir.files = st.files := hf.symm
    rw [← this]

theorem settled_all : ∀ log : List (B32 × Contents), Settled (log.map fun x => (x, true)) log
  | [] => .nil
  | _ :: l => .kept (settled_all l)

theorem Settled.mem {l : List ((B32 × Contents) × Bool)} {m : List (B32 × Contents)} (h : Settled l m) {x : B32 × Contents} (hx : (x, true) ∈ l) : x ∈ m := by
  induction h with
  | nil => cases hx
  | kept _ ih =>
    cases hx with
    | head => exact .head _
    | tail _ hx => exact .tail _ (ih hx)
  | lost _ ih =>
    cases hx with
    | tail _ hx => exact ih hx

theorem Killed.shared {E : Env} (hE : EnvOk E) {log : List ((B32 × Contents) × Bool)} {w : World} (h : Killed E log w) :
    ∃ log' s, KShared E log' w s ∧ Settled log log' := by
  induction h with
  | @start log s hl hal =>
    exact ⟨log, s, ⟨hl, rfl, fun _ h => (nomatch h), fun _ => ⟨hal, image_self _⟩, fun _ _ h => (nomatch h), fun _ _ h => (nomatch h), fun _ _ _ h => (nomatch h), fun _ h => (nomatch h)⟩, settled_all _⟩
  | @commit log w w' p op s' c _ ht e hc hin ih =>
    obtain ⟨log', s, ih, a⟩ := ih
    obtain ⟨x, hp, hc⟩ := hc
    have hx : x = s := by have := (ih.holds p (ih.inside p x hp)).1; rw [hp] at this; exact Phase.inside.inj this
    subst hx
    obtain ⟨s1, e1, rfl⟩ := procStep_call hp (commits_not_reopen hc) e
    have : s1 = s' := by rw [World.set_proc, if_pos rfl] at hin; exact Phase.inside.inj hin
    subst this
    have hh := ih.inside p x hp
    exact ⟨_, s1, ih.called rfl rfl rfl hh (fun q hq => by rw [hh] at hq; exact (Option.some.inj hq).symm)
      (ih.logged.commit (ht x hp) e1 hc) (step_key (commits_not_reopen hc) e1), a.kept⟩
  | @other log w w' ev r _ ht e hno ih =>
    obtain ⟨log', s, ih, a⟩ := ih
    suffices h : ∃ s, KShared E log' w' s by
      obtain ⟨s', h⟩ := h
      exact ⟨log', s', h, a⟩
    have hkf := ih.key
    cases ev with
    | look p =>
      dsimp only [procStep] at e
      split at e
      · rename_i hp
        cases e
        refine ⟨s, ih.set (by rw [hp]; exact fun _ h => nomatch h) (fun _ h => nomatch h) (fun _ h => nomatch h) (fun _ _ h => nomatch h) ?_⟩
        rw [hkf]; exact fun h => nomatch h
      · cases e; exact ⟨s, ih⟩
    | key p rand =>
      dsimp only [procStep] at e
      split at e
      · rename_i hp
        simp only [hkf] at e
        have hk : w.dir.key rand = some s.db.store.key := by
          have := dir_key s.db rand
          unfold Dir.key at this ⊢
          rw [hkf]; exact this
        rw [hk] at e
        cases e
        exact ⟨s, ih.set (by rw [hp]; exact fun _ h => nomatch h) (fun _ h => nomatch h) (fun k h => (Phase.keyed.inj h).symm) (fun _ _ h => nomatch h) (fun h => nomatch h)⟩
      · rename_i hp
        exact absurd hp (ih.saw p)
      · cases e; exact ⟨s, ih⟩
    | count p =>
      dsimp only [procStep] at e
      split at e
      · rename_i k hp
        cases e
        exact ⟨s, ih.set (by rw [hp]; exact fun _ h => nomatch h) (fun _ h => nomatch h) (fun _ h => nomatch h)
          (fun k' n h => by cases h; exact ih.keyed p _ hp) (fun h => nomatch h)⟩
      · cases e; exact ⟨s, ih⟩
    | leave p =>
      dsimp only [procStep] at e
      split at e
      · rename_i x hp
        cases e
        have hh := ih.inside p x hp
        obtain ⟨hx, hf⟩ := ih.holds p hh
        have hxs : x = s := by rw [hp] at hx; exact Phase.inside.inj hx
        subst hxs
        refine ⟨x, ih.moved (x := .out) rfl rfl (fun _ h => nomatch h) (fun _ h => nomatch h) (fun _ _ h => nomatch h) (fun h => nomatch h) ?_ (fun _ h => nomatch h) ?_⟩
        · intro q
          refine ⟨fun h => (nomatch h), fun ⟨h1, h2⟩ => ?_⟩
          rw [hh] at h1
          exact absurd (Option.some.inj h1).symm h2
        · intro _
          refine ⟨ht x hp, ?_⟩
          show ∃ F, _ ∧ _ ∧ _ ∧ OpensCut E _ F w.dir.files
          rw [hf]
          exact image_self _
      · rename_i hp
        cases e
        exact ⟨s, ih.set hp (fun _ h => nomatch h) (fun _ h => nomatch h) (fun _ _ h => nomatch h) (fun h => nomatch h)⟩
    | call p op =>
      cases hp : w.proc p with
      | inside x =>
        have hh := ih.inside p x hp
        have hx : x = s := by have := (ih.holds p hh).1; rw [hp] at this; exact Phase.inside.inj this
        subst hx
        by_cases hop : ∃ rand, op = .reopen rand
        · obtain ⟨rand, rfl⟩ := hop
          dsimp only [procStep] at e
          simp only [hp] at e
          cases e
          exact ⟨x, ih⟩
        · have hop' : ∀ rand, op ≠ .reopen rand := fun rand h => hop ⟨rand, h⟩
          obtain ⟨s1, e1, rfl⟩ := procStep_call hp hop' e
          refine ⟨s1, ih.called rfl rfl rfl hh (fun q hq => by rw [hh] at hq; exact (Option.some.inj hq).symm) (ih.logged.other (ht x hp) e1 ?_) (step_key hop' e1)⟩
          exact hno.imp id fun h c hc => h c ⟨x, hp, hc⟩
      | _ =>
        dsimp only [procStep] at e
        simp only [hp] at e
        cases e
        exact ⟨s, ih⟩
    | enter p =>
      dsimp only [procStep] at e
      split at e
      · rename_i k n hp
        have hout : ∀ y, w.proc p ≠ .inside y := by rw [hp]; exact fun _ h => nomatch h
        split at e
        · cases e
          exact ⟨s, ih.set hout (fun _ h => nomatch h) (fun _ h => nomatch h) (fun _ _ h => nomatch h) (fun h => nomatch h)⟩
        · rename_i hh
          have hh : w.holder = none := Decidable.not_not.1 hh
          have hn := ht k n hp hh
          have hkk := ih.counted p k n hp
          subst hkk
          obtain ⟨st, hat, hk', hl', -⟩ := ih.open hE hh
          rw [hn, hat] at e
          simp only [Res.bind_ok, Res.pure_eq, Res.ok.injEq, Prod.mk.injEq] at e
          obtain ⟨rfl, -⟩ := e
          exact ⟨_, ih.called rfl rfl rfl rfl (fun q hq => by rw [hh] at hq; cases hq) hl' hk'⟩
      · cases e; exact ⟨s, ih⟩
  | @inCommit log w p x s' op c F _ hp hal ha e hcm hown himg ih =>
    obtain ⟨log', s, ih, a⟩ := ih
    have hh := ih.inside p x hp
    have hx : x = s := by have := (ih.holds p hh).1; rw [hp] at this; exact Phase.inside.inj this
    subst hx
    have hkey := step_key (commits_not_reopen hcm) e
    have hno : (w.killed p F).holder = none := by
      show (if w.holder = some p then none else w.holder) = none
      rw [if_pos hh]
    have hhold : ∀ q, (w.killed p F).holder = some q ↔ w.holder = some q ∧ q ≠ p := by
      intro q
      rw [hno]
      refine ⟨fun h => (nomatch h), fun ⟨h1, h2⟩ => ?_⟩
      rw [hh] at h1
      exact absurd (Option.some.inj h1).symm h2
    by_cases hcase : F = s'.db.store.files ∧ lastLen s'.db.store.files % metaSize = 0
    · obtain ⟨rfl, hal2⟩ := hcase
      have hl2 := Logged.commit ih.logged ha e hcm
      have hal3 : (s'.db.store.files.getLastD []).length % 38 = 0 := by
        rw [List.getLastD_eq_getLast?]; exact hal2
      -- first the state of the process that made the whole commit, then its end
      have h1 := ih.called (w' := ({ w with dir := { w.dir with files := s'.db.store.files } } : World).set p (.inside s')) rfl rfl rfl hh
        (fun q hq => by rw [hh] at hq; exact (Option.some.inj hq).symm) hl2 hkey
      refine ⟨_, s', h1.moved (p := p) (x := .out) ?_ rfl (fun _ h => nomatch h) (fun _ h => nomatch h) (fun _ _ h => nomatch h) (fun h => nomatch h) hhold
        (fun q h => by rw [hno] at h; cases h) (fun _ => ⟨hal3, image_self _⟩), a.kept⟩
      funext q
      simp only [World.killed, World.set_proc]
      split <;> rfl
    · have hne : F ≠ s'.db.store.files ∨ lastLen s'.db.store.files % metaSize ≠ 0 := by
        by_cases h : F = s'.db.store.files
        · exact Or.inr fun h2 => hcase ⟨h, h2⟩
        · exact Or.inl h
      obtain ⟨c1, c2⟩ := image_clean himg hown hne
      refine ⟨log', x, ih.moved (p := p) (x := .out) rfl rfl (fun _ h => nomatch h) (fun _ h => nomatch h) (fun _ _ h => nomatch h) (fun h => nomatch h) hhold
        (fun q h => by rw [hno] at h; cases h) (fun _ => ⟨hal, F, himg.1, c1, c2, .nil _⟩), a.lost⟩
  | @inOpen log w p n k F _ hp hfree hn hcut ih =>
    obtain ⟨log', s, ih, a⟩ := ih
    have hkk := ih.counted p k n hp
    subst hkk
    obtain ⟨hal, G, h1, h2, h3, h4⟩ := ih.free hfree
    have hno : (w.killed p F).holder = none := by
      show (if w.holder = some p then none else w.holder) = none
      rw [hfree]; rfl
    refine ⟨log', s, ih.moved (p := p) (x := .out) rfl rfl (fun _ h => nomatch h) (fun _ h => nomatch h) (fun _ _ h => nomatch h) (fun h => nomatch h) ?_
      (fun q h => by rw [hno] at h; cases h) (fun _ => ⟨hal, G, h1, h2, h3, h4.snoc hcut⟩), a⟩
    intro q
    rw [hno, hfree]
    exact ⟨fun h => (nomatch h), fun h => (nomatch h.1)⟩

/-- C91: whoever was killed whenever, the process that has the database open is the only one and has the lock; its database is one that an execution
without kills reaches, with every commit that returned success to any process, in order, and of those that were cut off each as a whole or not at all; and
every root whose commit returned success can be opened and shows what was committed. -/
theorem C91_inside_partial {E : Env} (hE : EnvOk E) {log : List ((B32 × Contents) × Bool)} {w : World} (h : Killed E log w) {p : Nat} {s : Sys}
    (hp : w.proc p = .inside s) :
    w.holder = some p ∧ (∀ q s', w.proc q = .inside s' → q = p) ∧ w.dir = s.db.dir ∧ (∃ log', Settled log log' ∧ Logged E log' s) ∧
    ∀ hc, (hc, true) ∈ log → ∃ db' tx c', txCreate E s.db (some hc.1) = .ok (db', .ok tx) ∧ Shows db' tx c' ∧
      (c' = hc.2 ∨ TreesCollide E.H hc.2 c') := by
  obtain ⟨log', x, hx, hs⟩ := h.shared hE
  have hh := hx.inside p s hp
  obtain ⟨h1, h2⟩ := hx.holds p hh
  have : x = s := by rw [hp] at h1; exact (Phase.inside.inj h1).symm
  subst this
  refine ⟨hh, ?_, ?_, ⟨log', hs, hx.logged⟩, ?_⟩
  · intro q s' hq
    have := hx.inside q s' hq
    rw [hh] at this; exact (Option.some.inj this).symm
  · have hk := hx.key
    generalize w.dir = d at hk h2
    obtain ⟨a, b⟩ := d
    dsimp only at hk h2
    rw [hk, h2]; rfl
  · rintro ⟨r, c⟩ hm
    obtain ⟨db', tx, c', e, hs, _, hc⟩ := C19_snapshots hE hx.logged (h := r) (c := c) (.tail _ (hs.mem hm))
    exact ⟨db', tx, c', e, hs, hc⟩

/-- C91: when nobody has the database open, a process that opens it without interruption succeeds, however torn the files are that the killed
ones left, and finds the newest of the commits that have survived: the last one that returned success, unless a later one was cut off when it was
complete. -/
theorem C91_open_partial {E : Env} (hE : EnvOk E) {log : List ((B32 × Contents) × Bool)} {w : World} (h : Killed E log w) {p : Nat} (rand : B32)
    (hnone : ∀ q y, w.proc q ≠ .inside y) (hout : w.proc p = .out) :
    ∃ w' s tx log', procRun E w (opening p rand) = .ok (w', [.unit, .unit, .unit, .unit]) ∧ Killed E log w' ∧
      (∀ q, q ≠ p → w'.proc q = w.proc q) ∧ w'.proc p = .inside s ∧ Settled log log' ∧
      dbRoot s.db = (log'.map Prod.fst).headD B32.zero ∧ s.db.revert = false ∧
      txCreate E s.db none = .ok (s.db, .ok tx) ∧ Shows s.db tx ((log'.map Prod.snd).headD Contents.empty) := by
  obtain ⟨log', x, hx, hset⟩ := h.shared hE
  have hfree : w.holder = none := by
    cases hh : w.holder with
    | none => rfl
    | some q => exact absurd (hx.holds q hh).1 (hnone q _)
  obtain ⟨st, hat, hk', hl', hal, eo⟩ := hx.open hE hfree
  have hkf := hx.key
  have hk : w.dir.key rand = some x.db.store.key := by
    have := dir_key x.db rand
    unfold Dir.key at this ⊢
    rw [hkf]; exact this
  let w1 := w.set p (.saw true)
  let w2 := w1.set p (.keyed x.db.store.key)
  let w3 := w2.set p (.counted x.db.store.key w.dir.files.length)
  let y : Sys := ⟨⟨st, rootHash st, false⟩, fun _ => none⟩
  let w4 : World := ({ w3 with dir := { w3.dir with files := st.files }, holder := some p } : World).set p (.inside y)
  have s1 : procStep E w (.look p) = .ok (w1, .unit) := by
    dsimp only [procStep]; rw [hout, hkf]; rfl
  have s2 : procStep E w1 (.key p rand) = .ok (w2, .unit) := by
    dsimp only [procStep]
    rw [show w1.proc p = .saw true from if_pos rfl, show w1.dir.keyFile = some x.db.store.key.bytes from hkf,
      show w1.dir.key rand = some x.db.store.key from hk]
  have s3 : procStep E w2 (.count p) = .ok (w3, .unit) := by
    dsimp only [procStep]
    rw [show w2.proc p = .keyed x.db.store.key from if_pos rfl]
    rfl
  have s4 : procStep E w3 (.enter p) = .ok (w4, .unit) := by
    dsimp only [procStep]
    rw [show w3.proc p = .counted x.db.store.key w.dir.files.length from if_pos rfl]
    dsimp only
    rw [if_neg (show ¬ w3.holder ≠ none by intro h; exact h hfree), show w3.dir.files = w.dir.files from rfl, hat]
    rfl
  have t1 : Killed E log w1 := h.other (ev := .look p) trivial s1 (.inr fun _ h => h)
  have t2 : Killed E log w2 := t1.other (ev := .key p rand) trivial s2 (.inr fun _ h => h)
  have t3 : Killed E log w3 := t2.other (ev := .count p) trivial s3 (.inr fun _ h => h)
  have t4 : Killed E log w4 := by
    refine t3.other (ev := .enter p) ?_ s4 (.inr fun _ h => h)
    intro k n hp _
    rw [show w3.proc p = .counted x.db.store.key w.dir.files.length from if_pos rfl] at hp
    cases hp
    rfl
  obtain ⟨db', tx, eo2, hroot, hcr, hsh, -⟩ := C23_reopen_partial hE hx.logged (.inr hal) B32.zero
  rw [eo] at eo2
  obtain rfl : (⟨st, rootHash st, false⟩ : Db) = db' := Except.ok.inj (Prod.mk.inj (Res.ok.inj eo2)).2
  refine ⟨w4, y, tx, log', procRun_cons s1 (procRun_cons s2 (procRun_cons s3 (procRun_cons s4 rfl))), t4, ?_, if_pos rfl, hset, hroot, rfl, hcr, hsh⟩
  intro q hq
  simp only [w4, w3, w2, w1, World.set, if_neg hq]

/-- The hypotheses are met: process 1 opens an empty database and is killed 50 bytes into its first commit; process 2 opens the directory and is killed
when it has removed the torn file; process 3 opens it and has the database. -/
theorem C91_example : ∃ (log : List ((B32 × Contents) × Bool)) (w : World) (s : Sys) (tx : Tx), log.length = 1 ∧ Killed toyEnv log w ∧ w.proc 3 = .inside s ∧
    w.holder = some 3 ∧ txCreate toyEnv s.db none = .ok (s.db, .ok tx) := by
  have hlen : firstFiles = [(firstFiles.getD 0 []).take 50 ++ (firstFiles.getD 0 []).drop 50] ∧ (firstFiles.getD 0 []).length = 114 := by
    decide +kernel
  set_option synthInstance.maxHeartbeats 200000 in
  set_option synthInstance.maxSize 1000 in
  have hown : OnlyOwnRecord toyEnv B32.zero [[]] firstFiles := onlyOwn_of (by decide +kernel)
  obtain ⟨hist, t, hd, ht⟩ := (sys2_logged (keyOf 1) [7] (by decide)).reachable.tree toyEnv_ok (sys2_tx _ _)
  have hcan := sys2_can (keyOf 1) [7] (by decide)
  have hsh := sys2_shows (keyOf 1) [7] (by decide)
  obtain ⟨hv, hcap⟩ := canCommit_tree hd ht hcan
  obtain ⟨db', tx', e, _, _, _⟩ := txCommit_ok toyEnv_ok hd ht hv hcap
  have hff : firstFiles = db'.store.files := by
    unfold firstFiles
    rw [show txCommit toyEnv db0 (leafTx (keyOf 1) [7]) = _ from e]
  have es : step toyEnv (sys2 (keyOf 1) [7]) (.commit 0) =
      .ok (({ sys2 (keyOf 1) [7] with db := db' } : Sys).setTx 0 (some tx'), .unit) := by
    simp only [step, Sys.tx, sys2_tx, Res.bind_ok, e, Res.pure_eq]; rfl
  have hcut : OpenCut toyEnv B32.zero [(firstFiles.getD 0 []).take 50] [] := ⟨[[], [[]]], by decide +kernel, by decide⟩
  have k0 : Killed toyEnv [] (.idle sys0.db.dir) := .start (log := []) (.start sys0_started) rfl
  -- process 1
  have a1 : ∃ w, procRun toyEnv (.idle sys0.db.dir) (opening 1 B32.zero) = .ok (w, [.unit, .unit, .unit, .unit]) ∧ Killed toyEnv [] w ∧ w.proc 1 = .inside sys0 ∧
      (∀ q, q ≠ 1 → w.proc q = .out) := by
    obtain ⟨w1, s1, tx1, l1, r1, k1, o1, p1, -⟩ := C91_open_partial toyEnv_ok k0 (p := 1) B32.zero (fun _ _ h => nomatch h) rfl
    have hs1 : s1 = sys0 := by
      have h0 : ∃ w, procRun toyEnv (.idle sys0.db.dir) (opening 1 B32.zero) = .ok (w, [.unit, .unit, .unit, .unit]) ∧ w.proc 1 = .inside sys0 := ⟨_, rfl, rfl⟩
      obtain ⟨w2, r2, p2⟩ := h0
      rw [r2] at r1
      cases r1
      rw [p2] at p1
      exact (Phase.inside.inj p1).symm
    subst hs1
    exact ⟨w1, r1, k1, p1, o1⟩
  obtain ⟨w1, -, k1, p1, o1⟩ := a1
  have b2 := call_step p1 (op := .create 0 none) (fun _ h => (by cases h)) sys1_step
  have k2 := k1.other (ev := .call 1 (.create 0 none)) (fun _ _ => trivial) b2 (.inr fun c ⟨_, _, h⟩ => h)
  generalize hw2 : World.set _ 1 (.inside sys1) = w2 at b2 k2
  have p2 : w2.proc 1 = .inside sys1 := by subst hw2; rw [World.set_proc, if_pos rfl]
  have o2 : ∀ q, q ≠ 1 → w2.proc q = .out := by subst hw2; intro q hq; rw [World.set_proc, if_neg hq]; exact o1 q hq
  have b3 := call_step p2 (op := .insert 0 (keyOf 1) [7]) (fun _ h => (by cases h)) (sys2_step (keyOf 1) [7] (by decide))
  have k3 := k2.other (ev := .call 1 (.insert 0 (keyOf 1) [7])) (fun y hy => by
      rw [p2] at hy; cases hy
      simp only [Allowed]; exact fun h => nomatch h) b3 (.inr fun c ⟨_, _, h⟩ => h)
  generalize hw3 : World.set _ 1 (.inside (sys2 (keyOf 1) [7])) = w3 at b3 k3
  have p3 : w3.proc 1 = .inside (sys2 (keyOf 1) [7]) := by subst hw3; rw [World.set_proc, if_pos rfl]
  have o3 : ∀ q, q ≠ 1 → w3.proc q = .out := by subst hw3; intro q hq; rw [World.set_proc, if_neg hq]; exact o2 q hq
  obtain ⟨hh3, -, hdir3, -, -⟩ := C91_inside_partial toyEnv_ok k3 p3
  have k4 := k3.inCommit (p := 1) (op := .commit 0) (F := [(firstFiles.getD 0 []).take 50]) (c := Contents.ofList [(keyOf 1, [7])]) p3 rfl ⟨_, sys2_tx _ _, hcan⟩ es
    ⟨_, sys2_tx _ _, hsh⟩ (show OnlyOwnRecord toyEnv B32.zero [[]] db'.store.files by rw [← hff]; exact hown)
    ⟨Or.inr ⟨[], [], (firstFiles.getD 0 []).take 50, [], rfl, by simp only [List.nil_append, List.append_nil]⟩,
     Or.inr ⟨[], (firstFiles.getD 0 []).take 50, (firstFiles.getD 0 []).drop 50, [], rfl, by
      show db'.store.files = _
      rw [← hff]; exact hlen.1⟩⟩
  generalize hw4 : w3.killed 1 [(firstFiles.getD 0 []).take 50] = w4 at k4
  have f4 : w4.dir.files = [(firstFiles.getD 0 []).take 50] := by subst hw4; rfl
  have kf4 : w4.dir.keyFile = some B32.zero.bytes := by
    subst hw4
    show w3.dir.keyFile = _
    rw [hdir3]; rfl
  have h4 : w4.holder = none := by
    subst hw4
    show (if w3.holder = some 1 then none else w3.holder) = none
    rw [if_pos hh3]
  have o4 : ∀ q, w4.proc q = .out := by
    subst hw4; intro q
    simp only [World.killed, World.set_proc]
    split
    · rfl
    · rename_i hq; exact o3 q hq
  -- process 2
  have s5 : procStep toyEnv w4 (.look 2) = .ok (w4.set 2 (.saw true), .unit) := by
    dsimp only [procStep]; rw [o4 2, kf4]; rfl
  have k5 := k4.other (ev := .look 2) trivial s5 (.inr fun _ h => h)
  have s6 : procStep toyEnv (w4.set 2 (.saw true)) (.key 2 B32.zero) = .ok ((w4.set 2 (.saw true)).set 2 (.keyed B32.zero), .unit) := by
    dsimp only [procStep]
    rw [show (w4.set 2 (.saw true)).proc 2 = .saw true by rw [World.set_proc, if_pos rfl], show (w4.set 2 (.saw true)).dir.keyFile = _ from kf4]
    dsimp only
    have : (w4.set 2 (.saw true)).dir.key B32.zero = some B32.zero := by
      unfold Dir.key
      rw [show (w4.set 2 (.saw true)).dir.keyFile = _ from kf4]
      decide +kernel
    rw [this]
  have k6 := k5.other (ev := .key 2 B32.zero) trivial s6 (.inr fun _ h => h)
  generalize hw6 : (w4.set 2 (.saw true)).set 2 (.keyed B32.zero) = w6 at s6 k6
  have p6 : w6.proc 2 = .keyed B32.zero := by subst hw6; rw [World.set_proc, if_pos rfl]
  have s7 : procStep toyEnv w6 (.count 2) = .ok (w6.set 2 (.counted B32.zero w6.dir.files.length), .unit) := by
    dsimp only [procStep]
    rw [p6]
  have k7 := k6.other (ev := .count 2) trivial s7 (.inr fun _ h => h)
  have f7 : w6.dir.files = [(firstFiles.getD 0 []).take 50] := by subst hw6; exact f4
  have h7 : w6.holder = none := by subst hw6; exact h4
  have k8 := k7.inOpen (p := 2) (k := B32.zero) (n := w6.dir.files.length) (F := []) (by rw [World.set_proc, if_pos rfl]) h7 rfl
    (by show OpenCut toyEnv B32.zero w6.dir.files []; rw [f7]; exact hcut)
  generalize hw8 : World.killed _ 2 [] = w8 at k8
  have h8 : ∀ q y, w8.proc q ≠ .inside y := by
    subst hw8 hw6
    intro q y
    simp only [World.killed, World.set_proc]
    split
    · exact fun h => nomatch h
    · rw [o4 q]; exact fun h => nomatch h
  have o8 : w8.proc 3 = .out := by
    subst hw8 hw6
    simp only [World.killed, World.set_proc, show (3 : Nat) ≠ 2 by decide, if_false]
    exact o4 3
  -- process 3
  obtain ⟨w9, s9, tx9, l9, -, k9, -, p9, -, -, -, c9, -⟩ := C91_open_partial toyEnv_ok k8 (p := 3) B32.zero h8 o8
  exact ⟨_, w9, s9, tx9, rfl, k9, p9, (C91_inside_partial toyEnv_ok k9 p9).1, c9⟩

end Urkel
