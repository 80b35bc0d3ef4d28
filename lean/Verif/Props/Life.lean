import Verif.Spec.Life
import Verif.Props.Procs
/-
C93: several processes on one directory that is made, used and destroyed.
-/
namespace Urkel

/-- The database is in use, or was: what is in the directory was committed by `s`. -/
structure Owned (E : Env) (log : List (B32 × Contents)) (l : Life) (s : Sys) : Prop where
  logged : Logged E log s
  there : l.there = true
  dir : l.w.dir = s.db.dir
  holds : ∀ p, l.w.holder = some p → l.w.proc p = .inside s
  inside : ∀ p x, l.w.proc p = .inside x → l.w.holder = some p

/-- Nobody has opened the database since the directory was made. -/
structure Unused (l : Life) : Prop where
  files : l.w.dir.files = []
  free : l.w.holder = none
  outside : ∀ p x, l.w.proc p ≠ .inside x
  key : l.w.dir.keyFile = none ∨ l.there = true ∧ ∃ k : B32, l.w.dir.keyFile = some k.bytes

theorem Owned.set {E : Env} {log : List (B32 × Contents)} {l : Life} {s : Sys} (h : Owned E log l s) {p : Nat} {x : Phase}
    (hp : ∀ y, l.w.proc p ≠ .inside y) (hx : ∀ y, x ≠ .inside y) : Owned E log ⟨l.w.set p x, true⟩ s := by
  refine ⟨h.logged, rfl, h.dir, ?_, ?_⟩
  · intro q e
    show (l.w.set p x).proc q = _
    rw [World.set_proc, if_neg]
    · exact h.holds q e
    · rintro rfl; exact hp _ (h.holds q e)
  · intro q y e
    have e : (l.w.set p x).proc q = _ := e
    rw [World.set_proc] at e
    split at e
    · exact absurd e (hx y)
    · exact h.inside q y e

theorem Unused.set {l : Life} (h : Unused l) {d : Dir} {b : Bool} (hf : d.files = []) (hk : d.keyFile = none ∨ b = true ∧ ∃ k : B32, d.keyFile = some k.bytes)
    {p : Nat} {x : Phase} (hx : ∀ y, x ≠ .inside y) : Unused ⟨({ l.w with dir := d } : World).set p x, b⟩ := by
  refine ⟨hf, h.free, ?_, hk⟩
  intro q y e
  have e : (({ l.w with dir := d } : World).set p x).proc q = _ := e
  rw [World.set_proc] at e
  split at e
  · exact absurd e (hx y)
  · exact h.outside q y e

/-- What a process does before it takes the lock. -/
theorem procStep_before {E : Env} {w w' : World} {ev : ProcEv} {r : Ret} (h : procStep E w ev = .ok (w', r))
    (hev : (∃ p, ev = .look p) ∨ (∃ p rand, ev = .key p rand) ∨ (∃ p, ev = .count p) ∨
      (∃ p, ev = .leave p ∧ ∀ y, w.proc p ≠ .inside y) ∨ ∃ p op, ev = .call p op ∧ ∀ y, w.proc p ≠ .inside y) :
    w' = w ∨ ∃ x, (∀ y, x ≠ .inside y) ∧ (∀ y, w.proc ev.by ≠ .inside y) ∧
      (w' = w.set ev.by x ∨ w.proc ev.by = .saw false ∧ (∃ p rand, ev = .key p rand) ∧
        ∃ rand : B32, w' = ({ w with dir := { w.dir with keyFile := some rand.bytes } } : World).set ev.by x) := by
  rcases hev with ⟨p, rfl⟩ | ⟨p, rand, rfl⟩ | ⟨p, rfl⟩ | ⟨p, rfl, hp⟩ | ⟨p, op, rfl, hp⟩
  · dsimp only [procStep] at h
    split at h
    · rename_i hp
      cases h; exact .inr ⟨_, (by intro _ h; cases h), (by intro y h; have h : w.proc p = _ := h; rw [hp] at h; cases h), .inl rfl⟩
    · cases h; exact .inl rfl
  · dsimp only [procStep] at h
    split at h
    · rename_i hp
      have hp' : ∀ y, w.proc p ≠ .inside y := by rw [hp]; exact fun _ h => nomatch h
      split at h
      · cases h; exact .inr ⟨_, (by intro _ h; cases h), hp', .inl rfl⟩
      · split at h
        · cases h; exact .inr ⟨_, (by intro _ h; cases h), hp', .inl rfl⟩
        · cases h; exact .inr ⟨_, (by intro _ h; cases h), hp', .inl rfl⟩
    · rename_i hp
      cases h; exact .inr ⟨_, (by intro _ h; cases h), (by intro y h; have h : w.proc p = _ := h; rw [hp] at h; cases h), .inr ⟨hp, ⟨p, rand, rfl⟩, rand, rfl⟩⟩
    · cases h; exact .inl rfl
  · dsimp only [procStep] at h
    split at h
    · rename_i hp
      cases h; exact .inr ⟨_, (by intro _ h; cases h), (by intro y h; have h : w.proc p = _ := h; rw [hp] at h; cases h), .inl rfl⟩
    · cases h; exact .inl rfl
  · dsimp only [procStep] at h
    split at h
    · rename_i x hx; exact absurd hx (hp x)
    · cases h; exact .inr ⟨_, (by intro _ h; cases h), hp, .inl rfl⟩
  · dsimp only [procStep] at h
    split at h
    · rename_i x hx; exact absurd hx (hp x)
    · cases h; exact .inl rfl

/-- A directory with a key file and no data files opens as an empty database, with the key of the file. -/
theorem open_keyed {E : Env} (key rand : B32) :
    ∃ st, openStore E ⟨some key.bytes, []⟩ rand = .ok (⟨some key.bytes, [[]]⟩, some st) ∧ st.key = key ∧ st.files = [[]] ∧
      Logged E [] ⟨⟨st, rootHash st, false⟩, fun _ => none⟩ := by
  have hk : (⟨some key.bytes, []⟩ : Dir).key rand = some key := by
    have := dir_key (⟨⟨key, [], 1, 0, Slab.init, [], Meta.init, Meta.init, [], []⟩, B32.zero, false⟩ : Db) rand
    exact this
  have hk2 : Dir.fresh.key key = some key := rfl
  obtain ⟨st, e, -, h2, h3, -⟩ := open_empty (E := E) (d := ⟨some key.bytes, []⟩) (rand := rand) hk (noForge_self _ _ _) (noMagic_self _)
  obtain ⟨st', e', -, -, -, -⟩ := open_empty (E := E) (d := Dir.fresh) (rand := key) hk2 (noForge_self _ _ _) (noMagic_self _)
  have hst : st = st' := by
    unfold openStore at e e'
    rw [hk] at e
    rw [hk2] at e'
    dsimp only at e e'
    obtain ⟨a, ea, e⟩ := Res.bind_eq_ok.1 e
    obtain ⟨a', ea', e'⟩ := Res.bind_eq_ok.1 e'
    rw [show Dir.fresh.files = ([] : List Bytes) from rfl] at ea'
    rw [ea] at ea'
    cases ea'
    obtain ⟨⟨b, rb⟩, eb, e⟩ := Res.bind_eq_ok.1 e
    obtain ⟨⟨b', rb'⟩, eb', e'⟩ := Res.bind_eq_ok.1 e'
    rw [eb] at eb'
    cases eb'
    cases rb with
    | none => simp only [Res.pure_eq, Res.ok.injEq, Prod.mk.injEq] at e; exact absurd e.2 (fun h => nomatch h)
    | some n =>
      simp only [Res.pure_eq, Res.ok.injEq, Prod.mk.injEq, Option.some.injEq] at e e'
      rw [← e.2, ← e'.2]
  refine ⟨st, e, h2, h3, .start ⟨key, ⟨some key.bytes, [[]]⟩, ⟨st, rootHash st, false⟩, ?_, rfl⟩⟩
  unfold dbOpen
  rw [e', ← hst]
  rfl

/-- Taking the lock with the right key and count does what a whole `urkel_open` of the directory does. -/
theorem enter_opens {E : Env} {w : World} {p n : Nat} {k rand : B32} {d : Dir} {st : Store} (hp : w.proc p = .counted k n) (hfree : w.holder = none)
    (hk : w.dir.key rand = some k) (hn : n = w.dir.files.length) (e : openStore E w.dir rand = .ok (d, some st)) :
    procStep E w (.enter p) =
      .ok (({ w with dir := { w.dir with files := d.files }, holder := some p } : World).set p (.inside ⟨⟨st, rootHash st, false⟩, fun _ => none⟩), .unit) := by
  have hat := openAt_now hk e
  dsimp only [procStep]
  rw [hp]
  dsimp only
  rw [if_neg (show ¬ w.holder ≠ none by intro h; exact h hfree), hn, hat]
  rfl

theorem key_of_file {k : B32} {d : Dir} (h : d.keyFile = some k.bytes) (rand : B32) : d.key rand = some k := by
  have := dir_key (⟨⟨k, d.files, 1, 0, Slab.init, [], Meta.init, Meta.init, [], []⟩, B32.zero, false⟩ : Db) rand
  obtain ⟨kf, fs⟩ := d
  dsimp only at h
  rw [h]
  exact this

/-- The database is entered by a process with the right key and count. -/
theorem Owned.entered {E : Env} (hE : EnvOk E) {log : List (B32 × Contents)} {l : Life} {s : Sys} (h : Owned E log l s) {p n : Nat} {k : B32}
    (hp : l.w.proc p = .counted k n) (hfree : l.w.holder = none) (hk : l.w.dir.keyFile = some k.bytes) (hn : n = l.w.dir.files.length)
    (hal : (l.w.dir.files.getLastD []).length % 38 = 0) :
    ∃ w' y, procStep E l.w (.enter p) = .ok (w', .unit) ∧ Owned E log ⟨w', true⟩ y ∧ w'.proc p = .inside y ∧ (∀ q, q ≠ p → w'.proc q = l.w.proc q) ∧
      y.db.revert = false := by
  obtain ⟨sp, hist, hs⟩ := h.logged.reachable.sim hE
  have hdf : l.w.dir.files = s.db.store.files := by rw [h.dir]; rfl
  obtain ⟨db', eo, _, hf, hk', _⟩ := reopen_ok hE hs.db (by rw [← hdf]; exact hal) B32.zero
  have hst : step E s (.reopen B32.zero) = .ok (⟨db', fun _ => none⟩, .unit) := by
    simp only [step, eo, Res.bind_ok, Res.pure_eq]
  have hl' : Logged E log ⟨db', fun _ => none⟩ :=
    h.logged.other (op := .reopen B32.zero) (by show _ % 38 = 0; rw [← hdf]; exact hal) hst (.inr fun c h => h)
  have heo := eo
  unfold dbOpen at heo
  obtain ⟨⟨d1, r1⟩, e1, heo⟩ := Res.bind_eq_ok.1 heo
  cases r1 with
  | none => cases heo
  | some st =>
    simp only [Res.pure_eq, Res.ok.injEq, Prod.mk.injEq, Except.ok.injEq] at heo
    obtain ⟨rfl, rfl⟩ := heo
    rw [← h.dir] at e1
    have hen := enter_opens hp hfree (key_of_file hk B32.zero) hn e1
    refine ⟨_, _, hen, ⟨hl', rfl, ?_, ?_, ?_⟩, if_pos rfl, ?_, rfl⟩
    · show (⟨l.w.dir.keyFile, l.w.dir.files⟩ : Dir) = Db.dir _
      unfold Db.dir
      rw [hdf, hf, hk', h.dir]
      rfl
    · intro q e
      cases e
      show World.proc _ p = _
      rw [World.set_proc, if_pos rfl]
    · intro q y e
      have e : (World.set _ p _).proc q = _ := e
      rw [World.set_proc] at e
      split at e
      · rename_i hq; rw [hq]; rfl
      · have := h.inside q y e
        rw [hfree] at this; cases this
    · intro q hq
      rw [World.set_proc, if_neg hq]

theorem Unused.entered {E : Env} {l : Life} (h : Unused l) {p n : Nat} {k : B32}
    (hp : l.w.proc p = .counted k n) (hk : l.w.dir.keyFile = some k.bytes) (hn : n = l.w.dir.files.length) :
    ∃ w' y, procStep E l.w (.enter p) = .ok (w', .unit) ∧ Owned E [] ⟨w', true⟩ y ∧ w'.proc p = .inside y ∧ (∀ q, q ≠ p → w'.proc q = l.w.proc q) ∧
      y.db.revert = false ∧ y.db.store.key = k := by
  obtain ⟨st, e, h2, h3, hl⟩ := open_keyed (E := E) k B32.zero
  have hd : (⟨some k.bytes, []⟩ : Dir) = l.w.dir := by rw [← hk, ← h.files]
  rw [hd] at e
  have hen := enter_opens hp h.free (key_of_file hk B32.zero) hn e
  refine ⟨_, _, hen, ⟨hl, rfl, ?_, ?_, ?_⟩, if_pos rfl, ?_, rfl, h2⟩
  · show (⟨l.w.dir.keyFile, [[]]⟩ : Dir) = Db.dir _
    unfold Db.dir
    rw [hk, h2, h3]
  · intro q e
    cases e
    show World.proc _ p = _
    rw [World.set_proc, if_pos rfl]
  · intro q y e
    have e : (World.set _ p _).proc q = _ := e
    rw [World.set_proc] at e
    split at e
    · rename_i hq; rw [hq]; rfl
    · exact absurd e (h.outside q y)
  · intro q hq
    rw [World.set_proc, if_neg hq]

theorem lifeStep_there {E : Env} {l l' : Life} {ev : ProcEv} {r : Ret} (ht : l.there = true) (h : lifeStep E l (.ev ev) = .ok (l', r)) :
    ∃ w', procStep E l.w ev = .ok (w', r) ∧ l' = ⟨w', true⟩ := by
  dsimp only [lifeStep] at h
  rw [if_pos ht] at h
  obtain ⟨⟨w', r'⟩, e, h⟩ := Res.bind_eq_ok.1 h
  simp only [Res.pure_eq, Res.ok.injEq, Prod.mk.injEq] at h
  obtain ⟨rfl, rfl⟩ := h
  exact ⟨w', e, rfl⟩

/-- What processes can do while there is no directory. -/
theorem lifeStep_gone {E : Env} {l l' : Life} {ev : ProcEv} {r : Ret} (ht : l.there = false) (h : lifeStep E l (.ev ev) = .ok (l', r)) :
    l' = l ∨ ∃ p x b, (∀ y, x ≠ .inside y) ∧ l' = ⟨l.w.set p x, b⟩ := by
  dsimp only [lifeStep] at h
  rw [if_neg (by rw [ht]; decide)] at h
  cases ev with
  | look p =>
    dsimp only at h
    split at h
    · cases h; exact .inr ⟨p, _, _, (by intro _ h; cases h), rfl⟩
    · cases h; exact .inl rfl
  | key p rand =>
    dsimp only at h
    split at h
    · cases h; exact .inr ⟨p, _, _, (by intro _ h; cases h), rfl⟩
    · cases h; exact .inl rfl
  | count p =>
    dsimp only at h
    split at h
    · cases h; exact .inr ⟨p, _, _, (by intro _ h; cases h), rfl⟩
    · cases h; exact .inl rfl
  | enter p =>
    dsimp only at h
    split at h
    · cases h; exact .inr ⟨p, _, _, (by intro _ h; cases h), rfl⟩
    · cases h; exact .inl rfl
  | call p op => cases h; exact .inl rfl
  | leave p => cases h; exact .inr ⟨p, _, _, (by intro _ h; cases h), rfl⟩

theorem lifeStep_destroy {E : Env} {l l' : Life} {p : Nat} {r : Ret} (h : lifeStep E l (.destroy p) = .ok (l', r)) :
    (l' = l ∧ ¬ l.Ends (.destroy p) r) ∨
    (l.there = true ∧ l.w.holder = none ∧ l.w.proc p = .out ∧ r = .unit ∧ l' = ⟨{ l.w with dir := Dir.fresh }, false⟩) := by
  dsimp only [lifeStep] at h
  split at h
  · rename_i hp
    split at h
    · rename_i hc
      cases h
      exact .inr ⟨hc.1, hc.2, hp, rfl, rfl⟩
    · cases h
      refine .inl ⟨rfl, ?_⟩
      rintro ⟨q, _, _, h⟩
      cases h
  · rename_i hp
    cases h
    refine .inl ⟨rfl, ?_⟩
    rintro ⟨q, h, hq, _⟩
    cases h
    exact hp hq

/-- The process inside makes a call. -/
theorem Owned.called {E : Env} {log log' : List (B32 × Contents)} {l : Life} {s s' : Sys} (h : Owned E log l s) {p : Nat}
    (hp : l.w.proc p = .inside s) (hl : Logged E log' s') (hk : s'.db.store.key = s.db.store.key) :
    Owned E log' ⟨({ l.w with dir := { l.w.dir with files := s'.db.store.files } } : World).set p (.inside s'), true⟩ s' := by
  have hh : l.w.holder = some p := h.inside p s hp
  refine ⟨hl, rfl, ?_, ?_, ?_⟩
  · show (⟨l.w.dir.keyFile, s'.db.store.files⟩ : Dir) = s'.db.dir
    rw [h.dir]; unfold Db.dir; rw [hk]
  · intro q e
    have e : l.w.holder = some q := e
    rw [hh] at e; cases e
    show World.proc _ p = _
    rw [World.set_proc, if_pos rfl]
  · intro q y e
    have e : (World.set _ p _).proc q = _ := e
    rw [World.set_proc] at e
    split at e
    · rename_i hq; rw [hq]; exact hh
    · exact h.inside q y e

theorem Owned.same {E : Env} {log : List (B32 × Contents)} {l : Life} {s : Sys} (h : Owned E log l s) {p : Nat} {x : Sys}
    (hp : l.w.proc p = .inside x) : x = s := by
  have := h.holds p (h.inside p x hp)
  rw [hp] at this
  exact Phase.inside.inj this

theorem Lived.inv {E : Env} (hE : EnvOk E) {log : List (B32 × Contents)} {l : Life} (h : Lived E log l) :
    (∃ s, Owned E log l s) ∨ (log = [] ∧ Unused l) := by
  induction h with
  | start => exact .inr ⟨rfl, rfl, rfl, fun _ _ h => (nomatch h), .inl rfl⟩
  | @commit log l l' p op s' c _ ht e hc hin ih =>
    obtain ⟨x, hp, hc⟩ := hc
    rcases ih with ⟨s, ih⟩ | ⟨_, ih⟩
    · obtain rfl := ih.same hp
      obtain ⟨w', e', rfl⟩ := lifeStep_there ih.there e; replace e := e'
      obtain ⟨s1, e1, rfl⟩ := procStep_call hp (commits_not_reopen hc) e
      have hin : (World.set _ p (.inside s1)).proc p = .inside s' := hin
      have : s1 = s' := by rw [World.set_proc, if_pos rfl] at hin; exact Phase.inside.inj hin
      subst this
      exact .inl ⟨s1, ih.called hp (ih.logged.commit (ht x hp) e1 hc) (step_key (commits_not_reopen hc) e1)⟩
    · exact absurd hp (ih.outside p x)
  | @ends log l l' ev r _ e hend ih =>
    obtain ⟨p, rfl, hp, rfl⟩ := hend
    rcases lifeStep_destroy e with ⟨_, hno⟩ | ⟨ht, hh, -, -, rfl⟩
    · exact absurd ⟨p, rfl, hp, rfl⟩ hno
    · refine .inr ⟨rfl, rfl, hh, ?_, .inl rfl⟩
      intro q x hq
      rcases ih with ⟨s, ih⟩ | ⟨_, ih⟩
      · have := ih.inside q x hq
        rw [hh] at this; cases this
      · exact ih.outside q x hq
  | @other log l l' ev r _ ht e hnoe hno ih =>
    cases ev with
    | destroy p =>
      rcases lifeStep_destroy e with ⟨rfl, _⟩ | ⟨_, _, hp, rfl, _⟩
      · exact ih
      · exact absurd ⟨p, rfl, hp, rfl⟩ hnoe
    | ev ev =>
      rcases ih with ⟨s, ih⟩ | ⟨hlog, ih⟩
      · -- the database is in use, or was
        obtain ⟨w', e', rfl⟩ := lifeStep_there ih.there e; replace e := e'
        left
        have hbefore : ((∃ p, ev = .look p) ∨ (∃ p rand, ev = .key p rand) ∨ (∃ p, ev = .count p) ∨
            (∃ p, ev = .leave p ∧ ∀ y, l.w.proc p ≠ .inside y) ∨ ∃ p op, ev = .call p op ∧ ∀ y, l.w.proc p ≠ .inside y) →
            ∃ s, Owned E log ⟨w', true⟩ s := by
          intro hev
          rcases procStep_before e hev with rfl | ⟨x, hx, hp, rfl | ⟨hs, ⟨p, rand, rfl⟩, -⟩⟩
          · exact ⟨s, ih.logged, rfl, ih.dir, ih.holds, ih.inside⟩
          · exact ⟨s, ih.set hp hx⟩
          · have := ht hs ih.there
            rw [ih.dir] at this; cases this
        cases ev with
        | look p => exact hbefore (.inl ⟨p, rfl⟩)
        | key p rand => exact hbefore (.inr (.inl ⟨p, rand, rfl⟩))
        | count p => exact hbefore (.inr (.inr (.inl ⟨p, rfl⟩)))
        | leave p =>
          cases hp : l.w.proc p with
          | inside x =>
            dsimp only [procStep] at e
            rw [hp] at e
            cases e
            have hh := ih.inside p x hp
            refine ⟨s, ih.logged, rfl, ih.dir, fun _ h => (nomatch h), ?_⟩
            intro q y e
            have e : (World.set _ p _).proc q = _ := e
            rw [World.set_proc] at e
            split at e
            · cases e
            · rename_i hq
              have := ih.inside q y e
              rw [hh] at this; cases this; exact absurd rfl hq
          | _ => exact hbefore (.inr (.inr (.inr (.inl ⟨p, rfl, by rw [hp]; exact fun _ h => nomatch h⟩))))
        | call p op =>
          cases hp : l.w.proc p with
          | inside x =>
            obtain rfl := ih.same hp
            by_cases hop : ∃ rand, op = .reopen rand
            · obtain ⟨rand, rfl⟩ := hop
              dsimp only [procStep] at e
              simp only [hp] at e
              cases e
              exact ⟨x, ih.logged, rfl, ih.dir, ih.holds, ih.inside⟩
            · have hop' : ∀ rand, op ≠ .reopen rand := fun rand h => hop ⟨rand, h⟩
              obtain ⟨s1, e1, rfl⟩ := procStep_call hp hop' e
              refine ⟨s1, ih.called hp (ih.logged.other (ht x hp) e1 ?_) (step_key hop' e1)⟩
              exact hno.imp id fun h c hc => h c ⟨x, hp, hc⟩
          | _ => exact hbefore (.inr (.inr (.inr (.inr ⟨p, op, rfl, by rw [hp]; exact fun _ h => nomatch h⟩))))
        | enter p =>
          cases hp : l.w.proc p with
          | counted k n =>
            by_cases hh : l.w.holder = none
            · obtain ⟨h1, h2, h3⟩ := ht k n hp ih.there hh
              obtain ⟨w2, y, e2, h, -⟩ := ih.entered hE hp hh h1 h2 h3
              rw [e] at e2
              cases e2
              exact ⟨y, h⟩
            · dsimp only [procStep] at e
              rw [hp] at e
              dsimp only at e
              rw [if_pos hh] at e
              cases e
              exact ⟨s, ih.set (by rw [hp]; exact fun _ h => nomatch h) (fun _ h => nomatch h)⟩
          | _ =>
            dsimp only [procStep] at e
            simp only [hp] at e
            cases e
            exact ⟨s, ih.logged, rfl, ih.dir, ih.holds, ih.inside⟩
      · -- nobody has used it yet
        subst hlog
        cases hthere : l.there with
        | false =>
          right
          refine ⟨rfl, ?_⟩
          have hkf : l.w.dir.keyFile = none := by
            rcases ih.key with h | ⟨h, _⟩
            · exact h
            · rw [hthere] at h; cases h
          rcases lifeStep_gone hthere e with rfl | ⟨p, x, b, hx, rfl⟩
          · exact ih
          · exact ih.set (d := l.w.dir) ih.files (.inl hkf) hx
        | true =>
          obtain ⟨w', e', rfl⟩ := lifeStep_there hthere e; replace e := e'
          have hkey : l.w.dir.keyFile = none ∨ true = true ∧ ∃ k : B32, l.w.dir.keyFile = some k.bytes := by
            exact ih.key.imp id fun h => ⟨rfl, h.2⟩
          have hbefore : ((∃ p, ev = .look p) ∨ (∃ p rand, ev = .key p rand) ∨ (∃ p, ev = .count p) ∨
              (∃ p, ev = .leave p ∧ ∀ y, l.w.proc p ≠ .inside y) ∨ ∃ p op, ev = .call p op ∧ ∀ y, l.w.proc p ≠ .inside y) →
              Unused ⟨w', true⟩ := by
            intro hev
            rcases procStep_before e hev with rfl | ⟨x, hx, hp, rfl | ⟨hs, -, rand, rfl⟩⟩
            · exact ⟨ih.files, ih.free, ih.outside, hkey⟩
            · exact ih.set (d := l.w.dir) ih.files hkey hx
            · exact ih.set (d := { l.w.dir with keyFile := some rand.bytes }) ih.files (.inr ⟨rfl, rand, rfl⟩) hx
          cases ev with
          | look p => exact .inr ⟨rfl, hbefore (.inl ⟨p, rfl⟩)⟩
          | key p rand => exact .inr ⟨rfl, hbefore (.inr (.inl ⟨p, rand, rfl⟩))⟩
          | count p => exact .inr ⟨rfl, hbefore (.inr (.inr (.inl ⟨p, rfl⟩)))⟩
          | leave p => exact .inr ⟨rfl, hbefore (.inr (.inr (.inr (.inl ⟨p, rfl, ih.outside p⟩))))⟩
          | call p op => exact .inr ⟨rfl, hbefore (.inr (.inr (.inr (.inr ⟨p, op, rfl, ih.outside p⟩))))⟩
          | enter p =>
            cases hp : l.w.proc p with
            | counted k n =>
              obtain ⟨h1, h2, h3⟩ := ht k n hp hthere ih.free
              obtain ⟨w2, y, e2, h, -⟩ := ih.entered (E := E) hp h1 h2
              rw [e] at e2
              cases e2
              exact .inl ⟨y, h⟩
            | _ =>
              dsimp only [procStep] at e
              simp only [hp] at e
              cases e
              exact .inr ⟨rfl, ih.files, ih.free, ih.outside, hkey⟩

/-- A database that was just opened has the root of the newest commit and shows it. -/
theorem Logged.shown {E : Env} (hE : EnvOk E) {log : List (B32 × Contents)} {s : Sys} (hl : Logged E log s) (hrv : s.db.revert = false) :
    ∃ tx, dbRoot s.db = (log.map Prod.fst).headD B32.zero ∧ txCreate E s.db none = .ok (s.db, .ok tx) ∧
      Shows s.db tx ((log.map Prod.snd).headD Contents.empty) := by
  obtain ⟨sp, hist, hs, e1, e2⟩ := hl.sim hE
  have hlast : (log.map Prod.snd).headD Contents.empty = (hist.headD .null).find := by
    rw [← e1, hs.hist]; cases hist <;> rfl
  have htop : (hist.headD .null).Top ∧ (hist.headD .null).ValsLe 1023 := RootIs.tx hs.db.inv hs.db.inv.root (SInv.head_mem hist)
  refine ⟨⟨some s.db.store.state.rootNode⟩, ?_, ?_, ?_⟩
  · rw [dbRoot, hs.db.cur hrv]
    cases hlg : log with
    | nil =>
      rw [hlg] at e1
      have : hist = [] := by
        have := hs.hist.symm.trans e1
        cases hist with
        | nil => rfl
        | cons a b => simp at this
      subst this; rfl
    | cons p ps =>
      refine (IsRoot.iff htop.1).1 ?_
      rw [← hlast, hlg]
      exact e2 p (by rw [hlg]; simp)
  · simp only [txCreate]
    rw [if_neg (by simp [hrv])]
  · rw [hlast]
    exact TxIs.shows hs.db ⟨_, rfl, hs.db.inv.root.repr, htop.1, htop.2⟩

/-- The process that has the database open is the only one and has the lock; it has all that was committed since the
directory was made or last destroyed, in order, and nothing from before. -/
theorem C93_inside_partial {E : Env} (hE : EnvOk E) {log : List (B32 × Contents)} {l : Life} (h : Lived E log l) {p : Nat} {s : Sys}
    (hp : l.w.proc p = .inside s) :
    l.w.holder = some p ∧ (∀ q s', l.w.proc q = .inside s' → q = p) ∧ l.there = true ∧ l.w.dir = s.db.dir ∧ Logged E log s ∧
    (∀ hc ∈ (B32.zero, Contents.empty) :: log, ∃ db' tx c', txCreate E s.db (some hc.1) = .ok (db', .ok tx) ∧ Shows db' tx c' ∧
      (c' = hc.2 ∨ TreesCollide E.H hc.2 c')) ∧
    ∀ r, r ≠ B32.zero → (∀ c, (r, c) ∉ log) → ∃ db', txCreate E s.db (some r) = .ok (db', .error .ENOTFOUND) ∧ Unchanged s db' := by
  rcases h.inv hE with ⟨x, hx⟩ | ⟨_, hx⟩
  · obtain rfl := hx.same hp
    have hh := hx.inside p s hp
    refine ⟨hh, ?_, hx.there, hx.dir, hx.logged, ?_, ?_⟩
    · intro q s' hq
      have := hx.inside q s' hq
      rw [hh] at this; exact (Option.some.inj this).symm
    · rintro ⟨r, c⟩ hm
      obtain ⟨db', tx, c', e, hs, _, hc⟩ := C19_snapshots hE hx.logged hm
      exact ⟨db', tx, c', e, hs, hc⟩
    · intro r hr hu
      exact (C20_unknown_root_partial hE hx.logged hr hu).1
  · exact absurd hp (hx.outside p s)

/-- `urkel_destroy` succeeds if the directory is there and nobody has the database open. Then there is no directory, and the
history starts afresh; processes on their way in stay where they are. -/
theorem C93_destroy {E : Env} (hE : EnvOk E) {log : List (B32 × Contents)} {l : Life} (h : Lived E log l) {p : Nat} (hout : l.w.proc p = .out)
    (hthere : l.there = true) (hnone : ∀ q x, l.w.proc q ≠ .inside x) :
    ∃ l', lifeStep E l (.destroy p) = .ok (l', .unit) ∧ Lived E [] l' ∧ l'.there = false ∧ l'.w.dir = Dir.fresh ∧ l'.w.proc = l.w.proc := by
  have hfree : l.w.holder = none := by
    rcases h.inv hE with ⟨x, hx⟩ | ⟨_, hx⟩
    · cases hh : l.w.holder with
      | none => rfl
      | some q => exact absurd (hx.holds q hh) (hnone q x)
    · exact hx.free
  have e : lifeStep E l (.destroy p) = .ok (⟨{ l.w with dir := Dir.fresh }, false⟩, .unit) := by
    dsimp only [lifeStep]
    rw [hout]
    dsimp only
    rw [if_pos ⟨hthere, hfree⟩]
  exact ⟨_, e, h.ends e ⟨p, rfl, hout, rfl⟩, rfl, rfl, rfl⟩

/-- `urkel_destroy` fails while another process has the database open, and if there is no directory, and then changes nothing. -/
theorem C93_destroy_fails {E : Env} (hE : EnvOk E) {log : List (B32 × Contents)} {l : Life} (h : Lived E log l) {p : Nat} (hout : l.w.proc p = .out)
    (hno : l.there = false ∨ ∃ q x, l.w.proc q = .inside x) : lifeStep E l (.destroy p) = .ok (l, .fail .EBADOPEN) := by
  have hc : ¬ (l.there = true ∧ l.w.holder = none) := by
    rintro ⟨ht, hh⟩
    rcases hno with hno | ⟨q, x, hq⟩
    · rw [ht] at hno; cases hno
    · rw [(C93_inside_partial hE h hq).1] at hh; cases hh
  dsimp only [lifeStep]
  rw [hout]
  dsimp only
  rw [if_neg hc]

theorem lifeRun_cons {E : Env} {l l1 l2 : Life} {ev : LifeEv} {evs : List LifeEv} {r : Ret} {rs : List Ret}
    (h1 : lifeStep E l ev = .ok (l1, r)) (h2 : lifeRun E l1 evs = .ok (l2, rs)) : lifeRun E l (ev :: evs) = .ok (l2, r :: rs) := by
  simp only [lifeRun, h1, h2, Res.bind_ok, Res.pure_eq]

theorem lifeRun_cons_inv {E : Env} {l l2 : Life} {ev : LifeEv} {evs : List LifeEv} {rs : List Ret}
    (h : lifeRun E l (ev :: evs) = .ok (l2, rs)) :
    ∃ l1 r rs', lifeStep E l ev = .ok (l1, r) ∧ lifeRun E l1 evs = .ok (l2, rs') ∧ rs = r :: rs' := by
  simp only [lifeRun] at h
  obtain ⟨⟨w1, r⟩, h1, h⟩ := Res.bind_eq_ok.1 h
  obtain ⟨⟨w2', rs'⟩, h2, h⟩ := Res.bind_eq_ok.1 h
  simp only [Res.pure_eq, Res.ok.injEq, Prod.mk.injEq] at h
  obtain ⟨rfl, rfl⟩ := h
  exact ⟨w1, r, rs', h1, h2, rfl⟩

theorem lifeStep_of {E : Env} {l : Life} {ev : ProcEv} {w' : World} {r : Ret} (ht : l.there = true) (h : procStep E l.w ev = .ok (w', r)) :
    lifeStep E l (.ev ev) = .ok (⟨w', true⟩, r) := by
  dsimp only [lifeStep]
  rw [if_pos ht, h]
  rfl

theorem Life.not_ends {l : Life} {ev : ProcEv} {r : Ret} : ¬ l.Ends (.ev ev) r := by
  rintro ⟨p, h, _⟩
  cases h

/-- The rest of an `urkel_open`, when the key file has been looked for. -/
theorem opens_from {E : Env} (hE : EnvOk E) {log : List (B32 × Contents)} {l : Life} {p : Nat} {rand k : B32} (h : Lived E log l) (hthere : l.there = true)
    (hfree : l.w.holder = none) (hal : (l.w.dir.files.getLastD []).length % 38 = 0) (hsaw : l.w.proc p = .saw l.w.dir.keyFile.isSome)
    (hk : l.w.dir.keyFile = none ∧ k = rand ∨ l.w.dir.keyFile = some k.bytes) :
    ∃ l' s, lifeRun E l [.ev (.key p rand), .ev (.count p), .ev (.enter p)] = .ok (l', [.unit, .unit, .unit]) ∧ Lived E log l' ∧
      l'.w.proc p = .inside s ∧ (∀ q, q ≠ p → l'.w.proc q = l.w.proc q) ∧ s.db.revert = false ∧ s.db.store.key = k := by
  -- the key
  have hkey : ∃ l1 : Life, lifeStep E l (.ev (.key p rand)) = .ok (l1, .unit) ∧ l1.there = true ∧ l1.w.holder = none ∧ l1.w.dir.files = l.w.dir.files ∧
      l1.w.dir.keyFile = some k.bytes ∧ l1.w.proc p = .keyed k ∧ (∀ q, q ≠ p → l1.w.proc q = l.w.proc q) ∧ Fair E l (.ev (.key p rand)) := by
    rcases hk with ⟨hk, rfl⟩ | hk
    · have hs : l.w.proc p = .saw false := by rw [hsaw, hk]; rfl
      refine ⟨⟨({ l.w with dir := { l.w.dir with keyFile := some k.bytes } } : World).set p (.keyed k), true⟩, lifeStep_of hthere ?_, rfl, hfree, rfl, rfl, if_pos rfl,
        fun q hq => if_neg hq, fun _ _ => hk⟩
      dsimp only [procStep]; rw [hs]
    · have hs : l.w.proc p = .saw true := by rw [hsaw, hk]; rfl
      refine ⟨⟨l.w.set p (.keyed k), true⟩, lifeStep_of hthere ?_, rfl, hfree, rfl, hk, if_pos rfl, fun q hq => if_neg hq, fun h => by rw [hs] at h; cases h⟩
      dsimp only [procStep]; rw [hs, key_of_file hk rand]; dsimp only; rw [hk]
  obtain ⟨l1, e1, t1, f1, d1, k1, p1, o1, fair1⟩ := hkey
  have v1 := h.other fair1 e1 Life.not_ends (.inr fun _ h => h)
  -- the count
  have e2 : lifeStep E l1 (.ev (.count p)) = .ok (⟨l1.w.set p (.counted k l1.w.dir.files.length), true⟩, .unit) := by
    refine lifeStep_of t1 ?_
    dsimp only [procStep]; rw [p1]
  have v2 := v1.other (ev := .ev (.count p)) trivial e2 Life.not_ends (.inr fun _ h => h)
  -- the lock
  have hp2 : (l1.w.set p (.counted k l1.w.dir.files.length)).proc p = .counted k l1.w.dir.files.length := if_pos rfl
  have fair3 : Fair E ⟨l1.w.set p (.counted k l1.w.dir.files.length), true⟩ (.ev (.enter p)) := by
    intro k' n' h' _ _
    have h' : (l1.w.set p (.counted k l1.w.dir.files.length)).proc p = _ := h'
    rw [hp2] at h'
    cases h'
    exact ⟨k1, rfl, by show (l1.w.dir.files.getLastD []).length % 38 = 0; rw [d1]; exact hal⟩
  have e3 : ∃ w' y, procStep E (l1.w.set p (.counted k l1.w.dir.files.length)) (.enter p) = .ok (w', .unit) ∧ w'.proc p = .inside y ∧
      (∀ q, q ≠ p → w'.proc q = (l1.w.set p (.counted k l1.w.dir.files.length)).proc q) ∧ y.db.revert = false ∧ y.db.store.key = k := by
    rcases v2.inv hE with ⟨s, hs⟩ | ⟨rfl, hs⟩
    · obtain ⟨w', y, e, ho, hy, hq, hr⟩ := hs.entered hE hp2 f1 k1 rfl (by show (l1.w.dir.files.getLastD []).length % 38 = 0; rw [d1]; exact hal)
      refine ⟨w', y, e, hy, hq, hr, ?_⟩
      have hd : w'.dir.keyFile = some y.db.store.key.bytes := by
        have := ho.dir
        show w'.dir.keyFile = _
        rw [show w'.dir = y.db.dir from this]; rfl
      have hd' : w'.dir.keyFile = some k.bytes := by
        rw [← k1]
        dsimp only [procStep] at e
        rw [hp2] at e
        dsimp only at e
        rw [if_neg (show ¬ (l1.w.set p (.counted k l1.w.dir.files.length)).holder ≠ none by intro h; exact h f1)] at e
        obtain ⟨⟨fs, r1⟩, _, e⟩ := Res.bind_eq_ok.1 e
        cases r1 with
        | none => cases e
        | some st => cases e; rfl
      rw [hd] at hd'
      exact B32.ext (Option.some.inj hd')
    · obtain ⟨w', y, e, -, hy, hq, hr, hkk⟩ := hs.entered (E := E) hp2 k1 rfl
      exact ⟨w', y, e, hy, hq, hr, hkk⟩
  obtain ⟨w', y, e3, hy, hq, hr, hkk⟩ := e3
  have e3' := lifeStep_of (l := ⟨l1.w.set p (.counted k l1.w.dir.files.length), true⟩) rfl e3
  refine ⟨_, y, lifeRun_cons e1 (lifeRun_cons e2 (lifeRun_cons e3' rfl)), v2.other fair3 e3' Life.not_ends (.inr fun _ h => h), hy, ?_, hr, hkk⟩
  intro q h
  rw [show (Life.mk w' true).w.proc q = w'.proc q from rfl, hq q h, World.set_proc, if_neg h]
  exact o1 q h

/-- When nobody has the database open and the files end where a record starts, a process that opens it without another getting in
between succeeds, and finds the newest commit since the directory was made or last destroyed. If there was no key file, also because there was no
directory, the database has a new key. -/
theorem C93_open_partial {E : Env} (hE : EnvOk E) {log : List (B32 × Contents)} {l : Life} (h : Lived E log l) {p : Nat} (rand : B32)
    (hnone : ∀ q x, l.w.proc q ≠ .inside x) (hout : l.w.proc p = .out) (hal : (l.w.dir.files.getLastD []).length % 38 = 0) :
    ∃ l' s tx, lifeRun E l ((opening p rand).map .ev) = .ok (l', [.unit, .unit, .unit, .unit]) ∧ Lived E log l' ∧
      (∀ q, q ≠ p → l'.w.proc q = l.w.proc q) ∧ l'.w.proc p = .inside s ∧
      dbRoot s.db = (log.map Prod.fst).headD B32.zero ∧ s.db.revert = false ∧
      txCreate E s.db none = .ok (s.db, .ok tx) ∧ Shows s.db tx ((log.map Prod.snd).headD Contents.empty) ∧
      (l.w.dir.keyFile = none → s.db.store.key = rand) := by
  have hfree : l.w.holder = none := by
    rcases h.inv hE with ⟨x, hx⟩ | ⟨_, hx⟩
    · cases hh : l.w.holder with
      | none => rfl
      | some q => exact absurd (hx.holds q hh) (hnone q x)
    · exact hx.free
  have hkf : l.w.dir.keyFile = none ∨ ∃ k : B32, l.w.dir.keyFile = some k.bytes := by
    rcases h.inv hE with ⟨x, hx⟩ | ⟨_, hx⟩
    · exact .inr ⟨x.db.store.key, by rw [hx.dir]; rfl⟩
    · exact hx.key.imp id fun h => h.2
  have hgone : l.there = false → l.w.dir.keyFile = none := by
    intro ht
    rcases h.inv hE with ⟨x, hx⟩ | ⟨_, hx⟩
    · rw [hx.there] at ht; cases ht
    · rcases hx.key with h | ⟨h, _⟩
      · exact h
      · rw [ht] at h; cases h
  have e0 : lifeStep E l (.ev (.look p)) = .ok (⟨l.w.set p (.saw l.w.dir.keyFile.isSome), true⟩, .unit) := by
    cases ht : l.there with
    | true =>
      refine lifeStep_of ht ?_
      dsimp only [procStep]; rw [hout]
    | false =>
      dsimp only [lifeStep]
      rw [if_neg (by rw [ht]; decide), hout, hgone ht]
      rfl
  have v0 := h.other (ev := .ev (.look p)) trivial e0 Life.not_ends (.inr fun _ h => h)
  obtain ⟨k, hk⟩ : ∃ k : B32, l.w.dir.keyFile = none ∧ k = rand ∨ l.w.dir.keyFile = some k.bytes := by
    rcases hkf with h | ⟨k, h⟩
    · exact ⟨rand, .inl ⟨h, rfl⟩⟩
    · exact ⟨k, .inr h⟩
  obtain ⟨l', s, er, v', hp, ho, hr, hkk⟩ := opens_from hE v0 (rand := rand) (k := k) rfl hfree hal (if_pos rfl) hk
  have hlg : Logged E log s := (C93_inside_partial hE v' hp).2.2.2.2.1
  obtain ⟨tx, h1, h2, h3⟩ := hlg.shown hE hr
  refine ⟨l', s, tx, lifeRun_cons e0 er, v', ?_, hp, h1, hr, h2, h3, ?_⟩
  · intro q hq
    rw [ho q hq]
    exact if_neg hq
  · intro hno
    rcases hk with ⟨_, rfl⟩ | hk
    · exact hkk
    · rw [hno] at hk; cases hk

/-- Whatever other processes do, `urkel_destroy` included, a process that has the database open is not disturbed: neither the directory nor what the
process has changes. -/
theorem C93_undisturbed_partial {E : Env} (hE : EnvOk E) {log : List (B32 × Contents)} {l l' : Life} (h : Lived E log l) {p : Nat} {s : Sys}
    (hp : l.w.proc p = .inside s) {evs : List LifeEv} {rs : List Ret} (hf : FairRun E l evs) (hby : ∀ ev ∈ evs, ev.by ≠ p)
    (e : lifeRun E l evs = .ok (l', rs)) : Lived E log l' ∧ l'.w.dir = l.w.dir ∧ l'.there = true ∧ l'.w.proc p = .inside s := by
  induction evs generalizing l rs with
  | nil => cases e; exact ⟨h, rfl, (C93_inside_partial hE h hp).2.2.1, hp⟩
  | cons ev evs ih =>
    obtain ⟨l1, r, rs', e1, e2, rfl⟩ := lifeRun_cons_inv e
    have hq : ev.by ≠ p := hby ev (List.mem_cons_self ..)
    obtain ⟨hh, honly, hthere, hdir, -, -, -⟩ := C93_inside_partial hE h hp
    have hkf : l.w.dir.keyFile ≠ none := by rw [hdir]; exact fun h => nomatch h
    have hqi : ∀ x, l.w.proc ev.by ≠ .inside x := fun x hx => hq (honly _ _ hx)
    suffices hw : l1 = l ∨ ∃ x, l1 = ⟨l.w.set ev.by x, true⟩ by
      have hne : ¬ l.Ends ev r ∧ ∀ c, ¬ l.Commits E ev c := by
        constructor
        · rintro ⟨q, rfl, hqo, rfl⟩
          have := C93_destroy_fails hE h hqo (.inr ⟨p, s, hp⟩)
          rw [this] at e1
          cases e1
        · intro c hc
          cases ev with
          | destroy q => exact hc
          | ev a =>
            cases a with
            | call q op => obtain ⟨x, hx, _⟩ := hc; exact hqi x hx
            | _ => exact hc
      have v1 := h.other hf.1 e1 hne.1 (.inr hne.2)
      rcases hw with rfl | ⟨x, rfl⟩
      · exact ih v1 hp (hf.2 _ _ e1) (fun ev h => hby ev (List.mem_cons_of_mem _ h)) e2
      · refine ih (l := ⟨l.w.set ev.by x, true⟩) v1 ?_ (hf.2 _ _ e1) (fun ev h => hby ev (List.mem_cons_of_mem _ h)) e2
        show (l.w.set ev.by x).proc p = _
        rw [World.set_proc, if_neg (Ne.symm hq)]; exact hp
    cases ev with
    | destroy q =>
      rcases lifeStep_destroy e1 with ⟨rfl, _⟩ | ⟨_, hfree, _⟩
      · exact .inl rfl
      · rw [hh] at hfree; cases hfree
    | ev ev =>
      obtain ⟨w', e', rfl⟩ := lifeStep_there hthere e1
      have hself : (⟨l.w, true⟩ : Life) = l := by rw [← hthere]
      have hbefore : ((∃ p, ev = .look p) ∨ (∃ p rand, ev = .key p rand) ∨ (∃ p, ev = .count p) ∨
          (∃ p, ev = .leave p ∧ ∀ y, l.w.proc p ≠ .inside y) ∨ ∃ p op, ev = .call p op ∧ ∀ y, l.w.proc p ≠ .inside y) →
          (⟨w', true⟩ : Life) = l ∨ ∃ x, (⟨w', true⟩ : Life) = ⟨l.w.set ev.by x, true⟩ := by
        intro hev
        rcases procStep_before e' hev with rfl | ⟨x, hx, hqo, rfl | ⟨hs, ⟨q, rand, rfl⟩, -⟩⟩
        · exact .inl hself
        · exact .inr ⟨x, rfl⟩
        · exact absurd (hf.1 hs hthere) hkf
      cases ev with
      | look q => exact hbefore (.inl ⟨q, rfl⟩)
      | key q rand => exact hbefore (.inr (.inl ⟨q, rand, rfl⟩))
      | count q => exact hbefore (.inr (.inr (.inl ⟨q, rfl⟩)))
      | leave q => exact hbefore (.inr (.inr (.inr (.inl ⟨q, rfl, hqi⟩))))
      | call q op => exact hbefore (.inr (.inr (.inr (.inr ⟨q, op, rfl, hqi⟩))))
      | enter q =>
        dsimp only [procStep] at e'
        split at e'
        · rw [if_pos (by rw [hh]; exact fun h => nomatch h)] at e'
          cases e'; exact .inr ⟨_, rfl⟩
        · cases e'; exact .inl hself

/-- False as stated, for a key read before the lock is taken: process 2 reads the key of a database that process 1 then destroys; process 3 makes a
new database in the same place, commits and closes. Process 2 goes on, takes the lock and opens the files with the old key: it finds no commit, and
recovery removes what process 3 has committed. What process 2 then commits is removed in turn by the next open. All these calls have succeeded. -/
theorem C93_stale_false : ∃ l, lifeRun keyedEnv Life.fresh
    (((opening 1 (keyOf 1)).map .ev) ++ [.ev (.leave 1), .ev (.look 2), .ev (.key 2 (keyOf 4)), .destroy 1] ++ ((opening 3 (keyOf 2)).map .ev) ++
      [.ev (.call 3 (.insert1 (keyOf 3) [7])), .ev (.leave 3), .ev (.count 2), .ev (.enter 2), .ev (.call 2 (.get1 (keyOf 3) none)),
        .ev (.call 2 (.insert1 (keyOf 5) [8])), .ev (.leave 2)] ++ ((opening 3 (keyOf 4)).map .ev) ++
      [.ev (.call 3 (.get1 (keyOf 3) none)), .ev (.call 3 (.get1 (keyOf 5) none))]) =
    .ok (l, [.unit, .unit, .unit, .unit, .unit, .unit, .unit, .unit, .unit, .unit, .unit, .unit,
      .unit, .unit, .unit, .unit, .fail .ENOTFOUND, .unit, .unit, .unit, .unit, .unit, .unit,
      .fail .ENOTFOUND, .fail .ENOTFOUND]) ∧ l.w.dir.files = [[]] := by
  have h : (lifeRun keyedEnv Life.fresh
    (((opening 1 (keyOf 1)).map .ev) ++ [.ev (.leave 1), .ev (.look 2), .ev (.key 2 (keyOf 4)), .destroy 1] ++ ((opening 3 (keyOf 2)).map .ev) ++
      [.ev (.call 3 (.insert1 (keyOf 3) [7])), .ev (.leave 3), .ev (.count 2), .ev (.enter 2), .ev (.call 2 (.get1 (keyOf 3) none)),
        .ev (.call 2 (.insert1 (keyOf 5) [8])), .ev (.leave 2)] ++ ((opening 3 (keyOf 4)).map .ev) ++
      [.ev (.call 3 (.get1 (keyOf 3) none)), .ev (.call 3 (.get1 (keyOf 5) none))]) >>= fun x => pure (x.1.w.dir.files, x.2)) =
    .ok ([[]], [.unit, .unit, .unit, .unit, .unit, .unit, .unit, .unit, .unit, .unit, .unit, .unit,
      .unit, .unit, .unit, .unit, .fail .ENOTFOUND, .unit, .unit, .unit, .unit, .unit, .unit,
      .fail .ENOTFOUND, .fail .ENOTFOUND]) := by decide +kernel
  obtain ⟨⟨w, rs⟩, e, h⟩ := Res.bind_eq_ok.1 h
  simp only [Res.pure_eq, Res.ok.injEq, Prod.mk.injEq] at h
  exact ⟨w, by rw [e, ← h.2], h.1⟩

/-- The toy hash never gives zero. -/
theorem toy_not_zero (k : B32) (v : Bytes) : ¬ IsRoot toyEnv.H (Contents.ofList [(k, v)]) B32.zero := by
  rintro ⟨t, ht, hf, hh⟩
  cases t with
  | null =>
    have := congrFun hf k
    simp [PTree.find, Contents.ofList, Contents.set] at this
  | leaf k' v =>
    have := congrArg (fun h : B32 => h.bytes.head?) hh
    simp [PTree.hash, toyEnv, B32.zero, List.replicate] at this
  | node pre l r =>
    have h1 : ∀ d, (toyEnv.H d).bytes.head? = some 1 := fun d => rfl
    have hz : B32.zero.bytes.head? = some 0 := rfl
    cases pre with
    | nil =>
      rw [PTree.hash] at hh
      have e : some (1 : UInt8) = some 0 := (h1 _).symm.trans ((congrArg (fun h : B32 => h.bytes.head?) hh).trans hz)
      exact absurd e (by decide)
    | cons b pre =>
      rw [PTree.hash] at hh
      have e : some (1 : UInt8) = some 0 := (h1 _).symm.trans ((congrArg (fun h : B32 => h.bytes.head?) hh).trans hz)
      exact absurd e (by decide)

/-- The files of a database in which nothing has been committed. -/
theorem Logged.empty_files {E : Env} (hE : EnvOk E) {s : Sys} (hl : Logged E [] s) : s.db.store.files = [[]] := by
  obtain ⟨sp, hist, hs, e1, e2⟩ := hl.sim hE
  have hh : hist = [] := by
    have := hs.hist.symm.trans e1
    cases hist with
    | nil => rfl
    | cons a b => simp at this
  subst hh
  rcases hs.db.inv.tail with ⟨_, h⟩ | ⟨_, h⟩
  · exact h
  · have hc : s.db.store.state.metaPtr = nowhere := hs.db.inv.chain
    rename_i h0
    rw [hc] at h0
    have hn : s.db.store.files.length = 0 := h0.symm
    rw [List.length_eq_zero_iff.1 hn] at h
    have : lastLen ([] : List Bytes) = 0 := rfl
    rw [this] at h
    simp [metaSize] at h

/-- The hypotheses of the theorems above are met: process 1 makes the directory and commits a pair; process 2 cannot destroy the
database while process 1 has it open, which is not disturbed; process 1 closes, process 2 destroys the database and opens it again, empty and with
another key; the root of before is unknown. -/
theorem C93_example : ∃ (log : List (B32 × Contents)) (l : Life) (s : Sys) (l2 : Life) (s2 : Sys) (r : B32), log.map Prod.fst = [r] ∧
    Lived toyEnv log l ∧ l.w.proc 1 = .inside s ∧ s.db.store.key = keyOf 9 ∧ FairRun toyEnv l [.destroy 2, .ev (.look 3)] ∧
    (∃ l', lifeRun toyEnv l [.destroy 2, .ev (.look 3)] = .ok (l', [.fail .EBADOPEN, .unit])) ∧
    Lived toyEnv [] l2 ∧ l2.w.proc 2 = .inside s2 ∧ s2.db.store.key = keyOf 8 ∧ dbRoot s2.db = B32.zero ∧
    ∃ db', txCreate toyEnv s2.db (some r) = .ok (db', .error .ENOTFOUND) := by
  obtain ⟨l1, x1, tx1, -, t1, ho1, hp1, hr1, hv1, hc1, hs1, hk1⟩ := C93_open_partial toyEnv_ok .start (p := 1) (keyOf 9) (fun _ _ h => nomatch h) rfl rfl
  obtain ⟨hh1, -, ht1, hd1, hl1, -, -⟩ := C93_inside_partial toyEnv_ok t1 hp1
  have hk1 := hk1 rfl
  have hfiles : x1.db.store.files = [[]] := hl1.empty_files toyEnv_ok
  -- a commit
  obtain ⟨x2, e2, g2⟩ := good_create toyEnv_ok hl1 hv1 (by rw [hfiles]; rfl) (l := []) (by simp) rfl
  have b2 := lifeStep_of ht1 (call_step hp1 (op := .create 0 none) (fun _ h => (by cases h)) e2)
  have v2 := t1.other (ev := .ev (.call 1 (.create 0 none))) (fun _ _ => trivial) b2 Life.not_ends (.inr fun c ⟨_, _, h⟩ => h)
  have hk2 : x2.db.store.key = keyOf 9 := (step_key (fun _ h => (by cases h)) e2).trans hk1
  have hp2 : (World.set { l1.w with dir := { l1.w.dir with files := x2.db.store.files } } 1 (.inside x2)).proc 1 = .inside x2 := by rw [World.set_proc, if_pos rfl]
  have hq2 : (World.set { l1.w with dir := { l1.w.dir with files := x2.db.store.files } } 1 (.inside x2)).proc 2 = .out := by
    rw [World.set_proc, if_neg (by decide)]; exact ho1 2 (by decide)
  have hq23 : (World.set { l1.w with dir := { l1.w.dir with files := x2.db.store.files } } 1 (.inside x2)).proc 3 = .out := by
    rw [World.set_proc, if_neg (by decide)]; exact ho1 3 (by decide)
  generalize World.set _ 1 (.inside x2) = w2 at b2 v2 hp2 hq2 hq23
  obtain ⟨x3, e3, g3⟩ := good_insert toyEnv_ok g2 (keyOf 3) [9] (by decide)
  have b3 := lifeStep_of (l := ⟨w2, true⟩) rfl (call_step hp2 (op := .insert 0 (keyOf 3) [9]) (fun _ h => (by cases h)) e3)
  have v3 := v2.other (ev := .ev (.call 1 (.insert 0 (keyOf 3) [9]))) (fun y hy => by
      have hy : w2.proc 1 = _ := hy
      rw [hp2] at hy; cases hy
      obtain ⟨tx, h, -⟩ := g2.tx
      show x2.txs 0 ≠ none
      rw [h]; exact fun h => nomatch h) b3 Life.not_ends (.inr fun c ⟨_, _, h⟩ => h)
  have hk3 : x3.db.store.key = keyOf 9 := (step_key (fun _ h => (by cases h)) e3).trans hk2
  have hp3 : (World.set { w2 with dir := { w2.dir with files := x3.db.store.files } } 1 (.inside x3)).proc 1 = .inside x3 := by rw [World.set_proc, if_pos rfl]
  have hq3 : (World.set { w2 with dir := { w2.dir with files := x3.db.store.files } } 1 (.inside x3)).proc 2 = .out := by
    rw [World.set_proc, if_neg (by decide)]; exact hq2
  have hq33 : (World.set { w2 with dir := { w2.dir with files := x3.db.store.files } } 1 (.inside x3)).proc 3 = .out := by
    rw [World.set_proc, if_neg (by decide)]; exact hq23
  generalize World.set _ 1 (.inside x3) = w3 at b3 v3 hp3 hq3 hq33
  have hsz : lastLen x1.db.store.files = 0 := by rw [hfiles]; rfl
  obtain ⟨x4, e4, g4, hroot⟩ := good_commit toyEnv_ok ⟨rfl, rfl⟩ g3 (by rw [hsz]; simp)
  obtain ⟨tx3, htx3, hsh3⟩ := g3.tx
  have hcan : CanCommit toyEnv x3.db tx3 := by
    obtain ⟨hist, t, hd, ht⟩ := g3.logged.reachable.tree toyEnv_ok htx3
    refine canCommit_of hd ht hsh3 (ofList_vals g3.short) (([] ++ [(keyOf 3, [9])] : List (B32 × Bytes)).map (·.1)) ofList_keys ?_
    have h1 : (x3.db.store.files.getLastD []).length = lastLen x3.db.store.files := by
      rw [List.getLastD_eq_getLast?]; rfl
    have h2 := g3.size
    rw [hsz] at h2
    show x3.db.store.files.length * 2147479552 + _ + 2 * (408 * 1 + 76) < 2147479552 * 32767
    rw [g3.one, h1]
    omega
  have b4 := lifeStep_of (l := ⟨w3, true⟩) rfl (call_step hp3 (op := .commit 0) (fun _ h => (by cases h)) e4)
  have v4 := v3.commit (p := 1) (op := .commit 0) (s' := x4) (c := Contents.ofList ([] ++ [(keyOf 3, [9])]))
    (fun y hy => by have hy : w3.proc 1 = _ := hy; rw [hp3] at hy; cases hy; exact ⟨tx3, htx3, hcan⟩) b4 ⟨x3, hp3, tx3, htx3, hsh3⟩ (by show (World.set _ 1 _).proc 1 = _; rw [World.set_proc, if_pos rfl])
  have hk4 : x4.db.store.key = keyOf 9 := (step_key (fun _ h => (by cases h)) e4).trans hk3
  have hp4 : (World.set { w3 with dir := { w3.dir with files := x4.db.store.files } } 1 (.inside x4)).proc 1 = .inside x4 := by rw [World.set_proc, if_pos rfl]
  have hq4 : (World.set { w3 with dir := { w3.dir with files := x4.db.store.files } } 1 (.inside x4)).proc 2 = .out := by
    rw [World.set_proc, if_neg (by decide)]; exact hq3
  have hq43 : (World.set { w3 with dir := { w3.dir with files := x4.db.store.files } } 1 (.inside x4)).proc 3 = .out := by
    rw [World.set_proc, if_neg (by decide)]; exact hq33
  generalize World.set _ 1 (.inside x4) = w4 at b4 v4 hp4 hq4 hq43
  -- process 2 cannot destroy the database
  have d4 := C93_destroy_fails toyEnv_ok v4 (p := 2) hq4 (.inr ⟨1, x4, hp4⟩)
  have d5 : lifeStep toyEnv ⟨w4, true⟩ (.ev (.look 3)) = .ok (⟨w4.set 3 (.saw w4.dir.keyFile.isSome), true⟩, .unit) := by
    refine lifeStep_of rfl ?_
    dsimp only [procStep]; rw [hq43]
  obtain ⟨hh4, honly4, -, -, -, -, -⟩ := C93_inside_partial toyEnv_ok v4 hp4
  -- process 1 closes
  have b5 : lifeStep toyEnv ⟨w4, true⟩ (.ev (.leave 1)) = .ok (⟨({ w4 with holder := none } : World).set 1 .out, true⟩, .unit) := by
    refine lifeStep_of rfl ?_
    dsimp only [procStep]; rw [hp4]
  have v5 := v4.other (ev := .ev (.leave 1)) trivial b5 Life.not_ends (.inr fun _ h => h)
  have hnone5 : ∀ q x, (({ w4 with holder := none } : World).set 1 .out).proc q ≠ .inside x := by
    intro q y hq
    rw [World.set_proc] at hq
    split at hq
    · cases hq
    · rename_i hne
      exact hne (honly4 q y hq)
  have hq5 : (({ w4 with holder := none } : World).set 1 .out).proc 2 = .out := by rw [World.set_proc, if_neg (by decide)]; exact hq4
  -- process 2 destroys it
  obtain ⟨l6, -, v6, ht6, hd6, hp6⟩ := C93_destroy toyEnv_ok v5 (p := 2) hq5 rfl hnone5
  obtain ⟨l7, x7, tx7, -, v7, -, hp7, hr7, -, -, -, hk7⟩ := C93_open_partial toyEnv_ok v6 (p := 2) (keyOf 8)
    (by rw [hp6]; exact hnone5) (by rw [hp6]; exact hq5) (by rw [hd6]; rfl)
  have hnz : dbRoot x4.db ≠ B32.zero := by
    intro h
    rw [h] at hroot
    exact toy_not_zero (keyOf 3) [9] hroot
  obtain ⟨db', he, -⟩ := (C93_inside_partial toyEnv_ok v7 hp7).2.2.2.2.2.2 (dbRoot x4.db) hnz (fun c h => nomatch h)
  exact ⟨_, ⟨w4, true⟩, x4, l7, x7, dbRoot x4.db, rfl, v4, hp4, hk4, ⟨trivial, fun _ _ _ => ⟨trivial, fun _ _ _ => trivial⟩⟩,
    ⟨_, lifeRun_cons d4 (lifeRun_cons d5 rfl)⟩, v7, hp7, hk7 (by rw [hd6]; rfl), hr7, db', he⟩

end Urkel
