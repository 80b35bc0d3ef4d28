import Verif.Spec.Boundary
import Verif.Props.Corrupt
/-
The newest state whose files end on a boundary, seen from a later one.
-/
namespace Urkel

theorem survivors_parts : ∀ log : List ((B32 × Contents) × Bool), ∃ lost, log = lost ++ survivors log ∧ (∀ e ∈ lost, e.2 = false) ∧
    (survivors log = [] ∨ ∃ e rest, survivors log = e :: rest ∧ e.2 = true)
  | [] => ⟨[], rfl, (fun _ h => nomatch h), .inl rfl⟩
  | (x, true) :: log => ⟨[], rfl, (fun _ h => nomatch h), .inr ⟨_, _, rfl, rfl⟩⟩
  | (x, false) :: log => by
    obtain ⟨lost, h1, h2, h3⟩ := survivors_parts log
    have hs : survivors ((x, false) :: log) = survivors log := rfl
    rw [hs]
    refine ⟨(x, false) :: lost, by rw [List.cons_append, ← h1], ?_, h3⟩
    intro e he
    rcases List.mem_cons.1 he with rfl | he
    · rfl
    · exact h2 e he

theorem survivors_twice (log : List ((B32 × Contents) × Bool)) : survivors (survivors log) = survivors log := by
  obtain ⟨_, _, _, h | ⟨⟨x, b⟩, rest, h, hb⟩⟩ := survivors_parts log
  · rw [h]; rfl
  · rw [h]
    cases hb
    rfl

/-- `s0` is a state with log `log` that ends on a boundary, and opening any files that extend its
files up to `F` finds nothing else. -/
structure Anchor (E : Env) (log : List (B32 × Contents)) (key : B32) (F : List Bytes) (s0 : Sys) : Prop where
  logged : Logged E log s0
  boundary : (s0.db.store.files.getLastD []).length % 38 = 0
  same : s0.db.store.key = key
  ext : FExt s0.db.store.files F
  forge : NoForge E key s0.db.store.files F
  magic : log = [] → NoMagic s0.db.store.files F

theorem Anchor.self {E : Env} {log : List (B32 × Contents)} {s : Sys} (h : Logged E log s) (hb : s.onBoundary = true) :
    Anchor E log s.db.store.key s.db.store.files s :=
  ⟨h, of_decide_eq_true hb, rfl, FExt.refl _, noForge_self _ _ _, fun _ => noMagic_self _⟩

theorem Logged.nothing {E : Env} (hE : EnvOk E) {log : List (B32 × Contents)} {s : Sys} (hl : Logged E log s) : log = [] ↔ s.db.store.files = [[]] := by
  obtain ⟨sp, hist, hs, e1, _⟩ := hl.sim hE
  have hlen : hist.length = log.length := by
    have := congrArg List.length (hs.hist.symm.trans e1)
    simpa using this
  constructor
  · rintro rfl
    have : hist = [] := List.length_eq_zero_iff.1 (by simpa using hlen)
    subst this
    exact hs.db.inv.no_commit
  · intro hf
    cases hist with
    | nil => exact List.length_eq_zero_iff.1 (by simpa using hlen.symm)
    | cons t ts =>
      exfalso
      have h38 : metaSize = 38 := rfl
      rcases hs.db.inv.tail with ⟨h, _⟩ | ⟨h1, h2⟩
      · cases h
      · rw [hf] at h2
        simp [lastLen] at h2
        omega

/-- What opening the files gives. -/
theorem Anchor.opens {E : Env} (hE : EnvOk E) {log : List (B32 × Contents)} {key : B32} {F F' : List Bytes} {s0 : Sys} (h : Anchor E log key F s0)
    (hc : OpensCut E key F F') (rand : B32) : dbOpen E ⟨some key.bytes, F'⟩ rand = dbOpen E s0.db.dir rand := by
  obtain ⟨hl, hb, rfl, hx, hf, hm⟩ := h
  exact open_after_cuts hE hl hb hx hf (fun e => hm ((hl.nothing hE).2 e)) hc rand

theorem Anchor.reopened {E : Env} (hE : EnvOk E) {log : List (B32 × Contents)} {key : B32} {F F' : List Bytes} {s0 : Sys} (h : Anchor E log key F s0)
    (hc : OpensCut E key F F') {rand : B32} {d : Dir} {db : Db} (e : dbOpen E ⟨some key.bytes, F'⟩ rand = .ok (d, .ok db)) :
    Logged E log ⟨db, fun _ => none⟩ ∧ Sys.onBoundary ⟨db, fun _ => none⟩ = true ∧ d = ⟨some key.bytes, s0.db.store.files⟩ ∧ db.store.files = s0.db.store.files ∧ db.store.key = key := by
  rw [h.opens hE hc rand] at e
  obtain ⟨sp, hist, hs⟩ := h.logged.reachable.sim hE
  obtain ⟨db', e', _, hf, hk, _⟩ := reopen_ok hE hs.db h.boundary rand
  rw [e] at e'
  cases e'
  refine ⟨?_, ?_, ?_, hf, hk.trans h.same⟩
  · refine .other (op := .reopen rand) (r := .unit) h.logged h.boundary ?_ (Or.inr fun c hc => hc.elim)
    simp only [step, e, Res.bind_ok]; rfl
  · unfold Sys.onBoundary
    rw [show db.store.files = s0.db.store.files from hf]
    exact decide_eq_true h.boundary
  · rw [← h.same]; rfl

theorem Anchor.open_ok {E : Env} (hE : EnvOk E) {log : List (B32 × Contents)} {key : B32} {F F' : List Bytes} {s0 : Sys} (h : Anchor E log key F s0)
    (hc : OpensCut E key F F') (rand : B32) : ∃ d db, dbOpen E ⟨some key.bytes, F'⟩ rand = .ok (d, .ok db) := by
  obtain ⟨sp, hist, hs⟩ := h.logged.reachable.sim hE
  obtain ⟨db', e', _⟩ := reopen_ok hE hs.db h.boundary rand
  exact ⟨_, _, (h.opens hE hc rand).trans e'⟩

/-- Appending without completing anything that looks like a record. -/
theorem Anchor.grow {E : Env} {log : List (B32 × Contents)} {key : B32} {F G G' : List Bytes} {s0 : Sys} (h : Anchor E log key F s0)
    (hi : CrashImage F G' G) {fresh : Prop} (hn : NoImitation E key fresh F G') (hfr : log = [] → fresh)
    (hne : G ≠ G' ∨ (G'.getLastD []).length % 38 ≠ 0) : Anchor E log key G s0 := by
  have h38 : metaSize = 38 := rfl
  have clean : ∀ (j : Nat) (g : Bytes) (n : Nat), G[j]? = some g → (s0.db.store.files.getD j []).length ≤ metaSize * n → metaSize * n + metaSize ≤ g.length →
      ¬ ValidRec E key (slot g n) ∧ (log = [] → leNat ((slot g n).take 4) ≠ metaMagic) := by
    intro j g n hg h1 h2
    by_cases hin : metaSize * n + metaSize ≤ (F.getD j []).length
    · -- complete before
      cases hF : F[j]? with
      | none =>
        rw [List.getD_eq_getElem?_getD, hF] at hin
        rw [h38] at hin
        simp at hin
      | some f =>
        rw [List.getD_eq_getElem?_getD, hF] at hin
        obtain ⟨g', hg', d, hd⟩ := hi.1.get j f hF
        rw [hg] at hg'; cases hg'
        have hin' : metaSize * n + metaSize ≤ f.length := hin
        rw [← hd, slot_append hin']
        exact ⟨h.forge j f n hF h1 hin, fun hl => h.magic hl j f n hF h1 hin⟩
    · obtain ⟨g', hg', d, hd⟩ := hi.2.get j g hg
      have hlast : ¬ (j + 1 = G'.length ∧ metaSize * n + metaSize = g'.length) := by
        rintro ⟨a, b⟩
        rcases hne with hne | hne
        · refine hne (hi.2.eq_of_last a hg hg' (by omega))
        · refine hne ?_
          rw [List.getLastD_eq_getLast?, List.getLast?_eq_getElem?, ← a, Nat.add_sub_cancel, hg']
          show g'.length % 38 = 0
          rw [← b, h38]; omega
      have := hn j g' n hg' (by omega) (by rw [← hd, List.length_append]; omega) hlast
      rw [← hd, slot_append h2] at this
      exact ⟨this.1, fun hl => this.2 (hfr hl)⟩
  exact ⟨h.logged, h.boundary, h.same, h.ext.trans hi.1, fun j g n a b c => (clean j g n a b c).1, fun hl j g n a b c => (clean j g n a b c).2 hl⟩

/-- What is true of every such execution. -/
structure StopInv (E : Env) (log : List ((B32 × Contents) × Bool)) (s : Sys) : Prop where
  logged : Logged E (log.map Prod.fst) s
  flag : s.onBoundary = true ↔ survivors log = log
  anchor : ∃ s0, Anchor E ((survivors log).map Prod.fst) s.db.store.key s.db.store.files s0

theorem survivors_cons_ne (x : B32 × Contents) (log : List ((B32 × Contents) × Bool)) : survivors ((x, false) :: log) ≠ (x, false) :: log := by
  intro h
  have : survivors ((x, false) :: log) = survivors log := rfl
  rw [this] at h
  obtain ⟨lost, h1, _⟩ := survivors_parts log
  have := congrArg List.length h1
  rw [List.length_append, h] at this
  simp at this
  omega

theorem StopInv.commit {E : Env} (hE : EnvOk E) {log : List ((B32 × Contents) × Bool)} {s s' : Sys} (h : StopInv E log s) {op : Op} {c : Contents}
    (ha : Allowed E s op) (e : step E s op = .ok (s', .unit)) (hc : Commits E s op c)
    (hn : s'.onBoundary = false → NoImitation E s.db.store.key (survivors log = []) s.db.store.files s'.db.store.files) :
    StopInv E (((dbRoot s'.db, c), s'.onBoundary) :: log) s' := by
  have hl : Logged E ((((dbRoot s'.db, c), s'.onBoundary) :: log).map Prod.fst) s' := .commit h.logged ha e hc
  obtain ⟨hx, hk⟩ := step_ext hE h.logged.reachable ha e
  cases hb : s'.onBoundary with
  | true =>
    rw [hb] at hl
    exact ⟨hl, by rw [hb]; exact ⟨fun _ => rfl, fun _ => rfl⟩, s', Anchor.self hl hb⟩
  | false =>
    rw [hb] at hl
    refine ⟨hl, by rw [hb]; exact ⟨(fun h => nomatch h), fun h => (survivors_cons_ne _ _ h).elim⟩, ?_⟩
    obtain ⟨s0, h0⟩ := h.anchor
    refine ⟨s0, ?_⟩
    show Anchor E ((survivors log).map Prod.fst) _ _ _
    rw [hk]
    exact h0.grow ⟨hx, FExt.refl _⟩ (hn hb) (fun h => by simpa using h) (.inr (of_decide_eq_false hb))

theorem StopInv.other {E : Env} (hE : EnvOk E) {log : List ((B32 × Contents) × Bool)} {s s' : Sys} (h : StopInv E log s) {op : Op} {r : Ret}
    (ha : Allowed E s op) (e : step E s op = .ok (s', r)) (hc : r ≠ .unit ∨ ∀ c, ¬ Commits E s op c) : StopInv E log s' := by
  obtain ⟨_, hk⟩ := step_ext hE h.logged.reachable ha e
  have hf := other_same hE h.logged.reachable ha e hc
  refine ⟨.other h.logged ha e hc, ?_, ?_⟩
  · rw [← h.flag]; unfold Sys.onBoundary; rw [hf]
  · rw [hk, hf]; exact h.anchor

theorem Anchor.stopInv {E : Env} (hE : EnvOk E) {log : List ((B32 × Contents) × Bool)} {key : B32} {F F' : List Bytes} {s0 : Sys}
    (h : Anchor E ((survivors log).map Prod.fst) key F s0) (hc : OpensCut E key F F') {rand : B32} {d : Dir} {db : Db}
    (e : dbOpen E ⟨some key.bytes, F'⟩ rand = .ok (d, .ok db)) : StopInv E (survivors log) ⟨db, fun _ => none⟩ := by
  obtain ⟨h1, h2, _, _, h5⟩ := h.reopened hE hc e
  refine ⟨h1, by rw [h2, survivors_twice]; exact ⟨fun _ => rfl, fun _ => rfl⟩, ⟨db, fun _ => none⟩, ?_⟩
  rw [survivors_twice]
  exact Anchor.self h1 h2

/-- The anchor of what a kill in the middle of a commit leaves. -/
theorem StopInv.image {E : Env} (hE : EnvOk E) {log : List ((B32 × Contents) × Bool)} {s s' : Sys} (h : StopInv E log s) {op : Op} {c : Contents}
    (ha : Allowed E s op) (e : step E s op = .ok (s', .unit)) (hc : Commits E s op c)
    (hn : NoImitation E s.db.store.key (survivors log = []) s.db.store.files s'.db.store.files) {F : List Bytes}
    (hi : CrashImage s.db.store.files s'.db.store.files F) :
    ∃ s0, Anchor E ((survivors (if F = s'.db.store.files then ((dbRoot s'.db, c), s'.onBoundary) :: log else log)).map Prod.fst) s.db.store.key F s0 := by
  have hk := (step_ext hE h.logged.reachable ha e).2
  obtain ⟨s0, h0⟩ := h.anchor
  by_cases hF : F = s'.db.store.files
  · rw [if_pos hF, hF, ← hk]
    exact (h.commit hE ha e hc fun _ => hn).anchor
  · rw [if_neg hF]
    exact ⟨s0, h0.grow hi hn (fun h => by simpa using h) (.inl hF)⟩

theorem Stopped.inv {E : Env} (hE : EnvOk E) {log : List ((B32 × Contents) × Bool)} {s : Sys} (h : Stopped E log s) : StopInv E log s := by
  induction h with
  | @start s h =>
    have hl : Logged E [] s := .start h
    have hb : s.onBoundary = true := by
      unfold Sys.onBoundary
      rw [(hl.nothing hE).1 rfl]; rfl
    exact ⟨hl, ⟨fun _ => rfl, fun _ => hb⟩, s, Anchor.self hl hb⟩
  | commit _ ha e hc hn ih => exact ih.commit hE ha e hc hn
  | other _ ha e hc ih => exact ih.other hE ha e hc
  | idle _ hc ho ih =>
    obtain ⟨s0, h0⟩ := ih.anchor
    exact h0.stopInv hE hc ho
  | killed _ ha e hcm hn hi hc ho ih =>
    obtain ⟨s0, h0⟩ := ih.image hE ha e hcm hn hi
    exact h0.stopInv hE hc ho

end Urkel
