import Verif.Spec.Modes
import Mathlib.Tactic.IntervalCases

/-!
C96: how the library opens and creates files.
-/

namespace Urkel

open Modes

/-! ### The translations, bit by bit -/

private theorem fold_testBit (m : Nat) : ∀ (t : List (Nat × Nat)) (out i : Nat),
    (t.foldl (orIf m) out).testBit i =
      (out.testBit i || t.any fun p => (m &&& p.1 != 0) && p.2.testBit i) := by
  intro t
  induction t with
  | nil => intro out i; simp
  | cons p t ih =>
    intro out i
    rw [List.foldl_cons, ih, List.any_cons, ← Bool.or_assoc]
    congr 1
    unfold orIf
    by_cases h : m &&& p.1 = 0
    · simp [h]
    · have h' : (m &&& p.1 != 0) = true := by simpa using h
      simp [h, h', Nat.testBit_or]

private theorem translate_testBit (t : List (Nat × Nat)) (m i : Nat) :
    (translate t m).testBit i = t.any fun p => (m &&& p.1 != 0) && p.2.testBit i := by
  unfold translate
  rw [fold_testBit]
  simp

private theorem hit_pow (m k : Nat) : (m &&& 2 ^ k != 0) = m.testBit k := by
  rw [Nat.testBit_eq_decide_div_mod_eq]
  have : m &&& 2 ^ k = 2 ^ k * (m / 2 ^ k % 2) := by
    apply Nat.eq_of_testBit_eq
    intro j
    rw [Nat.testBit_and, Nat.testBit_two_pow]
    rcases Nat.mod_two_eq_zero_or_one (m / 2 ^ k) with h | h
    · rw [h]
      by_cases hj : k = j
      · subst hj
        have : m.testBit k = false := by
          rw [Nat.testBit_eq_decide_div_mod_eq]; simp [h]
        simp [this]
      · simp [hj]
    · rw [h]
      by_cases hj : k = j
      · subst hj
        have : m.testBit k = true := by
          rw [Nat.testBit_eq_decide_div_mod_eq]; simp [h]
        simp [this]
      · simp [hj, Nat.testBit_two_pow]
  rw [this]
  rcases Nat.mod_two_eq_zero_or_one (m / 2 ^ k) with h | h <;> simp [h]

private theorem hit_or (m a b : Nat) :
    (m &&& (a ||| b) != 0) = ((m &&& a != 0) || (m &&& b != 0)) := by
  rw [Nat.and_or_distrib_left]
  by_cases ha : m &&& a = 0
  · rw [ha, Nat.zero_or]; rfl
  · have h' : (m &&& a) ||| (m &&& b) ≠ 0 := fun e => ha (Nat.or_eq_zero_iff.1 e).1
    rw [bne_iff_ne.2 h', bne_iff_ne.2 ha, Bool.true_or]

private theorem swap_rows : modeRows.map Prod.swap = modeRows := by decide

/-- What either translation of a mode does, bit by bit. -/
private theorem mode_testBit (m i : Nat) :
    (translate modeRows m).testBit i =
      if i < 13 then m.testBit i
      else if i < 16 then m.testBit 13 || m.testBit 14 || m.testBit 15
      else false := by
  rw [translate_testBit]
  have blk := hit_or m (2 ^ 13) (2 ^ 14)
  have lnk := hit_or m (2 ^ 13) (2 ^ 15)
  have sock := hit_or m (2 ^ 14) (2 ^ 15)
  rw [hit_pow, hit_pow] at blk lnk sock
  have b0 := hit_pow m 0; have b1 := hit_pow m 1; have b2 := hit_pow m 2
  have b3 := hit_pow m 3; have b4 := hit_pow m 4; have b5 := hit_pow m 5
  have b6 := hit_pow m 6; have b7 := hit_pow m 7; have b8 := hit_pow m 8
  have b9 := hit_pow m 9; have b10 := hit_pow m 10; have b11 := hit_pow m 11
  have b12 := hit_pow m 12; have b13 := hit_pow m 13; have b14 := hit_pow m 14
  have b15 := hit_pow m 15
  simp only [Nat.reducePow, Nat.reduceOr] at *
  simp only [modeRows, List.any_cons, List.any_nil, blk, lnk, sock, b0, b1, b2, b3, b4,
    b5, b6, b7, b8, b9, b10, b11, b12, b13, b14, b15, Bool.or_false]
  by_cases h16 : i < 16
  · clear b0 b1 b2 b3 b4 b5 b6 b7 b8 b9 b10 b11 b12 b13 b14 b15 blk lnk sock
    interval_cases i <;>
      generalize m.testBit 0 = c0, m.testBit 1 = c1, m.testBit 2 = c2, m.testBit 3 = c3,
        m.testBit 4 = c4, m.testBit 5 = c5, m.testBit 6 = c6, m.testBit 7 = c7,
        m.testBit 8 = c8, m.testBit 9 = c9, m.testBit 10 = c10, m.testBit 11 = c11,
        m.testBit 12 = c12, m.testBit 13 = c13, m.testBit 14 = c14, m.testBit 15 = c15 <;>
      simp [Nat.testBit] <;> cases c13 <;> cases c14 <;> cases c15 <;> rfl
  · have big : ∀ n, n < 2 ^ 16 → n.testBit i = false := fun n hn =>
      Nat.testBit_lt_two_pow (Nat.lt_of_lt_of_le hn (Nat.pow_le_pow_right (by omega) (by omega)))
    rw [if_neg (by omega), if_neg h16]
    simp only [big _ (show (24576 : Nat) < 2 ^ 16 by decide),
      big _ (show (8192 : Nat) < 2 ^ 16 by decide), big _ (show (4096 : Nat) < 2 ^ 16 by decide),
      big _ (show (32768 : Nat) < 2 ^ 16 by decide), big _ (show (16384 : Nat) < 2 ^ 16 by decide),
      big _ (show (40960 : Nat) < 2 ^ 16 by decide), big _ (show (49152 : Nat) < 2 ^ 16 by decide),
      big _ (show (256 : Nat) < 2 ^ 16 by decide), big _ (show (128 : Nat) < 2 ^ 16 by decide),
      big _ (show (64 : Nat) < 2 ^ 16 by decide), big _ (show (32 : Nat) < 2 ^ 16 by decide),
      big _ (show (16 : Nat) < 2 ^ 16 by decide), big _ (show (8 : Nat) < 2 ^ 16 by decide),
      big _ (show (4 : Nat) < 2 ^ 16 by decide), big _ (show (2 : Nat) < 2 ^ 16 by decide),
      big _ (show (1 : Nat) < 2 ^ 16 by decide), big _ (show (2048 : Nat) < 2 ^ 16 by decide),
      big _ (show (1024 : Nat) < 2 ^ 16 by decide), big _ (show (512 : Nat) < 2 ^ 16 by decide),
      Bool.and_false, Bool.or_false]

/-- The permission bits are translated one to one, both ways. -/
theorem C96_permissions (m i : Nat) (hi : i < 12) :
    (modeApiToOs m).testBit i = m.testBit i ∧ (modeOsToApi m).testBit i = m.testBit i := by
  unfold modeApiToOs modeOsToApi
  rw [swap_rows, mode_testBit, if_pos (by omega)]
  exact ⟨rfl, rfl⟩

/-- A mode made of permission bits only is translated to itself. -/
theorem C96_permissions_only (m : Nat) (hm : m < 0o10000) :
    modeApiToOs m = m ∧ modeOsToApi m = m := by
  have high : ∀ i, 12 ≤ i → m.testBit i = false := fun i hi =>
    Nat.testBit_lt_two_pow (Nat.lt_of_lt_of_le (show m < 2 ^ 12 from hm)
      (Nat.pow_le_pow_right (by omega) hi))
  unfold modeApiToOs modeOsToApi
  rw [swap_rows]
  have : translate modeRows m = m := by
    apply Nat.eq_of_testBit_eq
    intro i
    rw [mode_testBit]
    by_cases h : i < 13
    · rw [if_pos h]
    · rw [if_neg h, high i (by omega), high 13 (by omega), high 14 (by omega),
        high 15 (by omega)]
      simp
  exact ⟨this, this⟩

private theorem kind_testBit (m i : Nat) :
    (kind m).testBit i = (decide (12 ≤ i ∧ i < 16) && m.testBit i) := by
  unfold kind
  rw [Nat.testBit_and, Bool.and_comm]
  congr 1
  by_cases h : i < 16
  · interval_cases i <;> rfl
  · rw [Nat.testBit_lt_two_pow (Nat.lt_of_lt_of_le (show 0o170000 < 2 ^ 16 by decide)
      (Nat.pow_le_pow_right (by omega) (by omega)))]
    simp [h]

/-- **C96, the part that is false.** The kinds of files are numbers, not sets of bits
(a directory is 04, a block device 06, a regular file 10, a link 12, a socket 14), but
the translation treats them as bits (/repo/src/io_posix.c:299-331): whatever
`urkel_fs_stat` reports as the kind of a file is right only for FIFOs, and for the three
numbers that stand for no kind. -/
theorem C96_kind (m : Nat) :
    kind (modeOsToApi m) = kind m ↔
      kind m = 0 ∨ kind m = 0o010000 ∨ kind m = 0o160000 ∨ kind m = 0o170000 := by
  have key : ∀ n : Nat, ∀ c12 c13 c14 c15 : Bool,
      (∀ i, n.testBit i = if i = 12 then c12 else if i = 13 then c13 else
        if i = 14 then c14 else if i = 15 then c15 else false) →
      n = c12.toNat * 4096 + c13.toNat * 8192 + c14.toNat * 16384 + c15.toNat * 32768 := by
    intro n c12 c13 c14 c15 h
    apply Nat.eq_of_testBit_eq
    intro i
    rw [h]
    by_cases hi : i < 16
    · interval_cases i <;> cases c12 <;> cases c13 <;> cases c14 <;> cases c15 <;> rfl
    · rw [if_neg (by omega), if_neg (by omega), if_neg (by omega), if_neg (by omega)]
      symm
      apply Nat.testBit_lt_two_pow
      refine Nat.lt_of_lt_of_le ?_ (Nat.pow_le_pow_right (n := 2) (by omega) (show 16 ≤ i by omega))
      cases c12 <;> cases c13 <;> cases c14 <;> cases c15 <;> decide
  have before := key (kind m) (m.testBit 12) (m.testBit 13) (m.testBit 14) (m.testBit 15) (by
    intro i
    rw [kind_testBit]
    by_cases hi : i < 16
    · interval_cases i <;> simp
    · rw [if_neg (by omega), if_neg (by omega), if_neg (by omega), if_neg (by omega)]
      simp [hi])
  have after := key (kind (modeOsToApi m)) (m.testBit 12)
      (m.testBit 13 || m.testBit 14 || m.testBit 15)
      (m.testBit 13 || m.testBit 14 || m.testBit 15)
      (m.testBit 13 || m.testBit 14 || m.testBit 15) (by
    intro i
    rw [kind_testBit]
    unfold modeOsToApi
    rw [swap_rows, mode_testBit]
    by_cases hi : i < 16
    · interval_cases i <;> simp
    · rw [if_neg (show ¬i = 12 by omega), if_neg (show ¬i = 13 by omega),
        if_neg (show ¬i = 14 by omega), if_neg (show ¬i = 15 by omega)]
      simp [hi])
  rw [before, after]
  generalize m.testBit 12 = c12, m.testBit 13 = c13, m.testBit 14 = c14, m.testBit 15 = c15
  cases c12 <;> cases c13 <;> cases c14 <;> cases c15 <;> decide

/-- So no regular file and no directory is recognised as one. -/
theorem C96_kind_false (m : Nat) :
    (kind m = 0o100000 → kind (modeOsToApi m) ≠ 0o100000) ∧
    (kind m = 0o040000 → kind (modeOsToApi m) ≠ 0o040000) := by
  constructor
  · intro h e
    have := (C96_kind m).1 (by rw [e, h])
    rw [h] at this
    revert this; decide
  · intro h e
    have := (C96_kind m).1 (by rw [e, h])
    rw [h] at this
    revert this; decide

/-- The kind of a regular file with mode 0640. -/
example : kind 0o100640 = 0o100000 ∧ kind (modeOsToApi 0o100640) = 0o160000 := by
  constructor <;> decide

/-! ### Opening -/

private theorem getFdLoop_spec {fd : Nat} : ∀ {as t a r},
    getFdLoop fd as = some (t, a, r) →
      a ≠ .error .intr ∧ (.getfd fd, a) ∈ t ∧ ∀ c ∈ t, c.1 = .getfd fd
  | [], _, _, _, h => nomatch h
  | .error .intr :: rest, t, a, r, h => by
    rw [getFdLoop] at h
    cases hr : getFdLoop fd rest with
    | none => rw [hr] at h; cases h
    | some q =>
      obtain ⟨t', a', r'⟩ := q
      obtain ⟨h1, h2, h3⟩ := getFdLoop_spec hr
      rw [hr] at h
      cases h
      refine ⟨h1, List.mem_cons_of_mem _ h2, fun c hc => ?_⟩
      rcases List.mem_cons.1 hc with rfl | hc
      · rfl
      · exact h3 c hc
  | .error .inval :: _, _, _, _, h | .error .other :: _, _, _, _, h | .ok _ :: _, _, _, _, h => by
    cases h
    refine ⟨(by intro e; cases e), List.mem_singleton.2 rfl, fun c hc => ?_⟩
    rw [List.mem_singleton.1 hc]

private theorem setFdLoop_spec {fd v : Nat} : ∀ {as t r},
    setFdLoop fd v as = some (t, r) →
      (∃ t' a, t = t' ++ [(.setfd fd v, a)] ∧ a ≠ .error .intr) ∧ ∀ c ∈ t, c.1 = .setfd fd v
  | [], _, _, h => nomatch h
  | .error .intr :: rest, t, r, h => by
    rw [setFdLoop] at h
    cases hr : setFdLoop fd v rest with
    | none => rw [hr] at h; cases h
    | some q =>
      obtain ⟨t', r'⟩ := q
      obtain ⟨⟨t1, a, h1, h2⟩, h3⟩ := setFdLoop_spec hr
      rw [hr] at h
      cases h
      refine ⟨⟨_ :: t1, a, by rw [h1, List.cons_append], h2⟩, fun c hc => ?_⟩
      rcases List.mem_cons.1 hc with rfl | hc
      · rfl
      · exact h3 c hc
  | .error .inval :: _, _, _, h | .error .other :: _, _, _, h | .ok _ :: _, _, _, h => by
    cases h
    refine ⟨⟨[], _, rfl, (by intro e; cases e)⟩, fun c hc => ?_⟩
    rw [List.mem_singleton.1 hc]

private theorem closed_append (fd : Nat) : ∀ (t t' : Trace) (b : Bool),
    closedByExec fd b (t ++ t') = closedByExec fd (closedByExec fd b t) t' := by
  intro t
  induction t with
  | nil => intro t' b; simp [closedByExec]
  | cons c t ih =>
    intro t' b
    obtain ⟨c, a⟩ := c
    cases c <;> cases a <;> simp only [List.cons_append, closedByExec] <;> exact ih _ _

private theorem opened_append (t t' : Trace) : opened (t ++ t') = opened t + opened t' := by
  unfold opened; rw [List.filter_append, List.length_append]

private theorem opened_none {t : Trace} (h : ∀ c ∈ t, ∀ f m, c.1 ≠ .open f m) :
    opened t = 0 := by
  unfold opened
  rw [List.length_eq_zero_iff, List.filter_eq_nil_iff]
  rintro ⟨c, a⟩ hc
  have := h _ hc
  cases c with
  | «open» f m => exact absurd rfl (this f m)
  | getfd => simp
  | setfd => simp

/-- What holds of one round, and of the whole call. -/
private structure Good (flags mode : Nat) (t : Trace) (r : Ans) : Prop where
  calls : ∀ f m a, (Call.open f m, a) ∈ t →
    (f = flags ∨ f = flags ||| osCloexec) ∧
      m = if flags &&& osCreat ≠ 0 then some mode else none
  count : opened t = match r with | .ok _ => 1 | .error _ => 0
  result : ∀ fd, r = .ok fd → ∃ f m, (Call.open f m, r) ∈ t
  closed : ∀ fd, r = .ok fd → FcntlWorks t → ∀ b, closedByExec fd b t = true

private theorem cloexec_bit (f : Nat) : (f ||| osCloexec).testBit 19 = true := by
  rw [Nat.testBit_or]
  have : osCloexec.testBit 19 = true := by decide
  rw [this, Bool.or_true]

private theorem fdcloexec_bit (r : Nat) : (r ||| fdCloexec).testBit 0 = true := by
  rw [Nat.testBit_or]
  have : fdCloexec.testBit 0 = true := by decide
  rw [this, Bool.or_true]

private theorem openPlain_good {flags mode : Nat} : ∀ {as t r rest},
    openPlain flags mode as = some (t, r, rest) → Good flags mode t r
  | [], _, _, _, h => nomatch h
  | .error e :: _, t, r, _, h => by
    cases h
    refine ⟨fun f m a hm => ?_, rfl, (by intro fd e; cases e), (by intro fd e; cases e)⟩
    cases List.mem_singleton.1 hm
    exact ⟨Or.inl rfl, rfl⟩
  | .ok fd :: as, t, r, _, h => by
    dsimp only [openPlain] at h
    cases hg : getFdLoop fd as with
    | none => rw [hg] at h; cases h
    | some q =>
      obtain ⟨t1, a1, r1⟩ := q
      obtain ⟨g1, g2, g3⟩ := getFdLoop_spec hg
      rw [hg] at h
      cases a1 with
      | error e =>
        cases h
        refine ⟨fun f m a hm => ?_, ?_, fun fd' e' => ⟨_, _, List.mem_cons_self ..⟩,
          fun fd' e' hw b => ?_⟩
        · rcases List.mem_cons.1 hm with hm | hm
          · cases hm; exact ⟨Or.inl rfl, rfl⟩
          · cases g3 _ hm
        · rw [show ∀ c : Call × Ans, c :: t1 = [c] ++ t1 from fun _ => rfl, opened_append,
            opened_none (t := t1) (fun c hc f m e => by rw [g3 c hc] at e; cases e)]
          rfl
        · obtain ⟨f, m, hf⟩ := hw _ e (List.mem_cons_of_mem _ g2) (fun h => g1 (by rw [h]))
          cases hf
      | ok r0 =>
        dsimp only at h
        cases hs : setFdLoop fd (r0 ||| fdCloexec) r1 with
        | none => rw [hs] at h; cases h
        | some q =>
          obtain ⟨t2, r2⟩ := q
          obtain ⟨⟨t3, a3, s1, s2⟩, s3⟩ := setFdLoop_spec hs
          rw [hs] at h
          cases h
          refine ⟨fun f m a hm => ?_, ?_, fun fd' e' => ⟨_, _, List.mem_cons_self ..⟩,
            fun fd' e' hw b => ?_⟩
          · rcases List.mem_cons.1 hm with hm | hm
            · cases hm; exact ⟨Or.inl rfl, rfl⟩
            · rcases List.mem_append.1 hm with hm | hm
              · cases g3 _ hm
              · cases s3 _ hm
          · rw [show ∀ c : Call × Ans, c :: (t1 ++ t2) = [c] ++ (t1 ++ t2) from fun _ => rfl,
              opened_append, opened_append,
              opened_none (t := t1) (fun c hc f m e => by rw [g3 c hc] at e; cases e),
              opened_none (t := t2) (fun c hc f m e => by rw [s3 c hc] at e; cases e)]
            rfl
          · cases e'
            have hok : ∃ n, a3 = .ok n := by
              cases a3 with
              | ok n => exact ⟨n, rfl⟩
              | error e =>
                obtain ⟨f, m, hf⟩ := hw (.setfd fd (r0 ||| fdCloexec)) e (by
                  rw [s1]
                  exact List.mem_cons_of_mem _ (List.mem_append_right _
                    (List.mem_append_right _ (List.mem_singleton.2 rfl))))
                  (fun h => s2 (by rw [h]))
                cases hf
            obtain ⟨n, rfl⟩ := hok
            rw [s1, ← List.append_assoc, ← List.cons_append, closed_append]
            show closedByExec fd (if fd = fd then (r0 ||| fdCloexec).testBit 0 else _) [] = true
            rw [if_pos rfl, fdcloexec_bit]
            rfl

private theorem openOnce_good {flags mode : Nat} : ∀ {as t r rest},
    openOnce flags mode as = some (t, r, rest) → Good flags mode t r
  | [], _, _, _, h => nomatch h
  | .error .inval :: as, t, r, _, h => by
    dsimp only [openOnce] at h
    cases hp : openPlain flags mode as with
    | none => rw [hp] at h; cases h
    | some q =>
      obtain ⟨t1, a1, r1⟩ := q
      have g := openPlain_good hp
      rw [hp] at h
      cases h
      refine ⟨fun f m a hm => ?_, ?_, fun fd e => ?_, fun fd e hw b => ?_⟩
      · rcases List.mem_cons.1 hm with hm | hm
        · cases hm; exact ⟨Or.inr rfl, rfl⟩
        · exact g.calls f m a hm
      · rw [show ∀ c : Call × Ans, c :: t1 = [c] ++ t1 from fun _ => rfl, opened_append, g.count]
        exact Nat.zero_add _
      · obtain ⟨f, m, hm⟩ := g.result fd e
        exact ⟨f, m, List.mem_cons_of_mem _ hm⟩
      · exact g.closed fd e (fun c e hc => hw c e (List.mem_cons_of_mem _ hc)) b
  | .error .intr :: as, t, r, _, h | .error .other :: as, t, r, _, h => by
    cases h
    refine ⟨fun f m a hm => ?_, rfl, (by intro fd e; cases e), (by intro fd e; cases e)⟩
    cases List.mem_singleton.1 hm
    exact ⟨Or.inr rfl, rfl⟩
  | .ok fd :: as, t, r, _, h => by
    cases h
    refine ⟨fun f m a hm => ?_, rfl, fun fd' e => ⟨_, _, List.mem_singleton.2 rfl⟩,
      fun fd' e _ b => ?_⟩
    · cases List.mem_singleton.1 hm
      exact ⟨Or.inr rfl, rfl⟩
    · cases e
      show (if fd = fd then (flags ||| osCloexec).testBit 19 else b) = true
      rw [if_pos rfl, cloexec_bit]

private theorem openLoop_good {flags mode : Nat} : ∀ {fuel as t r rest},
    openLoop flags mode fuel as = some (t, r, rest) → Good flags mode t r ∧ r ≠ .error .intr
  | 0, _, _, _, _, h => nomatch h
  | fuel + 1, as, t, r, rest, h => by
    dsimp only [openLoop] at h
    cases ho : openOnce flags mode as with
    | none => rw [ho] at h; cases h
    | some q =>
      obtain ⟨t1, a1, r1⟩ := q
      have g := openOnce_good ho
      rw [ho] at h
      by_cases hi : a1 = .error .intr
      · subst hi
        dsimp only at h
        cases hl : openLoop flags mode fuel r1 with
        | none => rw [hl] at h; cases h
        | some q =>
          obtain ⟨t2, a2, r2⟩ := q
          obtain ⟨g2, hne⟩ := openLoop_good hl
          rw [hl] at h
          cases h
          refine ⟨⟨fun f m a hm => ?_, ?_, fun fd e => ?_, fun fd e hw b => ?_⟩, hne⟩
          · rcases List.mem_append.1 hm with hm | hm
            · exact g.calls f m a hm
            · exact g2.calls f m a hm
          · rw [opened_append, g.count, g2.count]
            exact Nat.zero_add _
          · obtain ⟨f, m, hm⟩ := g2.result fd e
            exact ⟨f, m, List.mem_append_right _ hm⟩
          · rw [closed_append]
            exact g2.closed fd e (fun c e hc => hw c e (List.mem_append_right _ hc)) _
      · have : some (t1, a1, r1) = some (t, r, rest) := by
          rw [← h]
          split
          · rename_i heq; cases heq
          · rename_i heq; cases heq; exact absurd rfl hi
          · rename_i heq; exact heq.symm ▸ rfl
        cases this
        exact ⟨g, hi⟩

/-- What the kernel is asked for at each place: nothing but this, whatever the kernel
answers and however often it is asked. Only the key file and the lock file are ever
emptied, data files are written at their end only, and recovery and readers never create
a file. -/
theorem C96_open (s : Site) (as : List Ans) (t : Trace) (r : Ans) (rest : List Ans)
    (h : openAt s as = some (t, r, rest)) (f : Nat) (m : Option Nat) (a : Ans)
    (hc : (Call.open f m, a) ∈ t) :
    access f = s.touches
      ∧ m = (if (access f).create then some 0o640 else none) := by
  obtain ⟨hf, hm⟩ := (openLoop_good h).1.calls f m a hc
  subst hm
  clear h
  rcases hf with rfl | rfl <;> clear hc <;> cases s <;> decide

/-- What is created can be read and written by its owner and read by its group, as far as
the umask allows, and is closed to everybody else; the directory can be searched too. -/
theorem C96_private (s : Site) (as : List Ans) (t : Trace) (r : Ans) (rest : List Ans)
    (h : openAt s as = some (t, r, rest)) (f mode : Nat) (a : Ans)
    (hc : (Call.open f (some mode), a) ∈ t) (umask bit : Nat) :
    (Permits umask mode bit ↔
      ¬ umask.testBit bit ∧ (bit = ownerRead ∨ bit = ownerWrite ∨ bit = groupRead)) ∧
    (Permits umask mkdirMode bit ↔
      ¬ umask.testBit bit ∧ (bit = ownerRead ∨ bit = ownerWrite ∨ bit = ownerExec ∨
        bit = groupRead ∨ bit = groupExec)) := by
  have hmode : mode = 0o640 := by
    have := (C96_open s as t r rest h f _ a hc).2
    split at this
    · cases this; rfl
    · cases this
  subst hmode
  have hdir : mkdirMode = 0o750 := (C96_permissions_only 0o750 (by decide)).1
  rw [hdir]
  have h1 : Nat.testBit 0o640 bit = decide (bit = 8 ∨ bit = 7 ∨ bit = 5) := by
    by_cases hb : bit < 12
    · interval_cases bit <;> rfl
    · rw [Nat.testBit_lt_two_pow (Nat.lt_of_lt_of_le (show 0o640 < 2 ^ 12 by decide)
        (Nat.pow_le_pow_right (by omega) (by omega)))]
      symm; rw [decide_eq_false_iff_not]; omega
  have h2 : Nat.testBit 0o750 bit =
      decide (bit = 8 ∨ bit = 7 ∨ bit = 6 ∨ bit = 5 ∨ bit = 3) := by
    by_cases hb : bit < 12
    · interval_cases bit <;> rfl
    · rw [Nat.testBit_lt_two_pow (Nat.lt_of_lt_of_le (show 0o750 < 2 ^ 12 by decide)
        (Nat.pow_le_pow_right (by omega) (by omega)))]
      symm; rw [decide_eq_false_iff_not]; omega
  unfold Permits ownerRead ownerWrite ownerExec groupRead groupExec
  rw [h1, h2]
  simp only [decide_eq_true_eq]
  exact ⟨and_comm, and_comm⟩

/-- A call that returns a descriptor has opened one file, one that fails has opened none:
nothing is left open; and being interrupted is never reported. -/
theorem C96_one (s : Site) (as : List Ans) (t : Trace) (r : Ans) (rest : List Ans)
    (h : openAt s as = some (t, r, rest)) :
    match r with
    | .ok fd => opened t = 1 ∧ ∃ f m, (Call.open f m, Except.ok fd) ∈ t
    | .error e => opened t = 0 ∧ e ≠ .intr := by
  obtain ⟨g, hne⟩ := openLoop_good h
  cases r with
  | ok fd => exact ⟨g.count, g.result fd rfl⟩
  | error e => exact ⟨g.count, fun he => hne (by rw [he])⟩

/-- A program started by exec does not inherit the descriptor, on kernels that know
`O_CLOEXEC` and on those that do not, unless `fcntl` fails. -/
theorem C96_cloexec (s : Site) (as : List Ans) (t : Trace) (fd : Nat) (rest : List Ans)
    (h : openAt s as = some (t, .ok fd, rest)) (hw : FcntlWorks t) (before : Bool) :
    closedByExec fd before t = true :=
  (openLoop_good h).1.closed fd rfl hw before

/-- An old kernel: the first attempt is interrupted, the second does not know
`O_CLOEXEC`, reading the flags is interrupted once. -/
theorem C96_example :
    openAt .dataWrite [.error .intr, .error .inval, .ok 5, .error .intr, .ok 0, .ok 0] =
      some ([ (.open 0o2002102 (some 0o640), .error .intr)
            , (.open 0o2002102 (some 0o640), .error .inval)
            , (.open 0o2102 (some 0o640), .ok 5)
            , (.getfd 5, .error .intr), (.getfd 5, .ok 0), (.setfd 5 1, .ok 0) ], .ok 5, []) ∧
    (∀ t, openAt .dataWrite
        [.error .intr, .error .inval, .ok 5, .error .intr, .ok 0, .ok 0] = some (t, .ok 5, []) →
      FcntlWorks t) := by
  constructor
  · decide +kernel
  · intro t ht
    have : openAt .dataWrite [.error .intr, .error .inval, .ok 5, .error .intr, .ok 0, .ok 0] =
      some ([ (.open 0o2002102 (some 0o640), .error .intr)
            , (.open 0o2002102 (some 0o640), .error .inval)
            , (.open 0o2102 (some 0o640), .ok 5)
            , (.getfd 5, .error .intr), (.getfd 5, .ok 0), (.setfd 5 1, .ok 0) ], .ok 5, []) := by
      decide +kernel
    rw [this] at ht
    cases ht
    intro c e hc hne
    rcases List.mem_cons.1 hc with h | hc
    · cases h; exact ⟨_, _, rfl⟩
    rcases List.mem_cons.1 hc with h | hc
    · cases h; exact ⟨_, _, rfl⟩
    rcases List.mem_cons.1 hc with h | hc
    · cases h
    rcases List.mem_cons.1 hc with h | hc
    · cases h; exact absurd rfl hne
    rcases List.mem_cons.1 hc with h | hc
    · cases h
    rcases List.mem_cons.1 hc with h | hc
    · cases h
    · cases hc

end Urkel
