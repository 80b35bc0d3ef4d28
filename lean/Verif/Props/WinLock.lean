import Verif.Spec.WinLock
/-
C82: the reader-writer lock of Windows builds.
-/
namespace Urkel

/-- The sum of `f` over the threads. -/
def tsum (f : RwThread → Nat) : List RwThread → Nat
  | [] => 0
  | a :: l => f a + tsum f l

theorem tsum_set (f : RwThread → Nat) : ∀ {l : List RwThread} {t : Nat} {a : RwThread} (b : RwThread), l[t]? = some a →
    tsum f (l.set t b) + f a = tsum f l + f b
  | [], _, _, _, h => by simp at h
  | x :: l, 0, a, b, h => by
    simp only [List.getElem?_cons_zero, Option.some.injEq] at h; subst h
    simp only [List.set_cons_zero, tsum]; omega
  | x :: l, t + 1, a, b, h => by
    simp only [List.getElem?_cons_succ] at h
    have := tsum_set f b h
    simp only [List.set_cons_succ, tsum]; omega

theorem tsum_ge (f : RwThread → Nat) : ∀ {l : List RwThread} {t : Nat} {a : RwThread}, l[t]? = some a → f a ≤ tsum f l
  | [], _, _, h => by simp at h
  | x :: l, 0, a, h => by
    simp only [List.getElem?_cons_zero, Option.some.injEq] at h; subst h
    simp only [tsum]; omega
  | x :: l, t + 1, a, h => by
    simp only [List.getElem?_cons_succ] at h
    have := tsum_ge f h
    simp only [tsum]; omega

theorem tsum_ge_two (f : RwThread → Nat) : ∀ {l : List RwThread} {t u : Nat} {a b : RwThread}, t ≠ u → l[t]? = some a → l[u]? = some b →
    f a + f b ≤ tsum f l
  | [], _, _, _, _, _, h, _ => by simp at h
  | x :: l, 0, 0, _, _, h, _, _ => absurd rfl h
  | x :: l, 0, u + 1, a, b, _, h, h' => by
    simp only [List.getElem?_cons_zero, Option.some.injEq] at h; subst h
    simp only [List.getElem?_cons_succ] at h'
    have := tsum_ge f h'
    simp only [tsum]; omega
  | x :: l, t + 1, 0, a, b, _, h, h' => by
    simp only [List.getElem?_cons_zero, Option.some.injEq] at h'; subst h'
    simp only [List.getElem?_cons_succ] at h
    have := tsum_ge f h
    simp only [tsum]; omega
  | x :: l, t + 1, u + 1, a, b, hn, h, h' => by
    simp only [List.getElem?_cons_succ] at h h'
    have := tsum_ge_two f (fun e => hn (by rw [e])) h h'
    simp only [tsum]; omega

theorem tsum_pos (f : RwThread → Nat) : ∀ {l : List RwThread}, 0 < tsum f l → ∃ (t : Nat) (a : RwThread), l[t]? = some a ∧ 0 < f a
  | [], h => by simp [tsum] at h
  | x :: l, h => by
    by_cases hx : 0 < f x
    · exact ⟨0, x, rfl, hx⟩
    · obtain ⟨t, a, e, ha⟩ := tsum_pos f (l := l) (by simp only [tsum] at h; omega)
      exact ⟨t + 1, a, by simpa using e, ha⟩

theorem tsum_replicate (f : RwThread → Nat) (a : RwThread) (h : f a = 0) : ∀ n, tsum f (List.replicate n a) = 0
  | 0 => rfl
  | n + 1 => by rw [List.replicate_succ, tsum, h, tsum_replicate f a h n]

/-- In the critical section. -/
def inCsPc (th : RwThread) : Nat := match th.pc with | .rdInc | .rdWait | .rdLeave | .unDec | .unPost | .unLeave => 1 | _ => 0
/-- Counted in `readers`. -/
def counted (th : RwThread) : Nat := th.holds + match th.pc with | .rdWait | .rdLeave => 1 | _ => 0
/-- Waiting for the semaphore as the first reader. -/
def waitsRd (th : RwThread) : Nat := match th.pc with | .rdWait => 1 | _ => 0
/-- Has taken the semaphore and will release it. -/
def ownsSem (th : RwThread) : Nat := match th.pc with | .writing | .wrPost | .unPost => 1 | _ => 0
/-- Releasing the semaphore as the last reader. -/
def posts (th : RwThread) : Nat := match th.pc with | .unPost => 1 | _ => 0
/-- Leaves the readers. -/
def leaves (th : RwThread) : Prop := th.pc = .unEnter ∨ th.pc = .unDec

structure RwInv (s : RwState) : Prop where
  cs : tsum inCsPc s.ths = if s.inCs then 1 else 0
  readers : s.readers = tsum counted s.ths
  wait : 0 < tsum waitsRd s.ths → s.readers = 1
  post : 0 < tsum posts s.ths → s.readers = 0
  sem : (if s.sem then 0 else 1) = tsum ownsSem s.ths + if 0 < s.readers ∧ tsum waitsRd s.ths = 0 then 1 else 0
  has : ∀ (t : Nat) (th : RwThread), s.ths[t]? = some th → leaves th → 0 < th.holds

theorem RwInv.init (n : Nat) : RwInv (.init n) := by
  have h0 : ∀ f : RwThread → Nat, f ⟨.idle, 0⟩ = 0 → tsum f (RwState.init n).ths = 0 := fun f h => tsum_replicate f _ h n
  refine ⟨?_, ?_, ?_, ?_, ?_, ?_⟩
  · rw [h0 _ rfl]; rfl
  · rw [h0 _ rfl]; rfl
  · rw [h0 _ rfl]; intro h; exact absurd h (Nat.lt_irrefl _)
  · rw [h0 _ rfl]; intro h; exact absurd h (Nat.lt_irrefl _)
  · rw [h0 _ rfl, h0 _ rfl]; rfl
  · intro t th h hl
    have : th = ⟨.idle, 0⟩ := List.eq_of_mem_replicate (List.mem_of_getElem? h)
    subst this
    rcases hl with h | h <;> cases h

theorem has_set {l : List RwThread} {t : Nat} {b : RwThread} (h : ∀ (t : Nat) (th : RwThread), l[t]? = some th → leaves th → 0 < th.holds)
    (hb : leaves b → 0 < b.holds)     : ∀ (u : Nat) (th : RwThread), (l.set t b)[u]? = some th → leaves th → 0 < th.holds := by
  intro u th hu
  by_cases e : t = u
  · subst e
    rw [List.getElem?_set] at hu
    simp only [if_true] at hu
    split at hu
    · cases hu; exact hb
    · cases hu
  · rw [List.getElem?_set_ne e] at hu
    exact h u th hu

theorem tsum_cs (l : List RwThread) : tsum waitsRd l + tsum posts l ≤ tsum inCsPc l := by
  induction l with
  | nil => simp [tsum]
  | cons a l ih =>
    have : waitsRd a + posts a ≤ inCsPc a := by obtain ⟨pc, n⟩ := a; cases pc <;> simp [waitsRd, posts, inCsPc]
    simp only [tsum]; omega

theorem tsum_cs_but : ∀ {l : List RwThread} {t : Nat} {a : RwThread}, l[t]? = some a →
    tsum waitsRd l + tsum posts l + inCsPc a ≤ tsum inCsPc l + waitsRd a + posts a
  | [], _, _, h => by simp at h
  | x :: l, 0, a, h => by
    simp only [List.getElem?_cons_zero, Option.some.injEq] at h; subst h
    have := tsum_cs l
    simp only [tsum]; omega
  | x :: l, t + 1, a, h => by
    simp only [List.getElem?_cons_succ] at h
    have h1 := tsum_cs_but h
    have : waitsRd x + posts x ≤ inCsPc x := by obtain ⟨pc, n⟩ := x; cases pc <;> simp [waitsRd, posts, inCsPc]
    simp only [tsum]; omega

/-- A step keeps the invariant and does not abort. -/
theorem RwInv.step {s : RwState} (h : RwInv s) (t : Nat) (c : RwCall) : rwStep s t c ≠ .abort ∧ ∀ s', rwStep s t c = .go s' → RwInv s' := by
  unfold rwStep
  cases ht : s.ths[t]? with
  | none => exact ⟨(nomatch ·), (fun _ e => nomatch e)⟩
  | some th =>
    obtain ⟨pc, holds⟩ := th
    have hcs := h.cs
    have hrd := h.readers
    have hw := h.wait
    have hp := h.post
    have hs := h.sem
    have hh := h.has
    have hme := hh t _ ht
    -- the thread's own share
    have g1 := tsum_ge inCsPc ht
    have g2 := tsum_ge counted ht
    have g3 := tsum_ge waitsRd ht
    have g4 := tsum_ge ownsSem ht
    have g5 := tsum_ge posts ht
    have hle := tsum_cs_but ht
    have key : ∀ (b : RwThread) (r' : Nat) (cs' sem' : Bool),
        tsum inCsPc s.ths + inCsPc b = (if cs' then 1 else 0) + inCsPc ⟨pc, holds⟩ →
        r' + counted ⟨pc, holds⟩ = tsum counted s.ths + counted b →
        (0 < tsum waitsRd s.ths + waitsRd b - waitsRd ⟨pc, holds⟩ → r' = 1) →
        (0 < tsum posts s.ths + posts b - posts ⟨pc, holds⟩ → r' = 0) →
        ((if sem' then 0 else 1) + ownsSem ⟨pc, holds⟩ = tsum ownsSem s.ths + ownsSem b +
          if 0 < r' ∧ tsum waitsRd s.ths + waitsRd b - waitsRd ⟨pc, holds⟩ = 0 then 1 else 0) →
        (leaves b → 0 < b.holds) → RwInv ⟨r', cs', sem', s.ths.set t b⟩ := by
      intro b r' cs' sem' k1 k2 k3 k4 k5 k6
      have e1 := tsum_set inCsPc b ht
      have e2 := tsum_set counted b ht
      have e3 := tsum_set waitsRd b ht
      have e4 := tsum_set ownsSem b ht
      have e5 := tsum_set posts b ht
      have w : tsum waitsRd (s.ths.set t b) = tsum waitsRd s.ths + waitsRd b - waitsRd ⟨pc, holds⟩ := by omega
      have p : tsum posts (s.ths.set t b) = tsum posts s.ths + posts b - posts ⟨pc, holds⟩ := by omega
      refine ⟨?_, ?_, ?_, ?_, ?_, has_set hh k6⟩
      · show tsum inCsPc (s.ths.set t b) = if cs' then 1 else 0; omega
      · show r' = tsum counted (s.ths.set t b); omega
      · show 0 < tsum waitsRd (s.ths.set t b) → _; rw [w]; exact k3
      · show 0 < tsum posts (s.ths.set t b) → _; rw [p]; exact k4
      · show (if sem' then 0 else 1) = tsum ownsSem (s.ths.set t b) + if 0 < r' ∧ tsum waitsRd (s.ths.set t b) = 0 then 1 else 0
        rw [w]; omega
    dsimp only
    have fin : ∀ (b : RwThread) (r' : Nat) (cs' sem' : Bool), RwInv ⟨r', cs', sem', s.ths.set t b⟩ → ∀ s', RwRes.go ⟨r', cs', sem', s.ths.set t b⟩ = .go s' → RwInv s' := by
      intro b r' cs' sem' hi s' e; cases e; exact hi
    generalize tsum inCsPc s.ths = A at *
    generalize tsum counted s.ths = C at *
    generalize tsum waitsRd s.ths = W at *
    generalize tsum ownsSem s.ths = O at *
    generalize tsum posts s.ths = P at *
    clear hh
    cases pc <;> dsimp only
    case idle =>
      cases c <;> dsimp only
      · clear h; refine ⟨(nomatch ·), fin ⟨.rdEnter, holds⟩ _ _ _ (key _ _ _ _ ?_ ?_ ?_ ?_ ?_ ?_)⟩ <;> clear key fin <;> simp only [RwState.goto, inCsPc, counted, waitsRd, ownsSem, posts, leaves] at * <;> grind
      · split
        · exact ⟨(nomatch ·), fun s' e => by cases e; exact h⟩
        · clear h; refine ⟨(nomatch ·), fin ⟨.unEnter, holds⟩ _ _ _ (key _ _ _ _ ?_ ?_ ?_ ?_ ?_ ?_)⟩ <;> clear key fin <;> simp only [RwState.goto, inCsPc, counted, waitsRd, ownsSem, posts, leaves] at * <;> grind
      · clear h; refine ⟨(nomatch ·), fin ⟨.wrWait, holds⟩ _ _ _ (key _ _ _ _ ?_ ?_ ?_ ?_ ?_ ?_)⟩ <;> clear key fin <;> simp only [RwState.goto, inCsPc, counted, waitsRd, ownsSem, posts, leaves] at * <;> grind
    all_goals clear h
    case rdEnter =>
      split
      · exact ⟨(nomatch ·), (fun _ e => nomatch e)⟩
      · refine ⟨(nomatch ·), fin ⟨.rdInc, holds⟩ _ _ _ (key _ _ _ _ ?_ ?_ ?_ ?_ ?_ ?_)⟩ <;> clear key fin <;> simp only [RwState.goto, inCsPc, counted, waitsRd, ownsSem, posts, leaves] at * <;> grind
    case rdInc =>
      split
      · refine ⟨(nomatch ·), fin ⟨.rdWait, holds⟩ _ _ _ (key _ _ _ _ ?_ ?_ ?_ ?_ ?_ ?_)⟩ <;> clear key fin <;> simp only [RwState.goto, inCsPc, counted, waitsRd, ownsSem, posts, leaves] at * <;> grind
      · refine ⟨(nomatch ·), fin ⟨.rdLeave, holds⟩ _ _ _ (key _ _ _ _ ?_ ?_ ?_ ?_ ?_ ?_)⟩ <;> clear key fin <;> simp only [RwState.goto, inCsPc, counted, waitsRd, ownsSem, posts, leaves] at * <;> grind
    case rdWait =>
      split
      · refine ⟨(nomatch ·), fin ⟨.rdLeave, holds⟩ _ _ _ (key _ _ _ _ ?_ ?_ ?_ ?_ ?_ ?_)⟩ <;> clear key fin <;> simp only [RwState.goto, inCsPc, counted, waitsRd, ownsSem, posts, leaves] at * <;> grind
      · exact ⟨(nomatch ·), (fun _ e => nomatch e)⟩
    case rdLeave => refine ⟨(nomatch ·), fin ⟨.idle, holds + 1⟩ _ _ _ (key _ _ _ _ ?_ ?_ ?_ ?_ ?_ ?_)⟩ <;> clear key fin <;> simp only [RwState.goto, inCsPc, counted, waitsRd, ownsSem, posts, leaves] at * <;> grind
    case unEnter =>
      split
      · exact ⟨(nomatch ·), (fun _ e => nomatch e)⟩
      · refine ⟨(nomatch ·), fin ⟨.unDec, holds⟩ _ _ _ (key _ _ _ _ ?_ ?_ ?_ ?_ ?_ ?_)⟩ <;> clear key fin <;> simp only [RwState.goto, inCsPc, counted, waitsRd, ownsSem, posts, leaves] at * <;> grind
    case unDec =>
      split
      · refine ⟨(nomatch ·), fin ⟨.unPost, holds - 1⟩ _ _ _ (key _ _ _ _ ?_ ?_ ?_ ?_ ?_ ?_)⟩ <;> clear key fin <;> simp only [RwState.goto, inCsPc, counted, waitsRd, ownsSem, posts, leaves] at * <;> grind
      · refine ⟨(nomatch ·), fin ⟨.unLeave, holds - 1⟩ _ _ _ (key _ _ _ _ ?_ ?_ ?_ ?_ ?_ ?_)⟩ <;> clear key fin <;> simp only [RwState.goto, inCsPc, counted, waitsRd, ownsSem, posts, leaves] at * <;> grind
    case unPost =>
      split
      · exfalso; clear key fin; simp only [RwState.goto, inCsPc, counted, waitsRd, ownsSem, posts, leaves] at *; grind
      · refine ⟨(nomatch ·), fin ⟨.unLeave, holds⟩ _ _ _ (key _ _ _ _ ?_ ?_ ?_ ?_ ?_ ?_)⟩ <;> clear key fin <;> simp only [RwState.goto, inCsPc, counted, waitsRd, ownsSem, posts, leaves] at * <;> grind
    case unLeave => refine ⟨(nomatch ·), fin ⟨.idle, holds⟩ _ _ _ (key _ _ _ _ ?_ ?_ ?_ ?_ ?_ ?_)⟩ <;> clear key fin <;> simp only [RwState.goto, inCsPc, counted, waitsRd, ownsSem, posts, leaves] at * <;> grind
    case wrWait =>
      split
      · refine ⟨(nomatch ·), fin ⟨.writing, holds⟩ _ _ _ (key _ _ _ _ ?_ ?_ ?_ ?_ ?_ ?_)⟩ <;> clear key fin <;> simp only [RwState.goto, inCsPc, counted, waitsRd, ownsSem, posts, leaves] at * <;> grind
      · exact ⟨(nomatch ·), (fun _ e => nomatch e)⟩
    case writing => refine ⟨(nomatch ·), fin ⟨.wrPost, holds⟩ _ _ _ (key _ _ _ _ ?_ ?_ ?_ ?_ ?_ ?_)⟩ <;> clear key fin <;> simp only [RwState.goto, inCsPc, counted, waitsRd, ownsSem, posts, leaves] at * <;> grind
    case wrPost =>
      split
      · exfalso; clear key fin; simp only [RwState.goto, inCsPc, counted, waitsRd, ownsSem, posts, leaves] at *; grind
      · refine ⟨(nomatch ·), fin ⟨.idle, holds⟩ _ _ _ (key _ _ _ _ ?_ ?_ ?_ ?_ ?_ ?_)⟩ <;> clear key fin <;> simp only [RwState.goto, inCsPc, counted, waitsRd, ownsSem, posts, leaves] at * <;> grind

theorem RwInv.run {s s' : RwState} (h : RwInv s) {sched : List (Nat × RwCall)} (e : rwRun s sched = some s') : RwInv s' := by
  induction sched generalizing s with
  | nil => cases e; exact h
  | cons x sched ih =>
    obtain ⟨t, c⟩ := x
    simp only [rwRun] at e
    obtain ⟨-, h2⟩ := h.step t c
    cases es : rwStep s t c with
    | wait => rw [es] at e; exact ih h e
    | abort => rw [es] at e; cases e
    | go s1 => rw [es] at e; exact ih (h2 s1 es) e

theorem RwState.Reached.inv {s : RwState} (h : s.Reached) : RwInv s := by
  obtain ⟨n, sched, e⟩ := h
  exact (RwInv.init n).run e

theorem holds_le_counted (th : RwThread) : th.holds ≤ counted th := Nat.le_add_right ..

theorem counted_wait {th : RwThread} (h : th.pc = .rdWait) : counted th = th.holds + 1 := by unfold counted; rw [h]

/-- C82: however many threads use the lock, in whatever order they take their steps, and however often each has it for reading: while a thread has it
for writing, no other thread has it for writing, and no thread (not even the same) has it for reading. -/
theorem C82_exclusion {s : RwState} (h : s.Reached) {t u : Nat} (ht : s.Writes t) : (s.Writes u → t = u) ∧ ¬ s.Reads u := by
  have hi := h.inv
  have hs := hi.sem
  obtain ⟨th, e, hp⟩ := ht
  have ho : ownsSem th = 1 := by unfold ownsSem; rcases hp with hp | hp <;> rw [hp]
  constructor
  · rintro ⟨uh, eu, hpu⟩
    have hou : ownsSem uh = 1 := by unfold ownsSem; rcases hpu with hp | hp <;> rw [hp]
    by_cases hne : t = u
    · exact hne
    · have := tsum_ge_two ownsSem hne e eu
      split at hs <;> omega
  · rintro ⟨uh, eu, hr⟩
    have h1 := tsum_ge ownsSem e
    have h2 : 0 < s.readers := by
      rw [hi.readers]
      have := tsum_ge counted eu
      have := holds_le_counted uh
      omega
    by_cases hw : tsum waitsRd s.ths = 0
    · rw [if_pos (c := 0 < s.readers ∧ tsum waitsRd s.ths = 0) ⟨h2, hw⟩] at hs
      split at hs <;> omega
    · -- the reader that waits is the only one counted
      have h3 := hi.wait (by omega)
      obtain ⟨v, vh, ev, hv⟩ := tsum_pos waitsRd (l := s.ths) (by omega)
      have hvc : vh.pc = .rdWait := by
        unfold waitsRd at hv
        split at hv
        · assumption
        · omega
      have h4 := hi.readers
      by_cases huv : u = v
      · subst huv
        rw [eu] at ev; cases ev
        have := tsum_ge counted eu
        rw [counted_wait hvc] at this
        omega
      · have := tsum_ge_two counted huv eu ev
        rw [counted_wait hvc] at this
        have := holds_le_counted uh
        omega

/-- C82: the library never aborts in these functions: a semaphore that is 1 is never released. -/
theorem C82_no_abort {s : RwState} (h : s.Reached) (t : Nat) (c : RwCall) : rwStep s t c ≠ .abort := (h.inv.step t c).1

/-- Why a thread waits. -/
theorem stuck_why {s : RwState} (hi : RwInv s) {t : Nat} {th : RwThread} (e : s.ths[t]? = some th) (hst : s.Stuck t) :
    ((th.pc = .rdEnter ∨ th.pc = .unEnter) ∧ s.inCs = true) ∨ ((th.pc = .rdWait ∨ th.pc = .wrWait) ∧ s.sem = false) := by
  have h0 := hst .rdlock
  have ha := (hi.step t .rdlock).1
  unfold rwStep at h0 ha
  rw [e] at h0 ha
  obtain ⟨pc, holds⟩ := th
  dsimp only at h0 ha
  cases pc <;> dsimp only at h0 ha
  case rdEnter => split at h0; rename_i hc; exact .inl ⟨.inl rfl, hc⟩; cases h0
  case unEnter => split at h0; rename_i hc; exact .inl ⟨.inr rfl, hc⟩; cases h0
  case rdWait => split at h0; cases h0; rename_i hc; exact .inr ⟨.inl rfl, by simpa using hc⟩
  case wrWait => split at h0; cases h0; rename_i hc; exact .inr ⟨.inr rfl, by simpa using hc⟩
  case rdInc => split at h0 <;> cases h0
  case unDec => split at h0 <;> cases h0
  case unPost => split at ha; exact absurd rfl ha; rename_i hc; rw [if_neg hc] at h0; cases h0
  case wrPost => split at ha; exact absurd rfl ha; rename_i hc; rw [if_neg hc] at h0; cases h0
  all_goals cases h0

theorem inCs_someone {s : RwState} (hi : RwInv s) (h : s.inCs = true) : ∃ (t : Nat) (th : RwThread), s.ths[t]? = some th ∧ inCsPc th = 1 := by
  have := hi.cs
  rw [if_pos h] at this
  obtain ⟨t, th, e, hp⟩ := tsum_pos inCsPc (l := s.ths) (by omega)
  refine ⟨t, th, e, ?_⟩
  unfold inCsPc at hp ⊢
  split <;> simp_all

theorem sem_taken {s : RwState} (hi : RwInv s) (h : s.sem = false) :
    (∃ (t : Nat) (th : RwThread), s.ths[t]? = some th ∧ ownsSem th = 1) ∨ (0 < s.readers ∧ tsum waitsRd s.ths = 0) := by
  have hs := hi.sem
  rw [h, if_neg (by decide)] at hs
  by_cases hg : 0 < s.readers ∧ tsum waitsRd s.ths = 0
  · exact .inr hg
  · rw [if_neg hg] at hs
    obtain ⟨t, th, e, hp⟩ := tsum_pos ownsSem (l := s.ths) (by omega)
    refine .inl ⟨t, th, e, ?_⟩
    unfold ownsSem at hp ⊢
    split <;> simp_all

/-- C82: the lock itself never blocks for good. Whenever calls are under way, either one of them can go on, or they all wait for a thread that has the lock and
is in none of the functions: a thread that has it for writing; or, if they all want to write, threads that have it for reading (a thread
that has it for reading and asks for writing waits for itself). -/
theorem C82_progress {s : RwState} (h : s.Reached) (hstuck : ∀ t, s.Busy t → s.Stuck t) {t : Nat} (hb : s.Busy t) :
    (∃ (u : Nat) (th : RwThread), s.ths[u]? = some th ∧ th.pc = .writing) ∨ ((∀ u, s.Busy u → s.WantsWrite u) ∧ ∃ u, s.Reads u) := by
  have hi := h.inv
  by_cases hwr : ∃ (u : Nat) (th : RwThread), s.ths[u]? = some th ∧ th.pc = .writing
  · exact .inl hwr
  · right
    -- the semaphore is not held by a busy or writing thread
    have hno : ∀ (u : Nat) (th : RwThread), s.ths[u]? = some th → ownsSem th ≠ 1 := by
      intro u th e ho
      unfold ownsSem at ho
      split at ho
      · exact hwr ⟨u, th, e, by assumption⟩
      · rename_i hp
        rcases stuck_why hi e (hstuck u ⟨th, e, by rw [hp]; decide, by rw [hp]; decide⟩) with ⟨h1 | h1, -⟩ | ⟨h1 | h1, -⟩ <;> rw [hp] at h1 <;> cases h1
      · rename_i hp
        rcases stuck_why hi e (hstuck u ⟨th, e, by rw [hp]; decide, by rw [hp]; decide⟩) with ⟨h1 | h1, -⟩ | ⟨h1 | h1, -⟩ <;> rw [hp] at h1 <;> cases h1
      · omega
    -- nobody waits for the semaphore as a reader
    have hnord : tsum waitsRd s.ths = 0 := by
      apply Decidable.byContradiction
      intro hne
      obtain ⟨v, vh, ev, hv⟩ := tsum_pos waitsRd (l := s.ths) (by omega)
      have hvc : vh.pc = .rdWait := by
        unfold waitsRd at hv
        split at hv
        · assumption
        · omega
      rcases stuck_why hi ev (hstuck v ⟨vh, ev, by rw [hvc]; decide, by rw [hvc]; decide⟩) with ⟨h1 | h1, -⟩ | ⟨-, h1⟩
      · rw [hvc] at h1; cases h1
      · rw [hvc] at h1; cases h1
      · rcases sem_taken hi h1 with ⟨u, th, e, ho⟩ | ⟨-, h2⟩
        · exact hno u th e ho
        · exact hne h2
    -- the critical section is free
    have hcs : s.inCs = false := by
      apply Decidable.byContradiction
      intro hc
      obtain ⟨u, th, e, hc⟩ := inCs_someone hi (by simpa using hc)
      have hbu : s.Busy u := by
        refine ⟨th, e, ?_, ?_⟩ <;> (intro hp; unfold inCsPc at hc; rw [hp] at hc; cases hc)
      rcases stuck_why hi e (hstuck u hbu) with ⟨h1 | h1, -⟩ | ⟨h1 | h1, -⟩
      · unfold inCsPc at hc; rw [h1] at hc; cases hc
      · unfold inCsPc at hc; rw [h1] at hc; cases hc
      · have := tsum_ge waitsRd e
        rw [hnord] at this
        unfold waitsRd at this
        rw [h1] at this
        exact absurd this (by decide)
      · unfold inCsPc at hc; rw [h1] at hc; cases hc
    have hall : ∀ u, s.Busy u → s.WantsWrite u ∧ s.sem = false := by
      rintro u ⟨th, e, hp1, hp2⟩
      rcases stuck_why hi e (hstuck u ⟨th, e, hp1, hp2⟩) with ⟨-, h1⟩ | ⟨h1 | h1, h2⟩
      · rw [hcs] at h1; cases h1
      · have := tsum_ge waitsRd e
        rw [hnord] at this
        unfold waitsRd at this
        rw [h1] at this
        exact absurd this (by decide)
      · exact ⟨⟨th, e, h1⟩, h2⟩
    refine ⟨fun u hu => (hall u hu).1, ?_⟩
    rcases sem_taken hi (hall t hb).2 with ⟨u, th, e, ho⟩ | ⟨h2, -⟩
    · exact absurd ho (hno u th e)
    · rw [hi.readers] at h2
      obtain ⟨u, th, e, hc⟩ := tsum_pos counted h2
      refine ⟨u, th, e, ?_⟩
      unfold counted at hc
      split at hc
      · rename_i hp
        exfalso
        have := tsum_ge waitsRd e
        rw [hnord] at this
        unfold waitsRd at this
        rw [hp] at this
        exact absurd this (by decide)
      · rename_i hp
        exfalso
        obtain ⟨⟨th', e', hw⟩, -⟩ := hall u ⟨th, e, by rw [hp]; decide, by rw [hp]; decide⟩
        rw [e] at e'; cases e'
        rw [hp] at hw; cases hw
      · exact hc

theorem rwRun_append (s : RwState) (a b : List (Nat × RwCall)) : rwRun s (a ++ b) = (rwRun s a).bind fun s => rwRun s b := by
  induction a generalizing s with
  | nil => rfl
  | cons x a ih =>
    obtain ⟨t, c⟩ := x
    simp only [List.cons_append, rwRun]
    cases rwStep s t c with
    | wait => exact ih s
    | abort => rfl
    | go s1 => exact ih s1

/-- `l` repeated `k` times. -/
def again (l : List (Nat × RwCall)) : Nat → List (Nat × RwCall)
  | 0 => []
  | k + 1 => l ++ again l k

/-- The lock is not fair: two threads that read in turns, each taking the lock before the other has given it back, keep a third from ever writing, although it
gets its turn every time; each round is 17 steps, in which both readers take and release the lock. -/
theorem C82_starvation : ∃ (s : RwState) (loop : List (Nat × RwCall)), s.Reached ∧ s.WantsWrite 2 ∧ (2, .wrlock) ∈ loop ∧
    ∀ k, rwRun s (again loop k) = some s := by
  let s : RwState := ⟨1, false, false, [⟨.idle, 1⟩, ⟨.idle, 0⟩, ⟨.wrWait, 0⟩]⟩
  let get (t : Nat) : List (Nat × RwCall) := [(t, .rdlock), (t, .rdlock), (t, .rdlock), (t, .rdlock)]
  let put (t : Nat) : List (Nat × RwCall) := [(t, .rdunlock), (t, .rdunlock), (t, .rdunlock), (t, .rdunlock)]
  let loop := get 1 ++ put 0 ++ [(2, .wrlock)] ++ get 0 ++ put 1
  refine ⟨s, loop, ⟨3, get 0 ++ [(0, .rdlock)] ++ [(2, .wrlock), (2, .wrlock)], ?_⟩, ?_, ?_, ?_⟩
  · decide +kernel
  · exact ⟨_, rfl, rfl⟩
  · decide
  · have h : rwRun s loop = some s := by decide +kernel
    intro k
    induction k with
    | zero => rfl
    | succ k ih => rw [again, rwRun_append, h]; exact ih

/-- The hypotheses are met: a state in which thread 0 has the lock for writing and two others wait for it, one to read and one to write; and one in which two threads
have it for reading and a third waits to write. -/
theorem C82_example : (∃ s : RwState, s.Reached ∧ s.Writes 0 ∧ (∀ t, s.Busy t → s.Stuck t) ∧ s.Busy 1 ∧ s.Busy 2) ∧
    (∃ s : RwState, s.Reached ∧ s.Reads 0 ∧ s.Reads 1 ∧ s.WantsWrite 2 ∧ s.Stuck 2) := by
  constructor
  · refine ⟨⟨1, true, false, [⟨.writing, 0⟩, ⟨.rdWait, 0⟩, ⟨.wrWait, 0⟩]⟩, ⟨3, [(0, .wrlock), (0, .wrlock), (1, .rdlock), (1, .rdlock), (1, .rdlock), (2, .wrlock)], by decide +kernel⟩,
      ⟨_, rfl, .inl rfl⟩, ?_, ⟨_, rfl, by decide, by decide⟩, ⟨_, rfl, by decide, by decide⟩⟩
    rintro t ⟨th, e, h1, h2⟩ c
    match t with
    | 0 => cases e; exact absurd rfl h2
    | 1 => cases c <;> rfl
    | 2 => cases c <;> rfl
    | n + 3 => simp at e
  · refine ⟨⟨2, false, false, [⟨.idle, 1⟩, ⟨.idle, 1⟩, ⟨.wrWait, 0⟩]⟩, ⟨3, [(0, .rdlock), (0, .rdlock), (0, .rdlock), (0, .rdlock), (0, .rdlock), (1, .rdlock), (1, .rdlock), (1, .rdlock), (1, .rdlock), (2, .wrlock)], by decide +kernel⟩,
      ⟨_, rfl, by decide⟩, ⟨_, rfl, by decide⟩, ⟨_, rfl, rfl⟩, fun c => ?_⟩
    cases c <;> rfl

end Urkel
