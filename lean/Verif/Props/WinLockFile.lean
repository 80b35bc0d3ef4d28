import Verif.Model.WinLockFile
import Verif.Props.LockFile
/-
C83: the lock file on Windows.
-/
namespace Urkel

/-- What holds when deleting waits for the last handle. -/
structure WLInv (s : WinLockFs) : Prop where
  opened : ∀ h i, s.st h = .opened i → s.path = some i ∧ h ∈ (s.file i).opens
  holding : ∀ h i, s.st h = .holding i → s.path = some i ∧ h ∈ (s.file i).opens ∧ (s.file i).owner = some h
  opens : ∀ h i, s.path = some i → h ∈ (s.file i).opens → s.st h = .opened i ∨ s.st h = .holding i
  owner : ∀ h i, s.path = some i → (s.file i).owner = some h → s.st h = .holding i
  pending : ∀ i, s.path = some i → (s.file i).pending = true → (s.file i).opens ≠ []

/-- All but the last clause, before the sweep. -/
structure WLPre (s : WinLockFs) : Prop where
  opened : ∀ h i, s.st h = .opened i → s.path = some i ∧ h ∈ (s.file i).opens
  holding : ∀ h i, s.st h = .holding i → s.path = some i ∧ h ∈ (s.file i).opens ∧ (s.file i).owner = some h
  opens : ∀ h i, s.path = some i → h ∈ (s.file i).opens → s.st h = .opened i ∨ s.st h = .holding i
  owner : ∀ h i, s.path = some i → (s.file i).owner = some h → s.st h = .holding i

theorem WLPre.sweep {s : WinLockFs} (h : WLPre s) : WLInv s.sweep := by
  unfold WinLockFs.sweep
  cases hp : s.path with
  | none =>
    refine ⟨h.opened, h.holding, h.opens, h.owner, fun i e => ?_⟩
    rw [hp] at e; cases e
  | some i =>
    dsimp only
    split
    · rename_i hc
      rw [Bool.and_eq_true, List.isEmpty_iff] at hc
      have hno : ∀ x j, s.path = some j → x ∉ (s.file j).opens := by
        intro x j hj hx
        rw [hp] at hj; cases hj
        rw [hc.2] at hx; cases hx
      refine ⟨fun x j e => ?_, fun x j e => ?_, (fun x j e => by cases e), (fun x j e => by cases e), (fun j e => by cases e)⟩
      · exact absurd (h.opened x j e).2 (hno x j (h.opened x j e).1)
      · exact absurd (h.holding x j e).2.1 (hno x j (h.holding x j e).1)
    · rename_i hc
      refine ⟨h.opened, h.holding, h.opens, h.owner, fun j e hj he => hc ?_⟩
      rw [hp] at e; cases e
      rw [hj, he]; rfl

theorem WLInv.pre {s : WinLockFs} (h : WLInv s) : WLPre s := ⟨h.opened, h.holding, h.opens, h.owner⟩

/-- A handle is closed. -/
theorem WLInv.closeOne {s : WinLockFs} (h : WLInv s) {x i : Nat} (hx : s.st x = .opened i ∨ s.st x = .holding i) (y : LockState) (hy : y = .closed ∨ y = .released) :
    WLPre { s with file := upd s.file i ((s.file i).close (· = x)), st := upd s.st x y } := by
  have hpi : s.path = some i := by rcases hx with e | e; exact (h.opened x i e).1; exact (h.holding x i e).1
  have hst : ∀ z j, (upd s.st x y z = .opened j ∨ upd s.st x y z = .holding j) → z ≠ x ∧ upd s.st x y z = s.st z := by
    intro z j e
    by_cases hz : z = x
    · subst hz; rw [upd_self] at e
      rcases hy with rfl | rfl <;> rcases e with e | e <;> cases e
    · exact ⟨hz, upd_other hz⟩
  refine ⟨fun z j e => ?_, fun z j e => ?_, fun z j hj hz => ?_, fun z j hj hz => ?_⟩
  · obtain ⟨hz, e'⟩ := hst z j (.inl e)
    have e : s.st z = .opened j := by rw [← e']; exact e
    obtain ⟨a, b⟩ := h.opened z j e
    refine ⟨a, ?_⟩
    rw [hpi] at a; cases a
    show z ∈ (upd s.file i _ i).opens
    rw [upd_self]
    exact List.mem_filter.2 ⟨b, by simpa using hz⟩
  · obtain ⟨hz, e'⟩ := hst z j (.inr e)
    have e : s.st z = .holding j := by rw [← e']; exact e
    obtain ⟨a, b, c⟩ := h.holding z j e
    refine ⟨a, ?_⟩
    rw [hpi] at a; cases a
    show z ∈ (upd s.file i _ i).opens ∧ (upd s.file i _ i).owner = some z
    rw [upd_self]
    refine ⟨List.mem_filter.2 ⟨b, by simpa using hz⟩, ?_⟩
    show (s.file i).owner.filter _ = _
    rw [c]; simp [Option.filter, hz]
  · have hj : s.path = some j := hj
    rw [hpi] at hj; cases hj
    have hz : z ∈ (upd s.file i ((s.file i).close (· = x)) i).opens := hz
    rw [upd_self] at hz
    obtain ⟨h1, h2⟩ := List.mem_filter.1 hz
    have hne : z ≠ x := by simpa using h2
    show upd s.st x y z = _ ∨ upd s.st x y z = _
    rw [upd_other hne]
    exact h.opens z i hpi h1
  · have hj : s.path = some j := hj
    rw [hpi] at hj; cases hj
    have hz : (upd s.file i ((s.file i).close (· = x)) i).owner = some z := hz
    rw [upd_self] at hz
    have hz : (s.file i).owner.filter (fun h => !decide (h = x)) = some z := hz
    rw [Option.filter_eq_some_iff] at hz
    have hne : z ≠ x := by simpa using hz.2
    show upd s.st x y z = _
    rw [upd_other hne]
    exact h.owner z i hpi hz.1

theorem WLInv.step {pid : Nat → Nat} {s : WinLockFs} (h : WLInv s) (op : LockOp) : WLInv (winLockOp false pid s op) := by
  cases op with
  | «open» x =>
    dsimp only [winLockOp]
    cases hx : s.st x with
    | closed =>
      dsimp only
      cases hp : s.path with
      | some i =>
        dsimp only
        split
        · exact h
        · rename_i hpend
          rw [← hp]
          have hmem : ∀ z, z ∈ (upd s.file i { s.file i with opens := x :: (s.file i).opens } i).opens ↔ z = x ∨ z ∈ (s.file i).opens := by
            intro z; rw [upd_self]; exact List.mem_cons
          refine ⟨fun z j e => ?_, fun z j e => ?_, fun z j hj hz => ?_, fun z j hj hz => ?_, fun j hj _ => ?_⟩
          · have e : upd s.st x (.opened i) z = .opened j := e
            by_cases hz : z = x
            · subst hz; rw [upd_self] at e; cases e
              exact ⟨hp, (hmem z).2 (.inl rfl)⟩
            · rw [upd_other hz] at e
              obtain ⟨a, b⟩ := h.opened z j e
              rw [hp] at a; cases a
              exact ⟨hp, (hmem z).2 (.inr b)⟩
          · have e : upd s.st x (.opened i) z = .holding j := e
            by_cases hz : z = x
            · subst hz; rw [upd_self] at e; cases e
            · rw [upd_other hz] at e
              obtain ⟨a, b, c⟩ := h.holding z j e
              rw [hp] at a; cases a
              refine ⟨hp, (hmem z).2 (.inr b), ?_⟩
              show (upd s.file i _ i).owner = _
              rw [upd_self]; exact c
          · have hj : s.path = some j := hj
            rw [hp] at hj; cases hj
            show upd s.st x (.opened i) z = _ ∨ upd s.st x (.opened i) z = _
            by_cases hzx : z = x
            · subst hzx; rw [upd_self]; exact .inl rfl
            · rw [upd_other hzx]
              rcases (hmem z).1 hz with e | e
              · exact absurd e hzx
              · exact h.opens z i hp e
          · have hj : s.path = some j := hj
            rw [hp] at hj; cases hj
            have hz : (upd s.file i { s.file i with opens := x :: (s.file i).opens } i).owner = some z := hz
            rw [upd_self] at hz
            have := h.owner z i hp hz
            show upd s.st x (.opened i) z = _
            rw [upd_other (fun e => by rw [e, hx] at this; cases this)]
            exact this
          · have hj : s.path = some j := hj
            rw [hp] at hj; cases hj
            intro e
            have := (hmem x).2 (.inl rfl)
            rw [show (upd s.file i { s.file i with opens := x :: (s.file i).opens } i).opens = [] from e] at this
            cases this
      | none =>
        dsimp only
        have hno1 : ∀ z j, s.st z ≠ .opened j := fun z j e => by have := (h.opened z j e).1; rw [hp] at this; cases this
        have hno2 : ∀ z j, s.st z ≠ .holding j := fun z j e => by have := (h.holding z j e).1; rw [hp] at this; cases this
        have hf : upd s.file s.fresh ⟨[x], none, false⟩ s.fresh = ⟨[x], none, false⟩ := upd_self ..
        refine ⟨fun z j e => ?_, fun z j e => ?_, fun z j hj hz => ?_, fun z j hj hz => ?_, fun j hj hz => ?_⟩
        · have e : upd s.st x (.opened s.fresh) z = .opened j := e
          by_cases hz : z = x
          · subst hz; rw [upd_self] at e; cases e
            refine ⟨rfl, ?_⟩
            show z ∈ (upd s.file s.fresh _ s.fresh).opens
            rw [hf]; exact List.mem_singleton.2 rfl
          · rw [upd_other hz] at e; exact absurd e (hno1 z j)
        · have e : upd s.st x (.opened s.fresh) z = .holding j := e
          by_cases hz : z = x
          · subst hz; rw [upd_self] at e; cases e
          · rw [upd_other hz] at e; exact absurd e (hno2 z j)
        · have hj : some s.fresh = some j := hj
          cases hj
          have hz : z ∈ (upd s.file s.fresh ⟨[x], none, false⟩ s.fresh).opens := hz
          rw [hf] at hz
          have hz := List.mem_singleton.1 hz
          subst hz
          left
          show upd s.st z _ z = _
          rw [upd_self]
        · have hj : some s.fresh = some j := hj
          cases hj
          have hz : (upd s.file s.fresh ⟨[x], none, false⟩ s.fresh).owner = some z := hz
          rw [hf] at hz; cases hz
        · have hj : some s.fresh = some j := hj
          cases hj
          have hz : (upd s.file s.fresh ⟨[x], none, false⟩ s.fresh).pending = true := hz
          rw [hf] at hz; cases hz
    | opened _ => exact h
    | holding _ => exact h
    | released => exact h
  | lock x =>
    dsimp only [winLockOp]
    cases hx : s.st x with
    | opened i =>
      dsimp only
      obtain ⟨hp, hm⟩ := h.opened x i hx
      split
      · rename_i ho
        have hf : upd s.file i { s.file i with owner := some x } i = { s.file i with owner := some x } := upd_self ..
        have hnh : ∀ z j, s.st z ≠ .holding j := by
          intro z j e
          obtain ⟨a, -, c⟩ := h.holding z j e
          rw [hp] at a; cases a
          rw [ho] at c; cases c
        refine ⟨fun z j e => ?_, fun z j e => ?_, fun z j hj hz => ?_, fun z j hj hz => ?_, fun j hj hz => ?_⟩
        · have e : upd s.st x (.holding i) z = .opened j := e
          by_cases hz : z = x
          · subst hz; rw [upd_self] at e; cases e
          · rw [upd_other hz] at e
            obtain ⟨a, b⟩ := h.opened z j e
            rw [hp] at a; cases a
            refine ⟨hp, ?_⟩
            show z ∈ (upd s.file i _ i).opens
            rw [hf]; exact b
        · have e : upd s.st x (.holding i) z = .holding j := e
          by_cases hz : z = x
          · subst hz; rw [upd_self] at e; cases e
            refine ⟨hp, ?_⟩
            show z ∈ (upd s.file i _ i).opens ∧ (upd s.file i _ i).owner = some z
            rw [hf]; exact ⟨hm, rfl⟩
          · rw [upd_other hz] at e; exact absurd e (hnh z j)
        · have hj : s.path = some j := hj
          rw [hp] at hj; cases hj
          have hz : z ∈ (upd s.file i { s.file i with owner := some x } i).opens := hz
          rw [hf] at hz
          show upd s.st x (.holding i) z = _ ∨ upd s.st x (.holding i) z = _
          by_cases hzx : z = x
          · subst hzx; rw [upd_self]; exact .inr rfl
          · rw [upd_other hzx]; exact h.opens z i hp hz
        · have hj : s.path = some j := hj
          rw [hp] at hj; cases hj
          have hz : (upd s.file i { s.file i with owner := some x } i).owner = some z := hz
          rw [hf] at hz; cases hz
          show upd s.st x (.holding i) x = _
          rw [upd_self]
        · have hj : s.path = some j := hj
          rw [hp] at hj; cases hj
          show (upd s.file i { s.file i with owner := some x } i).opens ≠ []
          rw [hf]
          intro e
          rw [show (s.file i).opens = [] from e] at hm; cases hm
      · exact (h.closeOne (.inl hx) .closed (.inl rfl)).sweep
    | closed => exact h
    | holding _ => exact h
    | released => exact h
  | release x =>
    dsimp only [winLockOp]
    cases hx : s.st x with
    | holding i => exact (h.closeOne (.inr hx) .released (.inr rfl)).sweep
    | closed => exact h
    | opened _ => exact h
    | released => exact h
  | giveUp x =>
    dsimp only [winLockOp]
    cases hx : s.st x with
    | holding i => exact (h.closeOne (.inr hx) .closed (.inl rfl)).sweep
    | closed => exact h
    | opened _ => exact h
    | released => exact h
  | unlink x =>
    dsimp only [winLockOp]
    cases hx : s.st x with
    | released =>
      dsimp only
      have hne : ∀ {z : Nat} {y : LockState}, upd s.st x .closed z = y → y ≠ .closed → s.st z = y := by
        intro z y e hy
        by_cases hz : z = x
        · subst hz; rw [upd_self] at e; exact absurd e.symm hy
        · rw [upd_other hz] at e; exact e
      have hback : ∀ {z : Nat} {y : LockState}, s.st z = y → y ≠ .released → upd s.st x .closed z = y := by
        intro z y e hy
        by_cases hz : z = x
        · subst hz; rw [hx] at e; exact absurd e.symm hy
        · rw [upd_other hz]; exact e
      cases hp : s.path with
      | none =>
        dsimp only
        rw [← hp]
        refine ⟨fun z j e => ?_, fun z j e => ?_, fun z j hj => ?_, fun z j hj => ?_, fun j hj => ?_⟩
        · exact h.opened z j (hne e (by simp))
        · exact h.holding z j (hne e (by simp))
        · have hj : s.path = some j := hj
          rw [hp] at hj; cases hj
        · have hj : s.path = some j := hj
          rw [hp] at hj; cases hj
        · have hj : s.path = some j := hj
          rw [hp] at hj; cases hj
      | some i =>
        dsimp only
        rw [if_neg (by decide), ← hp]
        have hf : upd s.file i { s.file i with pending := true } i = { s.file i with pending := true } := upd_self ..
        apply WLPre.sweep
        refine ⟨fun z j e => ?_, fun z j e => ?_, fun z j hj hz => ?_, fun z j hj hz => ?_⟩
        · obtain ⟨a, b⟩ := h.opened z j (hne e (by simp))
          rw [hp] at a; cases a
          refine ⟨hp, ?_⟩
          show z ∈ (upd s.file i _ i).opens
          rw [hf]; exact b
        · obtain ⟨a, b, c⟩ := h.holding z j (hne e (by simp))
          rw [hp] at a; cases a
          refine ⟨hp, ?_⟩
          show z ∈ (upd s.file i _ i).opens ∧ (upd s.file i _ i).owner = some z
          rw [hf]; exact ⟨b, c⟩
        · have hj : s.path = some j := hj
          rw [hp] at hj; cases hj
          have hz : z ∈ (upd s.file i { s.file i with pending := true } i).opens := hz
          rw [hf] at hz
          rcases h.opens z i hp hz with e | e
          · exact .inl (hback e (by simp))
          · exact .inr (hback e (by simp))
        · have hj : s.path = some j := hj
          rw [hp] at hj; cases hj
          have hz : (upd s.file i { s.file i with pending := true } i).owner = some z := hz
          rw [hf] at hz
          exact hback (h.owner z i hp hz) (by simp)
    | closed => exact h
    | opened _ => exact h
    | holding _ => exact h
  | crash p =>
    dsimp only [winLockOp]
    apply WLPre.sweep
    refine ⟨fun z j e => ?_, fun z j e => ?_, fun z j hj hz => ?_, fun z j hj hz => ?_⟩
    · have e : (if pid z = p then LockState.closed else s.st z) = .opened j := e
      split at e
      · cases e
      · rename_i hne
        obtain ⟨a, b⟩ := h.opened z j e
        exact ⟨a, List.mem_filter.2 ⟨b, by simpa using hne⟩⟩
    · have e : (if pid z = p then LockState.closed else s.st z) = .holding j := e
      split at e
      · cases e
      · rename_i hne
        obtain ⟨a, b, c⟩ := h.holding z j e
        refine ⟨a, List.mem_filter.2 ⟨b, by simpa using hne⟩, ?_⟩
        show (s.file j).owner.filter _ = _
        rw [c]; simp [Option.filter, hne]
    · obtain ⟨h1, h2⟩ := List.mem_filter.1 hz
      have hne : ¬ pid z = p := by simpa using h2
      show (if pid z = p then LockState.closed else s.st z) = _ ∨ (if pid z = p then LockState.closed else s.st z) = _
      rw [if_neg hne]; exact h.opens z j hj h1
    · have hz : (s.file j).owner.filter (fun h => !decide (pid h = p)) = some z := hz
      rw [Option.filter_eq_some_iff] at hz
      have hne : ¬ pid z = p := by simpa using hz.2
      show (if pid z = p then LockState.closed else s.st z) = _
      rw [if_neg hne]; exact h.owner z j hj hz.1

theorem WLInv.run {pid : Nat → Nat} {s : WinLockFs} (h : WLInv s) (ops : List LockOp) : WLInv (winLockOps false pid s ops) := by
  induction ops generalizing s with
  | nil => exact h
  | cons op ops ih => exact ih (h.step op)

theorem WLInv.init : WLInv .init := ⟨fun _ _ h => (nomatch h), fun _ _ h => (nomatch h), fun _ _ h => (nomatch h), fun _ _ h => (nomatch h), fun _ h => (nomatch h)⟩

/-- C83, where deleting a file waits for its last handle: any number of handles on the database, in any number of processes and possibly several in one process, opening,
closing, failing and crashing in any order of system calls: never do two of them have the database open. -/
theorem C83_exclusive_partial (pid : Nat → Nat) (ops : List LockOp) (h h' : Nat)
    (ho : (winLockOps false pid .init ops).Open h) (ho' : (winLockOps false pid .init ops).Open h') : h = h' := by
  have hi := WLInv.init.run (pid := pid) ops
  obtain ⟨i, e⟩ := ho
  obtain ⟨j, e'⟩ := ho'
  obtain ⟨a, -, c⟩ := hi.holding h i e
  obtain ⟨a', -, c'⟩ := hi.holding h' j e'
  rw [a] at a'; cases a'
  rw [c] at c'; exact Option.some.inj c'

/-- C83: the lock file never keeps everybody out for good: once no handle is open, a handle that opens the database gets it. -/
theorem C83_free_partial (pid : Nat → Nat) (ops : List LockOp) (h : Nat) (hfree : ∀ x, (winLockOps false pid .init ops).st x = .closed) :
    (winLockOps false pid .init (ops ++ [.open h, .lock h])).Open h := by
  have hi := WLInv.init.run (pid := pid) ops
  unfold winLockOps at *
  rw [List.foldl_append]
  generalize List.foldl (winLockOp false pid) WinLockFs.init ops = s at *
  have hop : ∀ i, s.path = some i → (s.file i).opens = [] := by
    intro i hp
    apply List.eq_nil_iff_forall_not_mem.2
    intro x hx
    rcases hi.opens x i hp hx with e | e <;> (rw [hfree x] at e; cases e)
  have hown : ∀ i, s.path = some i → (s.file i).owner = none := by
    intro i hp
    cases e : (s.file i).owner with
    | none => rfl
    | some x => have := hi.owner x i hp e; rw [hfree x] at this; cases this
  show (winLockOp false pid (winLockOp false pid s (.open h)) (.lock h)).Open h
  have e1 : winLockOp false pid s (.open h) = match s.path with
      | some i => if (s.file i).pending then s
        else { s with file := upd s.file i { s.file i with opens := h :: (s.file i).opens }, st := upd s.st h (.opened i) }
      | none => { s with path := some s.fresh, fresh := s.fresh + 1, file := upd s.file s.fresh ⟨[h], none, false⟩, st := upd s.st h (.opened s.fresh) } := by
    dsimp only [winLockOp]; rw [hfree h]; rfl
  rw [e1]
  cases hp : s.path with
  | none =>
    dsimp only
    refine ⟨s.fresh, ?_⟩
    dsimp only [winLockOp]
    rw [upd_self]
    dsimp only
    rw [if_pos (by rw [upd_self])]
    exact upd_self ..
  | some i =>
    dsimp only
    have hpend : (s.file i).pending ≠ true := fun e => hi.pending i hp e (hop i hp)
    rw [if_neg hpend]
    refine ⟨i, ?_⟩
    dsimp only [winLockOp]
    rw [upd_self]
    dsimp only
    rw [if_pos (by rw [upd_self]; exact hown i hp)]
    exact upd_self ..

/-- C83 is false where the name of a deleted file is gone at once: the course of events is that of `C44_false`. -/
theorem C83_posix_false : ∃ ops, (winLockOps true id .init ops).Open 1 ∧ (winLockOps true id .init ops).Open 2 := by
  refine ⟨[.open 1, .lock 1, .open 2, .release 1, .lock 2, .unlink 1, .open 1, .lock 1], ⟨1, ?_⟩, ⟨0, ?_⟩⟩
  · decide +kernel
  · decide +kernel

/-- Where deleting waits, the same course of events lets only one in, and two handles in one process exclude each other; after a close in which
the file was in use it can be opened again later. -/
theorem C83_example :
    (winLockOps false id .init [.open 1, .lock 1, .open 2, .release 1, .lock 2, .unlink 1, .open 1, .lock 1]).Open 2 ∧
    (winLockOps false (fun _ => 0) .init [.open 1, .lock 1, .open 2, .lock 2]).Open 1 ∧
    (winLockOps false (fun _ => 0) .init [.open 1, .lock 1, .open 2, .lock 2]).st 2 = .closed ∧
    (winLockOps false id .init [.open 1, .lock 1, .open 2, .release 1, .lock 2, .unlink 1, .open 1, .release 2, .unlink 2, .open 1, .lock 1]).Open 1 :=
  ⟨⟨0, by decide +kernel⟩, ⟨0, by decide +kernel⟩, by decide +kernel, ⟨1, by decide +kernel⟩⟩

end Urkel
