import Verif.Model.LockFile
/-
C44: one process at a time. C55: one handle at a time within a process.
-/
namespace Urkel

/-- C44 is false: process 1 has the database open and closes it while process 2 is
opening it. Process 2 gets the lock on the old file, which process 1 then removes;
process 1 opens the database again and creates a new lock file. Now both have it
open. -/
theorem C44_false : ∃ ops, (lockOps id .init ops).Open 1 ∧ (lockOps id .init ops).Open 2 := by
  refine ⟨[.open 1, .lock 1, .open 2, .release 1, .lock 2, .unlink 1, .open 1, .lock 1], ⟨1, ?_⟩, ⟨0, ?_⟩⟩
  · decide +kernel
  · decide +kernel

/-- C55 is false: record locks belong to the process, so a second handle in the same
process gets the lock as well. -/
theorem C55_same_process_false : ∃ pid : Nat → Nat, pid 1 = pid 2 ∧
    (lockOps pid .init [.open 1, .lock 1, .open 2, .lock 2]).Open 1 ∧ (lockOps pid .init [.open 1, .lock 1, .open 2, .lock 2]).Open 2 :=
  ⟨fun _ => 0, rfl, ⟨0, by decide +kernel⟩, ⟨0, by decide +kernel⟩⟩

/-- C55: worse, closing one of the two drops the lock of the other: another process
can then open the database too. -/
theorem C55_lets_in_false : ∃ pid : Nat → Nat, pid 1 = pid 2 ∧ pid 3 ≠ pid 1 ∧
    (lockOps pid .init [.open 1, .lock 1, .open 2, .lock 2, .release 1, .unlink 1, .open 3, .lock 3]).Open 2 ∧
    (lockOps pid .init [.open 1, .lock 1, .open 2, .lock 2, .release 1, .unlink 1, .open 3, .lock 3]).Open 3 :=
  ⟨fun h => if h = 3 then 1 else 0, rfl, by decide, ⟨0, by decide +kernel⟩, ⟨1, by decide +kernel⟩⟩

/-- What holds while no lock file is removed. -/
structure KeepInv (pid : Nat → Nat) (s : LockFs) : Prop where
  opened : ∀ h i, s.st h = .opened i → s.path = some i
  holding : ∀ h i, s.st h = .holding i → s.path = some i ∧ s.owner i = some (pid h)

theorem upd_self {β : Type} (f : Nat → β) (a : Nat) (b : β) : upd f a b a = b := if_pos rfl
theorem upd_other {β : Type} {f : Nat → β} {a x : Nat} {b : β} (h : x ≠ a) : upd f a b x = f x := if_neg h

theorem KeepInv.step {pid : Nat → Nat} (hinj : ∀ h h', pid h = pid h' → h = h') {s : LockFs} (h : KeepInv pid s) {op : LockOp}
    (hop : ∀ x, op ≠ .unlink x) : KeepInv pid (lockOp pid s op) := by
  -- releasing handle `k` that holds inode `i`
  have hrel : ∀ k i r, s.st k = .holding i → (∀ j, r ≠ .opened j) → (∀ j, r ≠ .holding j) →
      KeepInv pid { s with owner := if s.owner i = some (pid k) then upd s.owner i none else s.owner, st := upd s.st k r } := by
    intro k i r hk hr1 hr2
    obtain ⟨hpath, hown⟩ := h.holding k i hk
    refine ⟨?_, ?_⟩
    · intro x j hx
      simp only at hx ⊢
      by_cases hxk : x = k
      · subst hxk; rw [upd_self] at hx; exact absurd hx (hr1 j)
      · rw [upd_other hxk] at hx; exact h.opened x j hx
    · intro x j hx
      simp only at hx ⊢
      by_cases hxk : x = k
      · subst hxk; rw [upd_self] at hx; exact absurd hx (hr2 j)
      · rw [upd_other hxk] at hx
        obtain ⟨hp2, ho2⟩ := h.holding x j hx
        rw [hpath] at hp2
        cases hp2
        rw [hown] at ho2
        exact absurd (hinj _ _ (Option.some.inj ho2)).symm hxk
  cases op with
  | «open» k =>
    rw [lockOp]
    split
    · split
      · next i hi =>
        refine ⟨?_, ?_⟩
        · intro x j hx
          simp only at hx ⊢
          by_cases hxk : x = k
          · subst hxk; rw [upd_self] at hx; cases hx; exact hi
          · rw [upd_other hxk] at hx; exact h.opened x j hx
        · intro x j hx
          simp only at hx ⊢
          by_cases hxk : x = k
          · subst hxk; rw [upd_self] at hx; cases hx
          · rw [upd_other hxk] at hx; exact h.holding x j hx
      · next hi =>
        refine ⟨?_, ?_⟩
        · intro x j hx
          simp only at hx ⊢
          by_cases hxk : x = k
          · subst hxk; rw [upd_self] at hx; cases hx; rfl
          · rw [upd_other hxk] at hx
            have := h.opened x j hx
            rw [hi] at this; cases this
        · intro x j hx
          simp only at hx ⊢
          by_cases hxk : x = k
          · subst hxk; rw [upd_self] at hx; cases hx
          · rw [upd_other hxk] at hx
            have := (h.holding x j hx).1
            rw [hi] at this; cases this
    · exact h
  | lock k =>
    rw [lockOp]
    split
    · next i hk =>
      split
      · next hfree =>
        refine ⟨?_, ?_⟩
        · intro x j hx
          simp only at hx ⊢
          by_cases hxk : x = k
          · subst hxk; rw [upd_self] at hx; cases hx
          · rw [upd_other hxk] at hx; exact h.opened x j hx
        · intro x j hx
          simp only at hx ⊢
          by_cases hxk : x = k
          · subst hxk; rw [upd_self] at hx; cases hx
            exact ⟨h.opened x i hk, upd_self _ _ _⟩
          · rw [upd_other hxk] at hx
            obtain ⟨hp2, ho2⟩ := h.holding x j hx
            have := h.opened k i hk
            rw [this] at hp2
            cases hp2
            rcases hfree with hf | hf
            · rw [ho2] at hf; cases hf
            · rw [ho2] at hf
              exact absurd (hinj _ _ (Option.some.inj hf)) hxk
      · refine ⟨?_, ?_⟩
        · intro x j hx
          simp only at hx ⊢
          by_cases hxk : x = k
          · subst hxk; rw [upd_self] at hx; cases hx
          · rw [upd_other hxk] at hx; exact h.opened x j hx
        · intro x j hx
          simp only at hx ⊢
          by_cases hxk : x = k
          · subst hxk; rw [upd_self] at hx; cases hx
          · rw [upd_other hxk] at hx; exact h.holding x j hx
    · exact h
  | release k =>
    rw [lockOp]
    split
    · next i hk => exact hrel k i .released hk (fun j h => by cases h) (fun j h => by cases h)
    · exact h
  | unlink k => exact absurd rfl (hop k)
  | giveUp k =>
    rw [lockOp]
    split
    · next i hk => exact hrel k i .closed hk (fun j h => by cases h) (fun j h => by cases h)
    · exact h
  | crash p =>
    rw [lockOp]
    refine ⟨?_, ?_⟩
    · intro x j hx
      simp only at hx ⊢
      split at hx
      · cases hx
      · exact h.opened x j hx
    · intro x j hx
      simp only at hx ⊢
      split at hx
      · cases hx
      · next hne =>
        obtain ⟨h1, h2⟩ := h.holding x j hx
        refine ⟨h1, ?_⟩
        rw [if_neg (by rw [h2]; intro e; exact hne (Option.some.inj e))]
        exact h2

/-- C44, as long as the lock file is never removed: any number of processes, each with
one handle, opening, failing to open, releasing and crashing in any order of system
calls: never do two of them have the database open. Missing from the full property:
orderly closing, which removes the lock file (C44_false; but see
C44_serial_partial). -/
theorem C44_no_unlink_partial (pid : Nat → Nat) (hinj : ∀ h h', pid h = pid h' → h = h') (ops : List LockOp)
    (hops : ∀ op ∈ ops, ∀ x, op ≠ .unlink x) (h h' : Nat) (ho : (lockOps pid .init ops).Open h) (ho' : (lockOps pid .init ops).Open h') : h = h' := by
  have hinv : ∀ (ops : List LockOp) {s : LockFs}, KeepInv pid s → (∀ op ∈ ops, ∀ x, op ≠ .unlink x) → KeepInv pid (lockOps pid s ops) := by
    intro ops
    induction ops with
    | nil => intro s hs _; exact hs
    | cons op ops ih =>
      intro s hs hops
      exact ih (hs.step hinj (hops op (List.mem_cons_self ..))) fun o ho => hops o (List.mem_cons_of_mem _ ho)
  have hk := hinv ops (s := .init) ⟨fun _ _ h => (nomatch h), fun _ _ h => (nomatch h)⟩ hops
  obtain ⟨i, hi⟩ := ho
  obtain ⟨j, hj⟩ := ho'
  obtain ⟨p1, o1⟩ := hk.holding h i hi
  obtain ⟨p2, o2⟩ := hk.holding h' j hj
  rw [p1] at p2
  cases p2
  rw [o1] at o2
  exact hinj _ _ (Option.some.inj o2)

/-- An attempt to open, an orderly close, a crash, as a whole. -/
inductive WholeOp where
  | openDb (h : Nat)
  | closeDb (h : Nat)
  | crash (p : Nat)

/-- The system calls of each. -/
def WholeOp.ops : WholeOp → List LockOp
  | .openDb h => [.open h, .lock h]
  | .closeDb h => [.release h, .unlink h]
  | .crash p => [.crash p]

/-- Between whole operations every handle is closed or in use. -/
structure SerialInv (pid : Nat → Nat) (s : LockFs) : Prop where
  settled : ∀ h, s.st h = .closed ∨ ∃ i, s.st h = .holding i
  holding : ∀ h i, s.st h = .holding i → s.path = some i ∧ s.owner i = some (pid h)

theorem SerialInv.step {pid : Nat → Nat} (hinj : ∀ h h', pid h = pid h' → h = h') {s : LockFs} (h : SerialInv pid s) (w : WholeOp) :
    SerialInv pid (lockOps pid s w.ops) := by
  have hk : KeepInv pid s := 
    ⟨fun x i hx => by (rcases h.settled x with e | ⟨j, e⟩ <;> (rw [e] at hx; cases hx)), h.holding⟩
  cases w with
  | openDb k =>
    have h1 := (hk.step hinj (op := .open k) (fun x h => by cases h)).step hinj (op := .lock k) (fun x h => by cases h)
    refine ⟨?_, h1.holding⟩
    intro x
    change (lockOp pid (lockOp pid s (.open k)) (.lock k)).st x = _ ∨ ∃ i, (lockOp pid (lockOp pid s (.open k)) (.lock k)).st x = _
    rcases h.settled k with e | ⟨j, e⟩
    · -- it was closed
      have ⟨i, e1, e2⟩ : ∃ i, (lockOp pid s (.open k)).st k = .opened i ∧ ∀ x, x ≠ k → (lockOp pid s (.open k)).st x = s.st x := by
        rw [lockOp, e]
        simp only
        split
        · next i _ => exact ⟨i, upd_self _ _ _, fun x hx => upd_other hx⟩
        · exact ⟨s.fresh, upd_self _ _ _, fun x hx => upd_other hx⟩
      generalize lockOp pid s (.open k) = s1 at e1 e2 ⊢
      rw [lockOp, e1]
      simp only
      by_cases hxk : x = k
      · subst hxk
        split
        · exact .inr ⟨i, upd_self _ _ _⟩
        · exact .inl (upd_self _ _ _)
      · have : (upd s1.st k (.holding i) x) = s.st x := (upd_other hxk).trans (e2 x hxk)
        have h2 : (upd s1.st k .closed x) = s.st x := (upd_other hxk).trans (e2 x hxk)
        split
        · simp only; rw [this]; exact h.settled x
        · simp only; rw [h2]; exact h.settled x
    · have e1 : lockOp pid s (.open k) = s := by rw [lockOp, e]
      rw [e1, lockOp, e]
      exact h.settled x
  | closeDb k =>
    change SerialInv pid (lockOp pid (lockOp pid s (.release k)) (.unlink k))
    rcases h.settled k with e | ⟨j, e⟩
    · have e1 : lockOp pid s (.release k) = s := by rw [lockOp, e]
      rw [e1, lockOp, e]
      exact h
    · have e1 : lockOp pid s (.release k) = { s with owner := if s.owner j = some (pid k) then upd s.owner j none else s.owner, st := upd s.st k .released } := by
        rw [lockOp, e]
      rw [e1, lockOp]
      simp only [upd_self]
      have hst : ∀ x, upd (upd s.st k LockState.released) k .closed x = if x = k then .closed else s.st x := by
        intro x
        by_cases hxk : x = k
        · subst hxk; rw [upd_self, if_pos rfl]
        · rw [upd_other hxk, upd_other hxk, if_neg hxk]
      refine ⟨?_, ?_⟩
      · intro x
        simp only [hst]
        split
        · exact .inl rfl
        · exact h.settled x
      · intro x i hx
        simp only [hst] at hx
        split at hx
        · cases hx
        · next hxk =>
          obtain ⟨p1, o1⟩ := h.holding k j e
          obtain ⟨p2, o2⟩ := h.holding x i hx
          rw [p1] at p2
          cases p2
          rw [o1] at o2
          exact absurd (hinj _ _ (Option.some.inj o2)).symm hxk
  | crash p =>
    have h1 := hk.step hinj (op := .crash p) (fun x h => by cases h)
    refine ⟨?_, h1.holding⟩
    intro x
    change (if pid x = p then LockState.closed else s.st x) = _ ∨ ∃ i, (if pid x = p then LockState.closed else s.st x) = _
    split
    · exact .inl rfl
    · exact h.settled x

/-- C44, for processes that do not open and close at the same moment: any number of
processes, each with one handle, opening, closing and crashing in any order, each
opening and closing undisturbed: never do two of them have the database open. -/
theorem C44_serial_partial (pid : Nat → Nat) (hinj : ∀ h h', pid h = pid h' → h = h') (ws : List WholeOp) (h h' : Nat)
    (ho : (lockOps pid .init (ws.flatMap WholeOp.ops)).Open h) (ho' : (lockOps pid .init (ws.flatMap WholeOp.ops)).Open h') : h = h' := by
  have hinv : ∀ (ws : List WholeOp) {s : LockFs}, SerialInv pid s → SerialInv pid (lockOps pid s (ws.flatMap WholeOp.ops)) := by
    intro ws
    induction ws with
    | nil => intro s hs; exact hs
    | cons w ws ih =>
      intro s hs
      rw [List.flatMap_cons, lockOps, List.foldl_append]
      exact ih (hs.step hinj w)
  have hk := hinv ws (s := .init) ⟨fun _ => .inl rfl, fun _ _ h => (nomatch h)⟩
  obtain ⟨i, hi⟩ := ho
  obtain ⟨j, hj⟩ := ho'
  obtain ⟨p1, o1⟩ := hk.holding h i hi
  obtain ⟨p2, o2⟩ := hk.holding h' j hj
  rw [p1] at p2
  cases p2
  rw [o1] at o2
  exact hinj _ _ (Option.some.inj o2)

/-- The lock does let a process in and keep another out, and lets it in after the
first has closed or crashed. -/
theorem C44_example :
    (lockOps id .init ([WholeOp.openDb 1, .openDb 2].flatMap WholeOp.ops)).Open 1 ∧
    (lockOps id .init ([WholeOp.openDb 1, .openDb 2, .closeDb 1, .openDb 2, .openDb 1].flatMap WholeOp.ops)).Open 2 ∧
    (lockOps id .init ([WholeOp.openDb 1, .openDb 2, .crash 1, .openDb 2].flatMap WholeOp.ops)).Open 2 :=
  ⟨⟨0, by decide +kernel⟩, ⟨1, by decide +kernel⟩, ⟨0, by decide +kernel⟩⟩

end Urkel
