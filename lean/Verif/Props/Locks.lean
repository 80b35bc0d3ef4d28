import Verif.Lemmas.Locks
import Mathlib.Tactic.Tauto
/-
C42: no deadlock between API calls. C43: shared state is protected by locks.
-/
namespace Urkel

/-- Some thread is not done and no thread can move (`pref`: readers make way for
waiting writers). -/
def Deadlock (pref : Bool) (ths : List Thread) : Prop :=
  (∃ th ∈ ths, th.prog ≠ []) ∧ ∀ t, lockStep pref ths t = none

/-- Two threads are about to access the same state, one of them to write it. -/
def Race (ths : List Thread) : Prop :=
  ∃ (t u : Nat) (a b : Thread) (v : Var), t ≠ u ∧ ths[t]? = some a ∧ ths[u]? = some b ∧
    a.prog.head? = some (.wr v) ∧ (b.prog.head? = some (.wr v) ∨ b.prog.head? = some (.rd v))

/-- The thread uses the lock, now or later. -/
def Thread.Uses (th : Thread) (l : Lock) : Prop := (∃ m, (l, m) ∈ th.held) ∨ ∃ m, Act.acq l m ∈ th.prog

/-- What holds in every state. -/
structure LInv (strict : Bool) (priv : Nat → Lock → Prop) (ths : List Thread) : Prop where
  disc : ∀ (t : Nat) (th : Thread), ths[t]? = some th → Disc strict (priv t) th.held th.prog
  excl : ∀ (t u : Nat) (a b : Thread), ths[t]? = some a → ths[u]? = some b → t ≠ u → ∀ l, (l, Mode.wr) ∈ a.held → ∀ m, (l, m) ∉ b.held
  priv : ∀ (t u : Nat) (b : Thread), ths[u]? = some b → t ≠ u → ∀ l, priv t l → ¬ b.Uses l

theorem holds_iff {th : Thread} {l : Lock} : th.holds l = true ↔ ∃ m, (l, m) ∈ th.held := by
  unfold Thread.holds
  rw [List.any_eq_true]
  constructor
  · rintro ⟨⟨l', m⟩, h, e⟩
    simp only [decide_eq_true_eq] at e
    subst e; exact ⟨m, h⟩
  · rintro ⟨m, h⟩; exact ⟨_, h, by simp⟩

theorem holdsWr_iff {th : Thread} {l : Lock} : th.holdsWr l = true ↔ (l, Mode.wr) ∈ th.held := by
  unfold Thread.holdsWr
  rw [List.any_eq_true]
  constructor
  · rintro ⟨⟨l', m⟩, h, e⟩
    simp only [Bool.and_eq_true, decide_eq_true_eq] at e
    obtain ⟨rfl, rfl⟩ := e; exact h
  · intro h; exact ⟨_, h, by simp⟩

theorem LInv.set {strict : Bool} {priv : Nat → Lock → Prop} {ths : List Thread} (h : LInv strict priv ths) {t : Nat} {th th' : Thread}
    (ht : ths[t]? = some th) (hd : Disc strict (priv t) th'.held th'.prog)
    (hu : ∀ l, th'.Uses l → th.Uses l)
    (he : ∀ (u : Nat) (b : Thread), ths[u]? = some b → t ≠ u → (∀ l, (l, Mode.wr) ∈ th'.held → ∀ m, (l, m) ∉ b.held) ∧
      ∀ l, (l, Mode.wr) ∈ b.held → ∀ m, (l, m) ∉ th'.held) : LInv strict priv (ths.set t th') := by
  have htl : t < ths.length := by
    by_contra hn
    rw [List.getElem?_eq_none (by omega)] at ht; cases ht
  have hset : ∀ (u : Nat) (b : Thread), (ths.set t th')[u]? = some b → (u = t ∧ b = th') ∨ (u ≠ t ∧ ths[u]? = some b) := by
    intro u b hu
    rw [List.getElem?_set] at hu
    by_cases htu : t = u
    · subst htu
      rw [if_pos rfl, if_pos htl] at hu
      exact .inl ⟨rfl, (Option.some.inj hu).symm⟩
    · rw [if_neg htu] at hu
      exact .inr ⟨fun h => htu h.symm, hu⟩
  refine ⟨?_, ?_, ?_⟩
  · intro u b hb
    rcases hset u b hb with ⟨rfl, rfl⟩ | ⟨_, hb⟩
    · exact hd
    · exact h.disc u b hb
  · intro u v a b ha hb huv
    rcases hset u a ha with ⟨rfl, rfl⟩ | ⟨hut, ha2⟩
    · rcases hset v b hb with ⟨rfl, rfl⟩ | ⟨_, hb⟩
      · exact absurd rfl huv
      · exact (he v b hb huv).1
    · rcases hset v b hb with ⟨rfl, rfl⟩ | ⟨_, hb⟩
      · exact (he u a ha2 (fun h => huv h.symm)).2
      · exact h.excl u v a b ha2 hb huv
  · intro u v b hb huv l hl hul
    rcases hset v b hb with ⟨rfl, rfl⟩ | ⟨_, hb⟩
    · exact h.priv u v th ht huv l hl (hu l hul)
    · exact h.priv u v b hb huv l hl hul

theorem LInv.step {strict pref : Bool} {priv : Nat → Lock → Prop} {ths ths' : List Thread} (h : LInv strict priv ths) {t : Nat}
    (e : lockStep pref ths t = some ths') : LInv strict priv ths' := by
  rw [lockStep] at e
  cases ht : ths[t]? with
  | none => rw [ht] at e; cases e
  | some th =>
    rw [ht] at e
    simp only at e
    have hd := h.disc t th ht
    have hkeep : ∀ th' : Thread, (∀ x ∈ th'.held, x ∈ th.held) → ∀ (u : Nat) (b : Thread), ths[u]? = some b → t ≠ u →
        (∀ l, (l, Mode.wr) ∈ th'.held → ∀ m, (l, m) ∉ b.held) ∧ ∀ l, (l, Mode.wr) ∈ b.held → ∀ m, (l, m) ∉ th'.held := by
      intro th' hs u b hb htu
      exact ⟨fun l hl m hm => h.excl t u th b ht hb htu l (hs _ hl) m hm,
        fun l hl m hm => h.excl u t b th hb ht (fun h => htu h.symm) l hl m (hs _ hm)⟩
    cases hp : th.prog with
    | nil => rw [hp] at e; cases e
    | cons a p =>
      rw [hp] at e hd
      cases a with
      | acq l m =>
        simp only at e
        split at e
        · next hfree =>
          cases e
          refine h.set ht hd.2.2 ?_ ?_
          · rintro l' (⟨m', hm⟩ | ⟨m', hm⟩)
            · rcases List.mem_cons.1 hm with hm | hm
              · cases hm; exact .inr ⟨m, by rw [hp]; exact List.mem_cons_self ..⟩
              · exact .inl ⟨m', hm⟩
            · exact .inr ⟨m', by rw [hp]; exact List.mem_cons_of_mem _ hm⟩
          · intro u b hb htu
            have hbm := List.mem_of_getElem? hb
            constructor
            · intro l' hl m' hm
              rcases List.mem_cons.1 hl with hl | hl
              · obtain ⟨rfl, rfl⟩ := Prod.mk.inj hl
                simp only [lockFree, Bool.not_eq_true', List.any_eq_false] at hfree
                exact hfree b hbm (holds_iff.2 ⟨m', hm⟩)
              · exact h.excl t u th b ht hb htu l' hl m' hm
            · intro l' hl m' hm
              rcases List.mem_cons.1 hm with hm | hm
              · obtain ⟨rfl, rfl⟩ := Prod.mk.inj hm
                cases m' with
                | wr =>
                  simp only [lockFree, Bool.not_eq_true', List.any_eq_false] at hfree
                  exact hfree b hbm (holds_iff.2 ⟨_, hl⟩)
                | rd =>
                  simp only [lockFree, Bool.and_eq_true, Bool.not_eq_true', List.any_eq_false] at hfree
                  exact hfree.1 b hbm (holdsWr_iff.2 hl)
              · exact h.excl u t b th hb ht (fun h => htu h.symm) l' hl m' hm
        · cases e
      | rel l =>
        cases e
        refine h.set ht hd.2 ?_ (hkeep _ fun x hx => (List.mem_filter.1 hx).1)
        rintro l' (⟨m', hm⟩ | ⟨m', hm⟩)
        · exact .inl ⟨m', (List.mem_filter.1 hm).1⟩
        · exact .inr ⟨m', by rw [hp]; exact List.mem_cons_of_mem _ hm⟩
      | rd v =>
        cases e
        refine h.set ht hd.2 ?_ (hkeep _ fun x hx => hx)
        rintro l' (⟨m', hm⟩ | ⟨m', hm⟩)
        · exact .inl ⟨m', hm⟩
        · exact .inr ⟨m', by rw [hp]; exact List.mem_cons_of_mem _ hm⟩
      | wr v =>
        cases e
        refine h.set ht hd.2 ?_ (hkeep _ fun x hx => hx)
        rintro l' (⟨m', hm⟩ | ⟨m', hm⟩)
        · exact .inl ⟨m', hm⟩
        · exact .inr ⟨m', by rw [hp]; exact List.mem_cons_of_mem _ hm⟩

theorem LInv.run {strict : Bool} {priv : Nat → Lock → Prop} : ∀ {sched : List Nat} {ths ths' : List Thread}, LInv strict priv ths →
    lockRun ths sched = some ths' → LInv strict priv ths'
  | [], ths, ths', h, e => by cases e; exact h
  | t :: sched, ths, ths', h, e => by
    rw [lockRun] at e
    cases e1 : lockStep false ths t with
    | none => rw [e1] at e; cases e
    | some ths1 =>
      rw [e1] at e
      exact LInv.run (h.step e1) e

/-- No race in a state that satisfies the invariant. -/
theorem LInv.no_race {strict : Bool} {priv : Nat → Lock → Prop} {ths : List Thread} (h : LInv strict priv ths) : ¬ Race ths := by
  rintro ⟨t, u, a, b, v, htu, ha, hb, hwa, hb2⟩
  have da := h.disc t a ha
  have db := h.disc u b hb
  have hca : coverWr a.held v := by
    cases hp : a.prog with
    | nil => rw [hp] at hwa; cases hwa
    | cons x p =>
      rw [hp] at hwa da
      cases hwa
      exact da.1
  have hcb : coverWr b.held v ∨ coverRd b.held v := by
    cases hp : b.prog with
    | nil => rw [hp] at hb2; rcases hb2 with h | h <;> cases h
    | cons x p =>
      rw [hp] at hb2 db
      rcases hb2 with h | h
      · cases h; exact .inl db.1
      · cases h; exact .inr db.1
  have ex := h.excl t u a b ha hb htu
  have ex' := h.excl u t b a hb ha (fun h => htu h.symm)
  cases v with
  | table =>
    rcases hca with hca | ⟨hca, mt, hmt⟩
    · rcases hcb with (hcb | ⟨_, m, hm⟩) | (hcb | ⟨_, m, hm⟩)
      · exact ex _ hca _ hcb
      · exact ex _ hca _ hm
      · exact ex _ hca _ hcb
      · exact ex _ hca _ hm
    · rcases hcb with (hcb | ⟨hm, _⟩) | (hcb | ⟨⟨m, hm⟩, _⟩)
      · exact ex' _ hcb _ hmt
      · exact ex _ hca _ hm
      · exact ex' _ hcb _ hmt
      · exact ex _ hca _ hm
  | iter n =>
    rcases hcb with hcb | hcb
    · exact ex _ hca _ hcb
    · exact ex _ hca _ hcb
  | _ =>
    rcases hcb with hcb | ⟨m, hcb⟩
    · exact ex _ hca _ hcb
    · exact ex _ hca _ hcb

/-- A thread with locks is not done. -/
theorem Disc.unfinished {strict : Bool} {priv : Lock → Prop} {held : List (Lock × Mode)} {p : List Act} (h : Disc strict priv held p) {x : Lock × Mode}
    (hx : x ∈ held) : p ≠ [] := by
  rintro rfl
  rw [show held = [] from h] at hx
  cases hx

/-- No deadlock in a state that satisfies the strict invariant. -/
theorem LInv.no_deadlock {pref : Bool} {priv : Nat → Lock → Prop} {ths : List Thread} (h : LInv true priv ths) : ¬ Deadlock pref ths := by
  rintro ⟨⟨th0, hm0, hne0⟩, hstuck⟩
  -- every unfinished thread waits for a lock
  have hwait : ∀ (t : Nat) (th : Thread), ths[t]? = some th → th.prog ≠ [] → ∃ l m p, th.prog = .acq l m :: p ∧ lockFree pref ths l m = false := by
    intro t th ht hne
    have e := hstuck t
    rw [lockStep, ht] at e
    simp only at e
    cases hp : th.prog with
    | nil => exact absurd hp hne
    | cons a p =>
      rw [hp] at e
      cases a with
      | acq l m =>
        simp only at e
        split at e
        · cases e
        · next hf => exact ⟨l, m, p, rfl, by simpa using hf⟩
      | rel l => cases e
      | rd v => cases e
      | wr v => cases e
  -- not for one that only this thread uses
  have hshared : ∀ (t : Nat) (th : Thread) l m p, ths[t]? = some th → th.prog = .acq l m :: p → lockFree pref ths l m = false → ¬ priv t l := by
    intro t th l m p ht hp hf hpr
    have hd := h.disc t th ht
    rw [hp] at hd
    have hfree : ∀ c ∈ ths, ¬ ∃ m, (l, m) ∈ c.held := by
      rintro c hc ⟨m3, hm3⟩
      obtain ⟨v, hv⟩ := List.getElem?_of_mem hc
      by_cases htv : t = v
      · subst htv
        rw [ht] at hv; cases hv
        exact hd.1 _ hm3
      · exact h.priv t v c hv htv l hpr (.inl ⟨m3, hm3⟩)
    have hnw : ∀ c ∈ ths, c ≠ th → ¬ c.waitsWr l = true := by
      intro c hc hct hw
      obtain ⟨v, hv⟩ := List.getElem?_of_mem hc
      by_cases htv : t = v
      · subst htv
        rw [ht] at hv; cases hv; exact hct rfl
      · refine h.priv t v c hv htv l hpr (.inr ⟨.wr, ?_⟩)
        unfold Thread.waitsWr at hw
        simp only [decide_eq_true_eq] at hw
        exact List.mem_of_head? hw
    rw [show lockFree pref ths l m = true from ?_] at hf
    · cases hf
    cases m with
    | wr =>
      simp only [lockFree, Bool.not_eq_true', List.any_eq_false]
      intro c hc hh
      exact hfree c hc (holds_iff.1 hh)
    | rd =>
      simp only [lockFree, Bool.and_eq_true, Bool.not_eq_true', List.any_eq_false, Bool.and_eq_false_iff]
      refine ⟨fun c hc hh => hfree c hc ⟨_, holdsWr_iff.1 hh⟩, .inr fun c hc hh => ?_⟩
      by_cases hct : c = th
      · subst hct
        unfold Thread.waitsWr at hh
        rw [hp] at hh
        simp at hh
      · exact hnw c hc hct hh
  -- the holder of a lock waits for one further up
  have hkey : ∀ n, (∀ k, k < n → ∀ (t : Nat) (th : Thread) l m p, 3 - l.rank ≤ k → ths[t]? = some th → th.prog = .acq l m :: p →
      lockFree pref ths l m = false → False) → ∀ (t : Nat) (th : Thread) l m p, 3 - l.rank ≤ n → ths[t]? = some th → th.prog = .acq l m :: p →
      lockFree pref ths l m = false → False := by
    intro n ih t th l m p hn ht hp hf
    have hr3 : ∀ l : Lock, l.rank ≤ 3 := by intro l; cases l <;> simp [Lock.rank]
    have hnone : ∀ b ∈ ths, ¬ ∃ m', (l, m') ∈ b.held := by
      rintro b hb ⟨m', hm'⟩
      obtain ⟨u, hu⟩ := List.getElem?_of_mem hb
      obtain ⟨l2, m2, p2, hp2, hf2⟩ := hwait u b hu ((h.disc u b hu).unfinished hm')
      have hd := h.disc u b hu
      rw [hp2] at hd
      have hpl : ¬ priv u l := by
        intro hpl
        by_cases htu : t = u
        · subst htu
          exact hshared t th l m p ht hp hf hpl
        · exact h.priv u t th ht (fun h => htu h.symm) l hpl (.inr ⟨m, by rw [hp]; exact List.mem_cons_self ..⟩)
      rcases hd.2.1 rfl with hpr | hord
      · exact hshared u b l2 m2 p2 hu hp2 hf2 hpr
      · have h1 := hord _ hm' hpl
        have h2 := hr3 l2
        simp only at h1
        exact ih (3 - l2.rank) (by omega) u b l2 m2 p2 (Nat.le_refl _) hu hp2 hf2
    cases m with
    | wr =>
      simp only [lockFree, Bool.not_eq_false', List.any_eq_true] at hf
      obtain ⟨b, hb, hh⟩ := hf
      exact hnone b hb (holds_iff.1 hh)
    | rd =>
      simp only [lockFree, Bool.and_eq_false_iff, Bool.not_eq_false', List.any_eq_true, Bool.and_eq_true] at hf
      rcases hf with ⟨b, hb, hh⟩ | ⟨_, b, hb, hw⟩
      · exact hnone b hb ⟨_, holdsWr_iff.1 hh⟩
      · -- the writer it makes way for could go on
        unfold Thread.waitsWr at hw
        simp only [decide_eq_true_eq] at hw
        obtain ⟨u, hu⟩ := List.getElem?_of_mem hb
        obtain ⟨l2, m2, p2, hp2, hf2⟩ := hwait u b hu (by intro e; rw [e] at hw; cases hw)
        rw [hp2] at hw
        cases hw
        simp only [lockFree, Bool.not_eq_false', List.any_eq_true] at hf2
        obtain ⟨c, hc, hh⟩ := hf2
        exact hnone c hc (holds_iff.1 hh)
  -- the holder of a lock waits for one further up, and there is a topmost one
  have key : ∀ n (t : Nat) (th : Thread) l m p, 3 - l.rank ≤ n → ths[t]? = some th → th.prog = .acq l m :: p → lockFree pref ths l m = false → False := by
    intro n
    induction n with
    | zero =>
      intro t th l m p hn ht hp hf
      exact hkey 0 (fun k hk => absurd hk (Nat.not_lt_zero _)) t th l m p hn ht hp hf
    | succ n ih =>
      intro t th l m p hn ht hp hf
      exact hkey (n + 1) (fun k hk t th l m p hn => ih t th l m p (by omega)) t th l m p hn ht hp hf
  obtain ⟨t0, ht0⟩ := List.getElem?_of_mem hm0
  obtain ⟨l, m, p, hp, hf⟩ := hwait t0 th0 ht0 hne0
  exact key 3 t0 th0 l m p (by omega) ht0 hp hf

/-- The locks a thread needs for itself. -/
def ownedBy (calls : List (List Call)) (t : Nat) (l : Lock) : Prop := ∃ cs, calls[t]? = some cs ∧ ∃ c ∈ cs, l ∈ c.owns

theorem Call.uses_acts (c : Call) {l : Lock} {m : Mode} (h : Act.acq l m ∈ c.acts) : l = .tree ∨ l = .files ∨ l ∈ c.uses := by
  have hread : ∀ b, Act.acq l m ∈ readActs b → l = .files := by
    intro b hb
    cases b <;> simp [readActs] at hb <;> tauto
  have hreads : ∀ ms, Act.acq l m ∈ readsActs ms → l = .files := by
    intro ms hb
    obtain ⟨b, _, hb⟩ := List.mem_flatMap.1 hb
    exact hread b hb
  have hhist : ∀ ms, Act.acq l m ∈ historyActs ms → l = .files := by
    intro ms hb
    simp only [historyActs, List.mem_append, List.mem_flatMap, List.mem_cons] at hb
    rcases hb with hb | ⟨b, _, hb | hb⟩
    · simp at hb
    · exact hread b hb
    · simp at hb
  cases c with
  | txCommit x rolls evicted =>
    simp only [Call.acts, List.mem_cons, List.mem_append, List.mem_flatMap, List.mem_flatten, List.mem_replicate] at h
    simp only [Call.uses, List.mem_singleton]
    simp at h
    simp [appendActs] at h
    tauto
  | iterate x n nexts transient =>
    simp only [Call.acts, List.mem_cons, List.mem_append, List.mem_flatMap] at h
    simp only [Call.uses, List.mem_cons, List.not_mem_nil, or_false]
    simp at h
    cases transient <;> simp at h <;> rcases h with h | h | ⟨ms, _, h | h⟩ | h <;>
      first | (have := hreads _ h; tauto) | tauto
  | inject ms =>
    simp [Call.acts] at h
    rcases h with h | h
    · tauto
    · have := hhist _ h; tauto
  | txCreate x w ms =>
    cases w <;> simp [Call.acts] at h
    · tauto
    · rcases h with h | h | h
      · tauto
      · tauto
      · have := hhist _ h; tauto
  | txInject x ms =>
    simp [Call.acts] at h
    simp [Call.uses]
    rcases h with h | h | h
    · tauto
    · tauto
    · have := hhist _ h; tauto
  | txProve x w ms =>
    simp [Call.uses]
    cases w <;> simp [Call.acts] at h
    · rcases h with h | h | h
      · tauto
      · tauto
      · have := hreads _ h; tauto
    · rcases h with h | h | h | h
      · tauto
      · tauto
      · tauto
      · have := hreads _ h; tauto
  | txRoot x w =>
    simp [Call.uses]
    cases w <;> simp [Call.acts] at h <;> tauto
  | root => simp [Call.acts] at h; tauto
  | txDestroy x => simp [Call.acts] at h; simp [Call.uses]; tauto
  | txClear x => simp [Call.acts] at h; simp [Call.uses]; tauto
  | _ =>
    simp [Call.acts] at h
    simp [Call.uses]
    rcases h with h | h | h
    · tauto
    · tauto
    · have := hreads _ h; tauto

theorem disc_calls {strict : Bool} {priv : Lock → Prop} : ∀ cs : List Call, (strict = true → ∀ c ∈ cs, ∀ l ∈ c.owns, priv l) →
    Disc strict priv [] (cs.flatMap Call.acts)
  | [], _ => rfl
  | c :: cs, h => by
    rw [List.flatMap_cons]
    exact c.disc (fun hs => h hs c (List.mem_cons_self ..)) _ (disc_calls cs fun hs c' hc => h hs c' (List.mem_cons_of_mem _ hc))

theorem LInv.start {strict : Bool} {calls : List (List Call)}
    (hown : ∀ (t u : Nat) (cs ds : List Call), calls[t]? = some cs → calls[u]? = some ds → t ≠ u →
      ∀ c ∈ cs, ∀ d ∈ ds, ∀ l ∈ c.owns, l ∉ d.uses) : LInv strict (ownedBy calls) (startCalls calls) := by
  have hget : ∀ (t : Nat) (th : Thread), (startCalls calls)[t]? = some th → ∃ cs, calls[t]? = some cs ∧ th = ⟨[], cs.flatMap Call.acts⟩ := by
    intro t th ht
    rw [startCalls, List.getElem?_map] at ht
    cases e : calls[t]? with
    | none => rw [e] at ht; cases ht
    | some cs => rw [e] at ht; exact ⟨cs, rfl, (Option.some.inj ht).symm⟩
  refine ⟨?_, ?_, ?_⟩
  · intro t th ht
    obtain ⟨cs, hcs, rfl⟩ := hget t th ht
    exact disc_calls cs fun _ c hc l hl => ⟨cs, hcs, c, hc, hl⟩
  · intro t u a b ha _ _ l hl
    obtain ⟨cs, hcs, rfl⟩ := hget t a ha
    cases hl
  · intro t u b hb htu l hp hu
    obtain ⟨cs, hcs, c, hc, hl⟩ := hp
    obtain ⟨ds, hds, rfl⟩ := hget u b hb
    rcases hu with ⟨m, hm⟩ | ⟨m, hm⟩
    · cases hm
    · obtain ⟨d, hd, hm⟩ := List.mem_flatMap.1 hm
      rcases d.uses_acts hm with rfl | rfl | hu
      · exact not_priv_table.2 hl
      · exact not_priv_table.1 hl
      · exact hown t u cs ds hcs hds htu c hc d hd l hl hu

/-- C42 is false: thread 0 makes a proof in a transaction with changes in memory,
thread 1 commits the same transaction. The first holds the database lock and waits for
the transaction lock, the second the other way round; neither can ever move. -/
theorem C42_false : ∀ pref, ∃ ths, lockRun (startCalls [[.txProve 0 true []], [.txCommit 0 [] 0]]) [0, 0, 0, 0, 1] = some ths ∧ Deadlock pref ths := by
  intro pref
  have h : ∀ pref, ∃ ths, lockRun (startCalls [[.txProve 0 true []], [.txCommit 0 [] 0]]) [0, 0, 0, 0, 1] = some ths ∧
      (∃ th ∈ ths, th.prog ≠ []) ∧ lockStep pref ths 0 = none ∧ lockStep pref ths 1 = none ∧ ths.length = 2 := by
    intro pref
    refine ⟨[⟨[(.tree, .rd)], [.acq (.tx 0) .wr, .wr (.tx 0), .wr (.tx 0), .rel .tree, .rel (.tx 0)]⟩,
      ⟨[(.tx 0, .wr)], .acq .tree .wr :: (Call.acts (.txCommit 0 [] 0)).drop 2⟩], ?_, ⟨_, List.mem_cons_self .., by decide⟩, ?_, ?_, rfl⟩
    · cases pref <;> decide +kernel
    · cases pref <;> decide +kernel
    · cases pref <;> decide +kernel
  obtain ⟨ths, e, h1, h2, h3, h4⟩ := h pref
  refine ⟨ths, e, h1, ?_⟩
  intro t
  match t with
  | 0 => exact h2
  | 1 => exact h3
  | t + 2 => rw [lockStep, List.getElem?_eq_none (by omega)]

/-- C42, except for proofs beside other calls on the same transaction: any number of
threads, each performing any sequence of API calls on one database and any
transactions, whatever files the calls read and whether the lock implementation
prefers waiting writers or not: no schedule leads to a deadlock. The hypothesis says
that a transaction with changes in memory in which one thread makes a proof, an
iterator, and the hidden transaction of `urkel_iterate` are used by one thread only.
Missing from the full property: exactly such proofs (C42_false). -/
theorem C42_no_deadlock_partial (pref : Bool) (calls : List (List Call)) (sched : List Nat) (ths : List Thread)
    (hown : ∀ (t u : Nat) (cs ds : List Call), calls[t]? = some cs → calls[u]? = some ds → t ≠ u →
      ∀ c ∈ cs, ∀ d ∈ ds, ∀ l ∈ c.owns, l ∉ d.uses)
    (hrun : lockRun (startCalls calls) sched = some ths) : ¬ Deadlock pref ths :=
  ((LInv.start hown).run hrun).no_deadlock

/-- What is left to do. -/
def workLeft (ths : List Thread) : Nat := (ths.map fun th => th.prog.length).sum

theorem sum_set : ∀ {l : List Nat} {i a b : Nat}, l[i]? = some a → b < a → (l.set i b).sum < l.sum
  | [], _, _, _, h, _ => by simp at h
  | x :: l, 0, a, b, h, hb => by simp at h; subst h; simp; omega
  | x :: l, i + 1, a, b, h, hb => by
    have := sum_set (l := l) (i := i) (by simpa using h) hb
    simp; omega

theorem le_sum_mem : ∀ {l : List Nat} {a : Nat}, a ∈ l → a ≤ l.sum
  | x :: l, a, h => by
    rcases List.mem_cons.1 h with rfl | h
    · simp
    · have := le_sum_mem h
      simp; omega

theorem lockStep_work {pref : Bool} {ths ths' : List Thread} {t : Nat} (e : lockStep pref ths t = some ths') : workLeft ths' < workLeft ths := by
  rw [lockStep] at e
  cases ht : ths[t]? with
  | none => rw [ht] at e; cases e
  | some th =>
    rw [ht] at e
    simp only at e
    have key : ∀ th' : Thread, th'.prog.length < th.prog.length → workLeft (ths.set t th') < workLeft ths := by
      intro th' hl
      rw [workLeft, List.map_set]
      exact sum_set (by rw [List.getElem?_map, ht]; rfl) hl
    cases hp : th.prog with
    | nil => rw [hp] at e; cases e
    | cons a p =>
      rw [hp] at e key
      cases a with
      | acq l m =>
        simp only at e
        split at e
        · cases e; exact key _ (by simp)
        · cases e
      | rel l => cases e; exact key _ (by simp)
      | rd v => cases e; exact key _ (by simp)
      | wr v => cases e; exact key _ (by simp)

/-- Threads that keep the discipline can all be completed. -/
theorem LInv.finish {priv : Nat → Lock → Prop} {ths : List Thread} (hinv : LInv true priv ths) :
    ∃ rest ths', lockRun ths rest = some ths' ∧ ∀ th ∈ ths', th.prog = [] ∧ th.held = [] := by
  have : ∀ n (ths : List Thread), LInv true priv ths → workLeft ths ≤ n →
      ∃ rest ths', lockRun ths rest = some ths' ∧ ∀ th ∈ ths', th.prog = [] ∧ th.held = [] := by
    intro n
    induction n with
    | zero =>
      intro ths hi hw
      refine ⟨[], ths, rfl, ?_⟩
      intro th hth
      have hp : th.prog = [] := by
        by_contra hne
        have h1 : th.prog.length ∈ ths.map fun th => th.prog.length := List.mem_map_of_mem hth
        have h2 := le_sum_mem h1
        unfold workLeft at hw
        have := List.length_pos_of_ne_nil hne
        omega
      obtain ⟨t, ht⟩ := List.getElem?_of_mem hth
      have hd := hi.disc t th ht
      rw [hp] at hd
      exact ⟨hp, hd⟩
    | succ n ih =>
      intro ths hi hw
      by_cases hdone : ∃ th ∈ ths, th.prog ≠ []
      · have := hi.no_deadlock (pref := false)
        have hstep : ∃ t ths1, lockStep false ths t = some ths1 := by
          by_contra hno
          refine this ⟨hdone, fun t => ?_⟩
          cases e : lockStep false ths t with
          | none => rfl
          | some ths1 => exact absurd ⟨t, ths1, e⟩ hno
        obtain ⟨t, ths1, e⟩ := hstep
        have := lockStep_work e
        obtain ⟨rest, ths2, e2, h2⟩ := ih ths1 (hi.step e) (by omega)
        exact ⟨t :: rest, ths2, by rw [lockRun, e]; exact e2, h2⟩
      · refine ⟨[], ths, rfl, ?_⟩
        intro th hth
        have hp : th.prog = [] := by
          by_contra hne; exact hdone ⟨th, hth, hne⟩
        obtain ⟨t, ht⟩ := List.getElem?_of_mem hth
        have hd := hi.disc t th ht
        rw [hp] at hd
        exact ⟨hp, hd⟩
  exact this _ ths hinv (Nat.le_refl _)

/-- C42: under the same hypothesis, however the calls have been scheduled so far, they
can all be completed, and every schedule has at most as many steps as the calls
together have. -/
theorem C42_finish_partial (calls : List (List Call)) (sched : List Nat) (ths : List Thread)
    (hown : ∀ (t u : Nat) (cs ds : List Call), calls[t]? = some cs → calls[u]? = some ds → t ≠ u →
      ∀ c ∈ cs, ∀ d ∈ ds, ∀ l ∈ c.owns, l ∉ d.uses)
    (hrun : lockRun (startCalls calls) sched = some ths) :
    (∃ rest ths', lockRun ths rest = some ths' ∧ ∀ th ∈ ths', th.prog = [] ∧ th.held = []) ∧ sched.length ≤ workLeft (startCalls calls) := by
  have hinv := (LInv.start (strict := true) hown).run hrun
  constructor
  · exact hinv.finish
  · have : ∀ (sched : List Nat) {a b : List Thread}, lockRun a sched = some b → sched.length + workLeft b ≤ workLeft a := by
      intro sched
      induction sched with
      | nil => intro a b e; cases e; simp
      | cons t sched ih =>
        intro a b e
        rw [lockRun] at e
        cases e1 : lockStep false a t with
        | none => rw [e1] at e; cases e
        | some a1 =>
          rw [e1] at e
          have h1 := ih e
          have h2 := lockStep_work e1
          simp only [List.length_cons]; omega
    have := this sched hrun
    omega

/-- C43: any number of threads, each performing any sequence of API calls on one
database and any transactions (which may be shared between threads), in any schedule:
no two threads ever are about to access the same part of the shared state with one of
them writing it. -/
theorem C43_no_race (calls : List (List Call)) (sched : List Nat) (ths : List Thread)
    (hrun : lockRun (startCalls calls) sched = some ths) : ¬ Race ths := by
  refine (LInv.run (strict := false) (priv := fun _ _ => False) ⟨?_, ?_, fun _ _ _ _ _ _ h => h.elim⟩ hrun).no_race
  · intro t th ht
    rw [startCalls, List.getElem?_map] at ht
    cases e : calls[t]? with
    | none => rw [e] at ht; cases ht
    | some cs =>
      rw [e] at ht; cases ht
      exact disc_calls cs fun h => (nomatch h)
  · intro t u a b ha _ _ l hl
    rw [startCalls, List.getElem?_map] at ha
    cases e : calls[t]? with
    | none => rw [e] at ha; cases ha
    | some cs => rw [e] at ha; cases ha; cases hl

/-- The hypothesis of C42_no_deadlock_partial is met by threads sharing transactions:
one commits and iterates transaction 0, two read and write it, and a fourth makes a
proof in a transaction of its own with changes in memory. -/
theorem C42_example : ∀ (t u : Nat) (cs ds : List Call),
    [[Call.txCommit 0 [true, false] 2, .iterate 0 7 [[true], []] false], [.txGet 0 [true], .txInsert 0 []], [.txRemove 0 [], .root],
      [.txCreate 1 false [], .txInsert 1 [], .txProve 1 true [false], .txDestroy 1]][t]? = some cs →
    [[Call.txCommit 0 [true, false] 2, .iterate 0 7 [[true], []] false], [.txGet 0 [true], .txInsert 0 []], [.txRemove 0 [], .root],
      [.txCreate 1 false [], .txInsert 1 [], .txProve 1 true [false], .txDestroy 1]][u]? = some ds → t ≠ u →
      ∀ c ∈ cs, ∀ d ∈ ds, ∀ l ∈ c.owns, l ∉ d.uses := by
  intro t u cs ds ht hu htu
  match t, u with
  | 0, 0 | 1, 1 | 2, 2 | 3, 3 => exact absurd rfl htu
  | 0, 1 | 0, 2 | 0, 3 | 1, 0 | 1, 2 | 1, 3 | 2, 0 | 2, 1 | 2, 3 | 3, 0 | 3, 1 | 3, 2 =>
    cases ht; cases hu
    simp [Call.owns, Call.uses]
  | n + 4, _ => simp at ht
  | _, n + 4 => simp at hu

/-- Runs do happen: a thread that reads and one that commits, with a rollover and an
eviction, interleaved at the first lock, both to the end. -/
theorem C43_example : ∃ ths, lockRun (startCalls [[.txGet 0 [true]], [.root, .txCommit 1 [true] 1]])
    ([0, 1, 0, 1] ++ List.replicate 11 0 ++ List.replicate 29 1) = some ths ∧ ∀ th ∈ ths, th.prog = [] := by
  refine ⟨[⟨[], []⟩, ⟨[], []⟩], by decide +kernel, ?_⟩
  intro th h
  simp at h; subst h; rfl

end Urkel
