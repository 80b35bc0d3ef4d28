import Verif.Lemmas.NestedAlone
import Mathlib.Tactic.Tauto
/-
C84: other calls while an iterator is open.
-/
namespace Urkel

/-- No thread but `t` takes `l` in a mode that conflicts with `m`. -/
def freeOf (uses : List (List Use)) (t : Nat) (l : Lock) (m : Mode) : Prop :=
  ∀ (u : Nat) (us : List Use), uses[u]? = some us → t ≠ u → ∀ m', Conflict m m' → Act.acq l m' ∉ us.flatMap Use.acts

theorem start_get {uses : List (List Use)} {t : Nat} {th : Thread} (h : (startUses uses)[t]? = some th) :
    ∃ us, uses[t]? = some us ∧ th = ⟨[], us.flatMap Use.acts⟩ := by
  rw [startUses, List.getElem?_map] at h
  cases e : uses[t]? with
  | none => rw [e] at h; cases h
  | some us => rw [e] at h; exact ⟨us, rfl, (Option.some.inj h).symm⟩

theorem NInv.start {strict : Bool} {uses : List (List Use)} (hp : ∀ us ∈ uses, Proper [] us)
    (hs : strict = true → ∀ (t : Nat) (us : List Use), uses[t]? = some us → Unhindered [] us ∧
      (∀ d ∈ nestedUses [] us, (∀ x ∈ d.readsTx, freeOf uses t (.tx x) .rd) ∧ ∀ x ∈ d.changesTx, freeOf uses t (.tx x) .wr ∧ freeOf uses t (.tx x) .rd) ∧
      ∀ d ∈ us, ∀ n ∈ d.iters, freeOf uses t (.iter n) .wr) : NInv strict (freeOf uses) (startUses uses) where
  nice t th ht := by
    obtain ⟨us, hu, rfl⟩ := start_get ht
    exact nice_uses us [] [] Base.nil (hp us (List.mem_of_getElem? hu)) (fun h => hs h t us hu)
  excl t u a b ha hb htu l hl := by
    obtain ⟨us, -, rfl⟩ := start_get ha
    cases hl
  free t u b hb htu l m m' hf hcf := by
    obtain ⟨us, hu, rfl⟩ := start_get hb
    exact ⟨fun h => (nomatch h), hf u us hu htu m' hcf⟩

theorem readActs_acq {b : Bool} {l : Lock} {m : Mode} (h : Act.acq l m ∈ readActs b) : l = .files := by
  cases b <;> simp [readActs] at h <;> tauto

theorem readsActs_acq {ms : List Bool} {l : Lock} {m : Mode} (h : Act.acq l m ∈ readsActs ms) : l = .files := by
  obtain ⟨b, _, hb⟩ := List.mem_flatMap.1 h
  exact readActs_acq hb

theorem historyActs_acq {ms : List Bool} {l : Lock} {m : Mode} (h : Act.acq l m ∈ historyActs ms) : l = .files := by
  simp only [historyActs, List.mem_append, List.mem_flatMap, List.mem_cons] at h
  rcases h with hb | ⟨b, _, hb | hb⟩
  · simp at hb
  · exact readActs_acq hb
  · simp at hb

/-- Which locks a call takes. -/
theorem Use.acq_acts {d : Use} (hi : ∀ x n ns t, d ≠ .call (.iterate x n ns t)) {l : Lock} {m : Mode} (h : Act.acq l m ∈ d.acts) :
    l = .files ∨ l = .tree ∨ (∃ n ∈ d.iters, l = .iter n) ∨ (∃ x, l = .tx x ∧ ((x ∈ d.changesTx) ∨ (m = .rd ∧ x ∈ d.readsTx))) := by
  have hr : ∀ ms, Act.acq l m ∈ readsActs ms → l = .files := fun ms h => readsActs_acq h
  have hh : ∀ ms, Act.acq l m ∈ historyActs ms → l = .files := fun ms h => historyActs_acq h
  cases d with
  | iterOpen x n => simp [Use.acts] at h; simp [Use.changesTx, Use.readsTx, Use.iters]; grind
  | iterNext x n ms => simp [Use.acts] at h; simp [Use.iters]; grind
  | iterClose x n t => cases t <;> simp [Use.acts] at h <;> simp [Use.changesTx, Use.readsTx, Use.iters] <;> grind
  | call c =>
    cases c with
    | iterate x n ns t => exact absurd rfl (hi x n ns t)
    | txCommit x rolls evicted =>
      simp only [Use.acts, Call.acts, List.mem_cons, List.mem_append, List.mem_flatMap, List.mem_flatten, List.mem_replicate] at h
      simp [appendActs] at h
      simp [Use.changesTx, Call.changesTx]
      grind
    | inject ms => simp [Use.acts, Call.acts] at h; grind
    | txCreate x w ms => cases w <;> simp [Use.acts, Call.acts] at h <;> grind
    | root => simp [Use.acts, Call.acts] at h; grind
    | txRoot x w => cases w <;> simp [Use.acts, Call.acts] at h <;> simp [Use.changesTx, Call.changesTx, Use.readsTx, Call.readsTx] <;> grind
    | txProve x w ms => cases w <;> simp [Use.acts, Call.acts] at h <;> simp [Use.changesTx, Call.changesTx, Use.readsTx, Call.readsTx] <;> grind
    | _ => simp [Use.acts, Call.acts] at h; simp [Use.changesTx, Call.changesTx, Use.readsTx, Call.readsTx]; grind

theorem Proper.not_iterate : ∀ {us : List Use} {o : List (Nat × Nat)}, Proper o us → ∀ d ∈ us, ∀ x n ns t, d ≠ .call (.iterate x n ns t)
  | [], _, _, d, hd => by cases hd
  | e :: us, o, h, d, hd => by
    intro x n ns t hde
    rcases List.mem_cons.1 hd with rfl | hd'
    · subst hde; exact h
    · exact Proper.not_iterate (Proper.cons h).2 d hd' x n ns t hde

/-- Iterators are used by the thread that made them, and what a thread does beside an open iterator (or in a proof that computes hashes) does not meet changes by others. -/
structure Apart (uses : List (List Use)) : Prop where
  proper : ∀ us ∈ uses, Proper [] us
  fits : ∀ us ∈ uses, Unhindered [] us
  iters : ∀ (t u : Nat) (us vs : List Use), uses[t]? = some us → uses[u]? = some vs → t ≠ u → ∀ d ∈ us, ∀ e ∈ vs, ∀ n ∈ d.iters, n ∉ e.iters
  reads : ∀ (t u : Nat) (us vs : List Use), uses[t]? = some us → uses[u]? = some vs → t ≠ u → ∀ d ∈ nestedUses [] us, ∀ e ∈ vs, ∀ x ∈ d.readsTx, x ∉ e.changesTx
  changes : ∀ (t u : Nat) (us vs : List Use), uses[t]? = some us → uses[u]? = some vs → t ≠ u → ∀ d ∈ nestedUses [] us, ∀ e ∈ vs,
    ∀ x ∈ d.changesTx, x ∉ e.changesTx ∧ x ∉ e.readsTx

theorem Apart.inv {uses : List (List Use)} (h : Apart uses) : NInv true (freeOf uses) (startUses uses) := by
  refine NInv.start h.proper fun _ t us ht => ⟨h.fits us (List.mem_of_getElem? ht), fun d hd => ⟨fun x hx => ?_, fun x hx => ⟨?_, ?_⟩⟩, fun d hd n hn => ?_⟩
  all_goals
    intro u vs hu htu m' hcf hm
    obtain ⟨e, he, hm⟩ := List.mem_flatMap.1 hm
    have ha := Use.acq_acts ((h.proper vs (List.mem_of_getElem? hu)).not_iterate e he) hm
  · have := h.reads t u us vs ht hu htu d hd e he x hx
    rcases hcf with hcf | hcf
    · cases hcf
    · subst hcf
      rcases ha with ha | ha | ⟨n, hn, ha⟩ | ⟨y, ha, hy | ⟨hy, -⟩⟩
      · cases ha
      · cases ha
      · cases ha
      · cases ha; exact this hy
      · cases hy
  · have := h.changes t u us vs ht hu htu d hd e he x hx
    rcases ha with ha | ha | ⟨n, hn, ha⟩ | ⟨y, ha, hy | ⟨_, hy⟩⟩
    · cases ha
    · cases ha
    · cases ha
    · cases ha; exact this.1 hy
    · cases ha; exact this.2 hy
  · have := h.changes t u us vs ht hu htu d hd e he x hx
    rcases ha with ha | ha | ⟨n, hn, ha⟩ | ⟨y, ha, hy | ⟨_, hy⟩⟩
    · cases ha
    · cases ha
    · cases ha
    · cases ha; exact this.1 hy
    · cases ha; exact this.2 hy
  · rcases ha with ha | ha | ⟨k, hk, ha⟩ | ⟨y, ha, hy⟩
    · cases ha
    · cases ha
    · cases ha; exact h.iters t u us vs ht hu htu d hd e he n hn hk
    · cases ha

/-- C84, for locks that let readers in while writers wait: any number of threads that open, use and close iterators and make other calls in between, in any schedule. No deadlock, if each
thread leaves alone what it iterates over (`Unhindered`) and what it uses meanwhile is not changed by others. -/
theorem C84_no_deadlock_partial (uses : List (List Use)) (h : Apart uses) (sched : List Nat) (ths : List Thread)
    (hrun : nestRun (startUses uses) sched = some ths) : ¬ Jammed false ths := (h.inv.run hrun).no_jam

/-- C84: whatever iterators are open and whatever other calls are made meanwhile, in any schedule of any programs, no two threads ever are about to access the
same part of the shared state with one of them writing it. -/
theorem C84_no_race (uses : List (List Use)) (hp : ∀ us ∈ uses, Proper [] us) (sched : List Nat) (ths : List Thread)
    (hrun : nestRun (startUses uses) sched = some ths) : ¬ Race ths :=
  ((NInv.start (strict := false) hp (fun h => by cases h)).run hrun).no_race

/-- C84, a program with one thread: it finishes if no call clashes with the iterators that are open; the first call that does never returns. -/
theorem C84_alone (us : List Use) (hp : Proper [] us) :
    (Unhindered [] us → ∃ k, nestRun (startUses [us]) (List.replicate k 0) = some [⟨[], []⟩]) ∧
    ∀ pre d post, us = pre ++ d :: post → Unhindered [] pre → d.Clashes (afterAll [] pre) →
      ∃ k th rest, nestRun (startUses [us]) (List.replicate k 0) = some [th] ∧ rest ≠ [] ∧ rest <:+ d.acts ∧ th.prog = rest ++ post.flatMap Use.acts ∧
        ∀ pref, Jammed pref [th] := by
  constructor
  · intro hf
    have hs := solo_uses (us := us) (vs := []) Base.nil (by rw [List.append_nil]; exact hp) hf
    have hr := run_solo (us.flatMap Use.acts) [] [] hs
    have he := (exec_base (us := us) (vs := []) Base.nil (by rw [List.append_nil]; exact hp))
    rw [List.append_nil] at hr
    refine ⟨_, hr.trans ?_⟩
    have ho : afterAll [] us = [] := he.2
    have hnil := nice_uses (strict := false) (free := fun _ _ => True) [] [] _ (ho ▸ he.1) rfl (fun h => by cases h)
    rw [show execHeld [] (us.flatMap Use.acts) = [] from hnil]
  · rintro pre d post rfl hf hc
    obtain ⟨hb, hp'⟩ := exec_base (us := pre) (vs := d :: post) Base.nil hp
    have hs := solo_uses (us := pre) (vs := d :: post) Base.nil hp hf
    obtain ⟨a, l, m, b, hab, ha, hna⟩ := Use.blocks hb (Proper.cons hp').1 hc
    have hs' : SoloOk [] (pre.flatMap Use.acts ++ a) := hs.append ha
    have hr := run_solo _ [] (Act.acq l m :: b ++ post.flatMap Use.acts) hs'
    refine ⟨(pre.flatMap Use.acts ++ a).length, ⟨execHeld [] (pre.flatMap Use.acts ++ a), Act.acq l m :: b ++ post.flatMap Use.acts⟩, Act.acq l m :: b, ?_, by simp, ⟨a, hab.symm⟩, rfl,
      fun pref => ⟨⟨_, List.mem_singleton.2 rfl, by simp⟩, fun t => ?_⟩⟩
    · have : startUses [pre ++ d :: post] = [⟨[], pre.flatMap Use.acts ++ a ++ (Act.acq l m :: b ++ post.flatMap Use.acts)⟩] := by
        simp [startUses, hab]
      rw [this]
      exact hr
    · cases t with
      | zero =>
        show (if lockFree pref [⟨_, Act.acq l m :: (b ++ post.flatMap Use.acts)⟩] l m = true then _ else none) = none
        rw [if_neg]
        intro hfree
        have := step_solo.1 hfree
        rw [execHeld_append] at this
        exact hna this
      | succ t => rfl

theorem SoloOk.right : ∀ {a b : List Act} {h : List (Lock × Mode)}, SoloOk h (a ++ b) → SoloOk (execHeld h a) b
  | [], _, _, h => h
  | .acq l m :: a, b, h, ha => SoloOk.right (a := a) ha.2
  | .rel l :: a, b, h, ha => SoloOk.right (a := a) ha
  | .rd _ :: a, b, h, ha => SoloOk.right (a := a) ha
  | .wr _ :: a, b, h, ha => SoloOk.right (a := a) ha

/-- A lock that is held all the time is not taken for writing meanwhile. -/
theorem SoloOk.stays {l : Lock} : ∀ {c : List Act} {h : List (Lock × Mode)}, SoloOk h c → (l, Mode.wr) ∉ h →
    (∀ a b, c = a ++ b → ∃ m, (l, m) ∈ execHeld h a) → (l, Mode.wr) ∉ execHeld h c
  | [], _, _, hw, _ => hw
  | .acq l' m :: c, h, hs, hw, hk => by
    refine SoloOk.stays (c := c) hs.2 (fun hm => ?_) (fun a b e => hk (.acq l' m :: a) b (by rw [e]; rfl))
    rcases List.mem_cons.1 hm with e | e
    · cases e
      obtain ⟨m', hm'⟩ := hk [] _ rfl
      exact hs.1.2 rfl m' hm'
    · exact hw e
  | .rel l' :: c, h, hs, hw, hk =>
    SoloOk.stays (c := c) hs (fun hm => hw (List.mem_of_mem_eraseP hm)) (fun a b e => hk (.rel l' :: a) b (by rw [e]; rfl))
  | .rd v :: c, h, hs, hw, hk => SoloOk.stays (c := c) hs hw (fun a b e => hk (.rd v :: a) b (by rw [e]; rfl))
  | .wr v :: c, h, hs, hw, hk => SoloOk.stays (c := c) hs hw (fun a b e => hk (.wr v :: a) b (by rw [e]; rfl))

/-- What the threads hold follows from what they have done, and they took each lock when they did not stand in their own way. -/
def Tracked (uses : List (List Use)) (ths : List Thread) : Prop :=
  ∀ (t : Nat) (th : Thread), ths[t]? = some th → ∃ us done, uses[t]? = some us ∧ us.flatMap Use.acts = done ++ th.prog ∧ th.held = execHeld [] done ∧
    SoloOk [] done

theorem Tracked.step {uses : List (List Use)} {ths ths' : List Thread} (h : Tracked uses ths) {t : Nat} (e : nestStep false ths t = some ths') : Tracked uses ths' := by
  rw [nestStep] at e
  cases ht : ths[t]? with
  | none => rw [ht] at e; cases e
  | some th =>
    rw [ht] at e
    simp only at e
    obtain ⟨us, done, hu, hd, hh, hw⟩ := h t th ht
    have htl : t < ths.length := by
      by_contra hn
      rw [List.getElem?_eq_none (by omega)] at ht; cases ht
    have key : ∀ th' : Thread, (∃ us done, uses[t]? = some us ∧ us.flatMap Use.acts = done ++ th'.prog ∧ th'.held = execHeld [] done ∧
        SoloOk [] done) → Tracked uses (ths.set t th') := by
      intro th' h' u b hb
      rw [List.getElem?_set] at hb
      by_cases htu : t = u
      · subst htu
        rw [if_pos rfl, if_pos htl] at hb
        cases hb; exact h'
      · rw [if_neg htu] at hb
        exact h u b hb
    cases hp : th.prog with
    | nil => rw [hp] at e; cases e
    | cons a p =>
      rw [hp] at e hd
      cases a with
      | acq l m =>
        simp only at e
        split at e
        · next hfree =>
          cases e
          have hm := List.mem_of_getElem? ht
          refine key _ ⟨us, done ++ [.acq l m], hu, by rw [hd]; simp, by rw [execHeld_append, ← hh]; rfl, hw.append (b := [.acq l m]) ⟨?_, trivial⟩⟩
          rw [← hh]
          cases m with
          | wr =>
            simp only [lockFree, Bool.not_eq_true', List.any_eq_false] at hfree
            have h0 : ∀ m', (l, m') ∉ th.held := fun m' h2 => hfree th hm (holds_iff.2 ⟨m', h2⟩)
            exact ⟨h0 _, fun _ => h0⟩
          | rd =>
            simp only [lockFree, Bool.and_eq_true, Bool.not_eq_true', List.any_eq_false] at hfree
            exact ⟨fun h2 => hfree.1 th hm (holdsWr_iff.2 h2), fun e => by cases e⟩
        · cases e
      | rel l =>
        cases e
        exact key _ ⟨us, done ++ [.rel l], hu, by rw [hd]; simp, by rw [execHeld_append, ← hh]; rfl, hw.append (b := [.rel l]) trivial⟩
      | rd v =>
        cases e
        exact key _ ⟨us, done ++ [.rd v], hu, by rw [hd]; simp, by rw [execHeld_append, ← hh]; rfl, hw.append (b := [.rd v]) trivial⟩
      | wr v =>
        cases e
        exact key _ ⟨us, done ++ [.wr v], hu, by rw [hd]; simp, by rw [execHeld_append, ← hh]; rfl, hw.append (b := [.wr v]) trivial⟩

theorem Tracked.run {uses : List (List Use)} : ∀ {sched : List Nat} {ths ths' : List Thread}, Tracked uses ths → nestRun ths sched = some ths' → Tracked uses ths'
  | [], ths, ths', h, e => by cases e; exact h
  | t :: sched, ths, ths', h, e => by
    rw [nestRun] at e
    cases e1 : nestStep false ths t with
    | none => rw [e1] at e; cases e
    | some ths1 =>
      rw [e1] at e
      exact Tracked.run (h.step e1) e

theorem Tracked.start (uses : List (List Use)) : Tracked uses (startUses uses) := by
  intro t th ht
  obtain ⟨us, hu, rfl⟩ := start_get ht
  exact ⟨us, [], hu, rfl, rfl, trivial⟩

/-- The part of the shared state that an open iterator on transaction `x` relies on: the transaction, and the database. -/
def Var.KeptBy (x : Nat) : Var → Prop
  | .tx y => y = x
  | .head | .state | .history | .out => True
  | .table | .iter _ => False

/-- C84: while an iterator on transaction `x` is open, from the end of the call that makes it to the beginning of the call that destroys it, no thread at all is about to change the
transaction or the database: in every schedule of any programs of any number of threads. -/
theorem C84_iterator_is_stable (uses : List (List Use)) (hp : ∀ us ∈ uses, Proper [] us) (sched : List Nat) (ths : List Thread)
    (hrun : nestRun (startUses uses) sched = some ths)
    (t : Nat) (th : Thread) (ht : ths[t]? = some th) (pre mid post : List Use) (x n : Nat) (tr : Bool)
    (hus : uses[t]? = some (pre ++ .iterOpen x n :: (mid ++ .iterClose x n tr :: post))) (hmid : ∀ tr, Use.iterClose x n tr ∉ mid)
    (hopen : th.prog <:+ (mid ++ .iterClose x n tr :: post).flatMap Use.acts) (hnot : (Use.iterClose x n tr :: post).flatMap Use.acts <:+ th.prog) :
    ∀ (u : Nat) (b : Thread) (v : Var), ths[u]? = some b → v.KeptBy x → b.prog.head? ≠ some (.wr v) := by
  intro u b v hu hv hw
  have hinv := (NInv.start (strict := false) hp (fun h => by cases h)).run hrun
  have htr := (Tracked.start uses).run hrun
  obtain ⟨us, done, hus', hd, hh, hone⟩ := htr t th ht
  rw [hus] at hus'; cases hus'
  obtain ⟨c1, hc1⟩ := hopen
  obtain ⟨c2, hc2⟩ := hnot
  have hmidacts : mid.flatMap Use.acts = c1 ++ c2 := by
    rw [List.flatMap_append, ← hc2, ← List.append_assoc] at hc1
    exact (List.append_cancel_right hc1).symm
  have hdone : done = (pre ++ [Use.iterOpen x n]).flatMap Use.acts ++ c1 := by
    have : pre ++ Use.iterOpen x n :: (mid ++ Use.iterClose x n tr :: post) = (pre ++ [Use.iterOpen x n]) ++ (mid ++ Use.iterClose x n tr :: post) := by simp
    rw [this, List.flatMap_append, ← hc1, ← List.append_assoc] at hd
    exact (List.append_cancel_right hd).symm
  have hpu := hp _ (List.mem_of_getElem? hus)
  have hsplit : pre ++ Use.iterOpen x n :: (mid ++ Use.iterClose x n tr :: post) = (pre ++ [Use.iterOpen x n]) ++ (mid ++ Use.iterClose x n tr :: post) := by simp
  rw [hsplit] at hpu
  obtain ⟨hb, hp2⟩ := exec_base (us := pre ++ [Use.iterOpen x n]) Base.nil hpu
  have hin : (n, x) ∈ afterAll [] (pre ++ [Use.iterOpen x n]) := by
    unfold afterAll
    rw [List.foldl_append]
    exact List.mem_cons_self ..
  obtain ⟨⟨m1, h1⟩, m2, h2⟩ := keeps_uses hb hp2 hin hmid hmidacts
  rw [← execHeld_append, ← hdone, ← hh] at h1 h2
  -- the write lock excludes that
  have hcov : coverWr b.held v := by
    have hn := hinv.nice u b hu
    cases hbp : b.prog with
    | nil => rw [hbp] at hw; cases hw
    | cons a p =>
      rw [hbp] at hw hn
      cases hw
      exact hn.1
  have excl : ∀ l m, (l, m) ∈ th.held → (l, Mode.wr) ∈ b.held → t = u ∧ (l, Mode.wr) ∈ th.held := by
    intro l m hm hwb
    by_cases htu : t = u
    · subst htu; rw [ht] at hu; cases hu; exact ⟨rfl, hwb⟩
    · exact absurd hm (hinv.excl u t b th hu ht (fun h => htu h.symm) l hwb m)
  -- and the thread itself has taken it for reading
  have hself : ∀ l, l = .tree ∨ l = .tx x → (l, Mode.wr) ∉ th.held := by
    intro l hl
    rw [hh, hdone, execHeld_append]
    rw [hdone] at hone
    refine hone.right.stays (hb.wr l) fun a b e => ?_
    have hk := keeps_uses hb hp2 hin hmid (a := a) (b := b ++ c2) (by rw [hmidacts, e, List.append_assoc])
    rcases hl with rfl | rfl
    · exact hk.1
    · exact hk.2
  cases v with
  | tx y =>
    have hy : y = x := hv
    subst hy
    exact hself _ (.inr rfl) (excl _ _ h2 hcov).2
  | head => exact hself _ (.inl rfl) (excl _ _ h1 hcov).2
  | state => exact hself _ (.inl rfl) (excl _ _ h1 hcov).2
  | history => exact hself _ (.inl rfl) (excl _ _ h1 hcov).2
  | out => exact hself _ (.inl rfl) (excl _ _ h1 hcov).2
  | table => exact hv
  | iter k => exact hv

/-- One thread iterates over a transaction and asks for a value in another one meanwhile. -/
def beside : List Use := [.iterOpen 0 0, .iterNext 0 0 [true], .call (.txGet 1 [false]), .iterNext 0 0 [], .iterClose 0 0 false]

/-- The full C84, which would need only that no thread stands in its own way, is false: while one thread iterates over transaction 0 and looks a key up in transaction 1, another one commits
transaction 1. Both are proper, neither clashes with its own iterators, both finish alone, and together they deadlock, whatever the lock does with waiting writers. -/
theorem C84_false : ∃ uses : List (List Use), (∀ us ∈ uses, Proper [] us ∧ Unhindered [] us) ∧
    ∃ sched ths, nestRun (startUses uses) sched = some ths ∧ ∀ pref, Jammed pref ths := by
  refine ⟨[beside, [.call (.txCommit 1 [true] 0)]], ?_, List.replicate 15 0 ++ [1], _, rfl, fun pref => ⟨⟨_, List.mem_cons_self .., by simp [Use.acts, Call.acts]⟩, fun t => ?_⟩⟩
  · simp [beside, Proper, Unhindered, Use.Clashes, Use.changesTx, Call.changesTx, Use.changesDb, Call.changesDb, Use.during, Use.after]
  · match t with
    | 0 => cases pref <;> rfl
    | 1 => cases pref <;> rfl
    | t + 2 => rfl

/-- With locks that make readers wait behind writers, looking a key up in the transaction one iterates over is enough: another thread that waits to insert into it stops the lookup, and the
iterator stops the insert. -/
theorem C84_waiting_writer_false : ∃ uses : List (List Use), (∀ us ∈ uses, Proper [] us ∧ Unhindered [] us) ∧
    ∃ (sched : List Nat) (ths : List Thread), sched.foldlM (nestStep true) (startUses uses) = some ths ∧ Jammed true ths ∧ ¬ Jammed false ths := by
  refine ⟨[[.iterOpen 0 0, .call (.txGet 0 []), .iterClose 0 0 false], [.call .root, .call (.txInsert 0 [])]], ?_, [0, 0, 0, 1, 1, 1], _, rfl,
    ⟨⟨_, List.mem_cons_self .., by simp [Use.acts, Call.acts]⟩, fun t => ?_⟩, fun h => ?_⟩
  · simp [Proper, Unhindered, Use.Clashes, Use.changesTx, Call.changesTx, Use.changesDb, Call.changesDb, Use.during, Use.after]
  · match t with
    | 0 => rfl
    | 1 => rfl
    | t + 2 => rfl
  · have := h.2 0
    revert this
    decide

/-- One thread that has an iterator open and asks the database for a value under an older root never gets an answer: opening an older root needs the database for writing. -/
theorem C84_older_root_false : ∃ us : List Use, Proper [] us ∧
    ∃ k th, nestRun (startUses [us]) (List.replicate k 0) = some [th] ∧ ∀ pref, Jammed pref [th] := by
  refine ⟨[.iterOpen 0 0, .call (.txCreate 1 true [false]), .call (.txGet 1 [false]), .call (.txDestroy 1), .iterClose 0 0 false], by simp [Proper], ?_⟩
  obtain ⟨k, th, rest, h1, -, -, -, h2⟩ := (C84_alone [.iterOpen 0 0, .call (.txCreate 1 true [false]), .call (.txGet 1 [false]), .call (.txDestroy 1), .iterClose 0 0 false]
    (by simp [Proper])).2 [.iterOpen 0 0] (.call (.txCreate 1 true [false])) _ rfl
    (by simp [Unhindered, Use.Clashes, Use.changesTx, Use.changesDb]) (.inr ⟨rfl, by simp [afterAll, Use.during, Use.after]⟩)
  exact ⟨k, th, h1, h2⟩

/-- The hypotheses of `C84_no_deadlock_partial` and `C84_iterator_is_stable` are met: two iterators open at once, a lookup in a third transaction meanwhile, and another thread that opens an
older root, inserts, proves and commits. -/
def besides : List (List Use) :=
  [[.iterOpen 0 0, .iterOpen 1 1, .iterNext 0 0 [true], .call (.txGet 1 [false]), .call (.txRoot 3 true), .iterClose 0 0 false, .iterNext 1 1 [], .iterClose 1 1 true],
   [.call (.txCreate 2 true [false]), .call (.txInsert 2 []), .call (.txProve 2 true [true]), .call (.txCommit 2 [true] 1), .call .root, .call (.txCommit 0 [] 0)]]

theorem C84_example : Apart besides := by
  have lt : ∀ {t : Nat} {us : List Use}, besides[t]? = some us → (t = 0 ∧ us = besides[0]) ∨ (t = 1 ∧ us = besides[1]) := by
    intro t us h
    match t with
    | 0 => cases h; exact .inl ⟨rfl, rfl⟩
    | 1 => cases h; exact .inr ⟨rfl, rfl⟩
    | t + 2 => cases h
  constructor
  · have e1 : [((1 : Nat), (1 : Nat)), (0, 0)].erase (0, 0) = [(1, 1)] := rfl
    simp [besides, Proper, e1]
  · have e1 : [((1 : Nat), (1 : Nat)), (0, 0)].erase (0, 0) = [(1, 1)] := rfl
    simp [besides, Unhindered, Use.Clashes, Use.changesTx, Call.changesTx, Use.changesDb, Call.changesDb, Use.during, Use.after, e1]
  all_goals
    intro t u us vs ht hu htu
    rcases lt ht with ⟨rfl, rfl⟩ | ⟨rfl, rfl⟩ <;> rcases lt hu with ⟨rfl, rfl⟩ | ⟨rfl, rfl⟩ <;> first | exact absurd rfl htu | skip
    all_goals simp [besides, nestedUses, Use.iters, Use.readsTx, Call.readsTx, Use.changesTx, Call.changesTx, Use.during, Use.after, Use.upgrades, List.erase]

/-- In the run of `C84_example` where the first thread has opened its iterator and the second one goes as far as it can, `C84_iterator_is_stable` applies. -/
theorem C84_stable_example : ∃ ths th, nestRun (startUses besides) (List.replicate 3 0 ++ List.replicate 3 1) = some ths ∧ ths[0]? = some th ∧
    (∀ (u : Nat) (b : Thread) (v : Var), ths[u]? = some b → v.KeptBy 0 → b.prog.head? ≠ some (.wr v)) ∧ ∃ b, ths[1]? = some b ∧ b.prog ≠ [] ∧ nestStep false ths 1 = none := by
  refine ⟨_, _, rfl, rfl, ?_, _, rfl, by simp [Use.acts, Call.acts], rfl⟩
  exact C84_iterator_is_stable besides C84_example.proper (List.replicate 3 0 ++ List.replicate 3 1) _ rfl 0 _ rfl [] [.iterOpen 1 1, .iterNext 0 0 [true], .call (.txGet 1 [false]), .call (.txRoot 3 true)]
    [.iterNext 1 1 [], .iterClose 1 1 true] 0 0 false rfl (by simp) (List.suffix_refl _) (by
      exact ⟨[.iterOpen 1 1, .iterNext 0 0 [true], .call (.txGet 1 [false]), .call (.txRoot 3 true)].flatMap Use.acts, rfl⟩)

end Urkel
