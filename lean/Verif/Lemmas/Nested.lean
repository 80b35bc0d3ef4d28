import Verif.Spec.Nested
import Verif.Lemmas.Locks
import Verif.Props.Locks
/-
Programs with open iterators: a discipline, and running alone.
-/
namespace Urkel

/-- Two holds of a lock that exclude each other. -/
def Conflict (m m' : Mode) : Prop := m = .wr ∨ m' = .wr

/-- When a thread that holds `held` may ask for a lock. `free l m`: no other thread ever takes `l` in a conflicting mode. -/
structure AcqOk (free : Lock → Mode → Prop) (held : List (Lock × Mode)) (l : Lock) (m : Mode) : Prop where
  files : ∀ m', (Lock.files, m') ∉ held
  tree : (Lock.tree, Mode.wr) ∈ held → l = .files
  selfWr : m = .wr → ∀ m', (l, m') ∉ held
  selfRd : (l, Mode.wr) ∉ held
  iter : ∀ n, l = .iter n → free l m
  tx : ∀ x, l = .tx x → (∃ m', (Lock.tree, m') ∈ held) → free l m
  order : ∀ x, l = .tx x → (∃ y m', (Lock.tx y, m') ∈ held) → ∃ m', (Lock.tree, m') ∈ held

/-- The discipline. -/
def Nice (strict : Bool) (free : Lock → Mode → Prop) : List (Lock × Mode) → List Act → Prop
  | held, [] => held = []
  | held, .acq l m :: p => (strict = true → AcqOk free held l m) ∧ Nice strict free ((l, m) :: held) p
  | held, .rel l :: p => Nice strict free (held.eraseP fun h => h.1 = l) p
  | held, .rd v :: p => coverRd held v ∧ Nice strict free held p
  | held, .wr v :: p => coverWr held v ∧ Nice strict free held p

/-- A block that leaves the locks as they were. -/
def Even (strict : Bool) (free : Lock → Mode → Prop) (held : List (Lock × Mode)) (b : List Act) : Prop :=
  ∀ p, Nice strict free held p → Nice strict free held (b ++ p)

section
variable {strict : Bool} {free : Lock → Mode → Prop} {held : List (Lock × Mode)}

theorem Even.nil : Even strict free held [] := fun _ h => h

theorem Even.append {b c : List Act} (hb : Even strict free held b) (hc : Even strict free held c) : Even strict free held (b ++ c) := by
  intro p hp
  rw [List.append_assoc]
  exact hb _ (hc _ hp)

theorem Even.flatMap {α : Type} {f : α → List Act} (h : ∀ a, Even strict free held (f a)) : ∀ l : List α, Even strict free held (l.flatMap f)
  | [] => Even.nil
  | a :: l => by rw [List.flatMap_cons]; exact (h a).append (Even.flatMap h l)

theorem Even.flatten {b : List Act} (h : Even strict free held b) : ∀ n, Even strict free held (List.replicate n b).flatten
  | 0 => Even.nil
  | n + 1 => by rw [List.replicate_succ, List.flatten_cons]; exact h.append (Even.flatten h n)

theorem erase_front {l : Lock} {m : Mode} : ((l, m) :: held).eraseP (fun h => decide (h.1 = l)) = held := by simp

theorem acq_files (h : FilesOk held) (m : Mode) : AcqOk free held .files m where
  files m' hm := h.free _ hm rfl
  tree _ := rfl
  selfWr _ m' hm := h.free _ hm rfl
  selfRd hm := h.free _ hm rfl
  iter n e := by cases e
  tx x e := by cases e
  order x e := by cases e

theorem readActs_even (h : FilesOk held) (miss : Bool) : Even strict free held (readActs miss) := by
  obtain ⟨mt, hmt⟩ := h.tree
  intro p hp
  have c1 : coverRd held .out := ⟨mt, hmt⟩
  have c2 : ∀ m, coverRd ((Lock.files, m) :: held) .table := fun m => .inr ⟨⟨m, List.mem_cons_self ..⟩, mt, List.mem_cons_of_mem _ hmt⟩
  have c3 : coverWr ((Lock.files, .wr) :: held) .table := .inr ⟨List.mem_cons_self .., mt, List.mem_cons_of_mem _ hmt⟩
  cases miss with
  | false =>
    simp only [readActs, Bool.false_eq_true, if_false, List.append_nil, List.cons_append, List.nil_append]
    refine ⟨c1, fun _ => acq_files h _, c2 _, ?_⟩
    dsimp only [Nice]
    rw [erase_front]
    exact ⟨c1, hp⟩
  | true =>
    simp only [readActs, if_true, List.cons_append, List.nil_append]
    refine ⟨c1, fun _ => acq_files h _, c2 _, ?_⟩
    dsimp only [Nice]
    rw [erase_front]
    refine ⟨fun _ => acq_files h _, c3, ?_⟩
    rw [erase_front]
    exact ⟨c1, hp⟩

theorem readsActs_even (h : FilesOk held) (misses : List Bool) : Even strict free held (readsActs misses) := Even.flatMap (fun m => readActs_even h m) misses

theorem historyActs_even (h : FilesOk held) (hw : (Lock.tree, Mode.wr) ∈ held) (misses : List Bool) : Even strict free held (historyActs misses) := by
  have h1 : Even strict free held [.rd .state, .rd .history] := fun p hp => ⟨⟨_, hw⟩, ⟨_, hw⟩, hp⟩
  exact h1.append (Even.flatMap (fun m => (readActs_even h m).append (c := [.wr .history]) fun p hp => ⟨hw, hp⟩) misses)

theorem appendActs_even (h : FilesOk held) (hw : (Lock.tree, Mode.wr) ∈ held) (roll : Bool) : Even strict free held (appendActs roll) := by
  have hw' : ∀ m, (Lock.tree, Mode.wr) ∈ ((Lock.files, m) :: held) := fun m => List.mem_cons_of_mem _ hw
  intro p hp
  cases roll with
  | false => exact ⟨hw, hp⟩
  | true =>
    simp only [appendActs, if_true, List.cons_append, List.nil_append]
    refine ⟨⟨_, hw⟩, fun _ => acq_files h _, .inl (hw' _), ?_⟩
    dsimp only [Nice]
    rw [erase_front]
    refine ⟨.inl hw, fun _ => acq_files h _, .inl (hw' _), ?_⟩
    rw [erase_front]
    refine ⟨fun _ => acq_files h _, .inl (hw' _), ?_⟩
    rw [erase_front]
    exact ⟨hw, hp⟩

theorem evictActs_even (h : FilesOk held) (hw : (Lock.tree, Mode.wr) ∈ held) :
    Even strict free held [.rd .table, .acq .files .wr, .wr .table, .rel .files] := by
  intro p hp
  refine ⟨.inl hw, fun _ => acq_files h _, .inl (List.mem_cons_of_mem _ hw), ?_⟩
  show Nice strict free (List.eraseP _ _) p
  rw [erase_front]
  exact hp

end

theorem countP_eraseP_same {α : Type} (p : α → Bool) : ∀ l : List α, (l.eraseP p).countP p = l.countP p - 1
  | [] => rfl
  | a :: l => by
    rw [List.eraseP_cons]
    cases h : p a with
    | true => simp [List.countP_cons, h]
    | false =>
      rw [cond_false, List.countP_cons, List.countP_cons, countP_eraseP_same p l, h]
      simp

theorem countP_eraseP_other {α : Type} {p q : α → Bool} (hpq : ∀ a, p a = true → q a = false) : ∀ l : List α, (l.eraseP p).countP q = l.countP q
  | [] => rfl
  | a :: l => by
    rw [List.eraseP_cons]
    cases h : p a with
    | true => simp [List.countP_cons, hpq a h]
    | false => rw [cond_false, List.countP_cons, List.countP_cons, countP_eraseP_other hpq l]

theorem countP_erase_pair (y : Nat) {p : Nat × Nat} : ∀ {o : List (Nat × Nat)}, p ∈ o → (o.erase p).countP (fun q => q.2 = y) = o.countP (fun q => q.2 = y) - if p.2 = y then 1 else 0
  | [], h => by cases h
  | a :: o, h => by
    rw [List.erase_cons]
    by_cases e : a = p
    · subst e
      simp [List.countP_cons]
    · have hm : p ∈ o := by rcases List.mem_cons.1 h with h | h; exact absurd h.symm e; exact h
      have ih := countP_erase_pair y hm
      rw [if_neg (by simpa using e), List.countP_cons, List.countP_cons, ih]
      split
      · rename_i hp
        have : 0 < o.countP (fun q => q.2 = y) := List.countP_pos_iff.2 ⟨p, hm, by simpa using hp⟩
        omega
      · omega

/-- What a thread with the open iterators `o` holds between two calls. -/
structure Base (held : List (Lock × Mode)) (o : List (Nat × Nat)) : Prop where
  mode : ∀ l m, (l, m) ∈ held → m = .rd
  files : ∀ m, (Lock.files, m) ∉ held
  iter : ∀ n m, (Lock.iter n, m) ∉ held
  tree : held.countP (fun h => h.1 = .tree) = o.length
  tx : ∀ x, held.countP (fun h => h.1 = .tx x) = o.countP (fun p => p.2 = x)

theorem Base.nil : Base [] [] := ⟨fun _ _ h => (nomatch h), fun _ h => (nomatch h), fun _ _ h => (nomatch h), rfl, fun _ => rfl⟩

theorem Base.tree_mem {held : List (Lock × Mode)} {o : List (Nat × Nat)} (h : Base held o) : (∃ m, (Lock.tree, m) ∈ held) ↔ o ≠ [] := by
  have e := h.tree
  rw [← List.length_pos_iff, ← e, List.countP_pos_iff]
  constructor
  · rintro ⟨m, hm⟩; exact ⟨_, hm, by simp⟩
  · rintro ⟨⟨l, m⟩, hm, hl⟩
    simp only [decide_eq_true_eq] at hl
    subst hl; exact ⟨m, hm⟩

theorem Base.tx_mem {held : List (Lock × Mode)} {o : List (Nat × Nat)} (h : Base held o) (x : Nat) : (∃ m, (Lock.tx x, m) ∈ held) ↔ ∃ n, (n, x) ∈ o := by
  have e := h.tx x
  have h1 : (∃ m, (Lock.tx x, m) ∈ held) ↔ 0 < held.countP (fun h => h.1 = .tx x) := by
    rw [List.countP_pos_iff]
    constructor
    · rintro ⟨m, hm⟩; exact ⟨_, hm, by simp⟩
    · rintro ⟨⟨l, m⟩, hm, hl⟩
      simp only [decide_eq_true_eq] at hl
      subst hl; exact ⟨m, hm⟩
  rw [h1, e, List.countP_pos_iff]
  constructor
  · rintro ⟨⟨n, y⟩, hm, hl⟩
    simp only [decide_eq_true_eq] at hl
    subst hl; exact ⟨n, hm⟩
  · rintro ⟨n, hm⟩; exact ⟨_, hm, by simp⟩

theorem Base.wr {held : List (Lock × Mode)} {o : List (Nat × Nat)} (h : Base held o) (l : Lock) : (l, Mode.wr) ∉ held := fun hm => by cases h.mode _ _ hm

theorem Base.files_ok {held : List (Lock × Mode)} {o : List (Nat × Nat)} (h : Base held o) (ho : o ≠ []) : FilesOk held :=
  ⟨fun ⟨l, m⟩ hm e => by dsimp only at e; subst e; exact h.files _ hm, h.tree_mem.2 ho⟩

theorem Base.openIter {held : List (Lock × Mode)} {o : List (Nat × Nat)} (h : Base held o) (x n : Nat) :
    Base ((.tree, .rd) :: (.tx x, .rd) :: held) ((n, x) :: o) where
  mode l m hm := by
    rcases List.mem_cons.1 hm with e | hm
    · cases e; rfl
    rcases List.mem_cons.1 hm with e | hm
    · cases e; rfl
    exact h.mode l m hm
  files m hm := by
    rcases List.mem_cons.1 hm with e | hm
    · cases e
    rcases List.mem_cons.1 hm with e | hm
    · cases e
    exact h.files m hm
  iter n m hm := by
    rcases List.mem_cons.1 hm with e | hm
    · cases e
    rcases List.mem_cons.1 hm with e | hm
    · cases e
    exact h.iter n m hm
  tree := by simp [h.tree]
  tx y := by
    rw [List.countP_cons, List.countP_cons, List.countP_cons, h.tx y]
    by_cases hxy : x = y
    · subst hxy; simp
    · simp [hxy]

theorem Base.closeIter {held : List (Lock × Mode)} {o : List (Nat × Nat)} (h : Base held o) {x n : Nat} (hm : (n, x) ∈ o) :
    Base ((held.eraseP fun h => h.1 = .tree).eraseP fun h => h.1 = .tx x) (o.erase (n, x)) where
  mode l m hl := h.mode l m (List.mem_of_mem_eraseP (List.mem_of_mem_eraseP hl))
  files m hl := h.files m (List.mem_of_mem_eraseP (List.mem_of_mem_eraseP hl))
  iter k m hl := h.iter k m (List.mem_of_mem_eraseP (List.mem_of_mem_eraseP hl))
  tree := by
    rw [countP_eraseP_other (by intro a ha; simp only [decide_eq_true_eq] at ha; simp [ha]), countP_eraseP_same, h.tree, List.length_erase_of_mem hm]
  tx y := by
    rw [countP_erase_pair y hm]
    by_cases hxy : x = y
    · subst hxy
      rw [countP_eraseP_same, countP_eraseP_other (by intro a ha; simp only [decide_eq_true_eq] at ha; simp [ha]), h.tx x, if_pos rfl]
    · rw [countP_eraseP_other (by intro a ha; simp only [decide_eq_true_eq] at ha; simp [ha, hxy]),
        countP_eraseP_other (by intro a ha; simp only [decide_eq_true_eq] at ha; simp [ha]), h.tx y, if_neg hxy]
      rfl

section
variable {strict : Bool} {free : Lock → Mode → Prop} {held : List (Lock × Mode)} {o : List (Nat × Nat)}

theorem Base.acq_tx (h : Base held o) {x : Nat} {m : Mode} (hc : m = .wr → ∀ n, (n, x) ∉ o) (hf : o ≠ [] → free (.tx x) m) : AcqOk free held (.tx x) m where
  files := h.files
  tree e := absurd e (h.wr _)
  selfWr e m' hm := by obtain ⟨n, hn⟩ := (h.tx_mem x).1 ⟨m', hm⟩; exact hc e n hn
  selfRd := h.wr _
  iter n e := by cases e
  tx y _ e := hf (h.tree_mem.1 e)
  order y _ e := by
    obtain ⟨z, m', hm⟩ := e
    obtain ⟨n, hn⟩ := (h.tx_mem z).1 ⟨m', hm⟩
    exact h.tree_mem.2 (List.ne_nil_of_mem hn)

theorem Base.acq_tree (h : Base held o) {m : Mode} (hc : m = .wr → o = []) : AcqOk free held .tree m where
  files := h.files
  tree e := absurd e (h.wr _)
  selfWr e m' hm := h.tree_mem.1 ⟨m', hm⟩ (hc e)
  selfRd := h.wr _
  iter n e := by cases e
  tx y e := by cases e
  order y e := by cases e

theorem Base.acq_tree1 (h : Base held o) {x : Nat} {m m2 : Mode} (hc : m = .wr → o = []) : AcqOk free ((.tx x, m2) :: held) .tree m where
  files m' hm := by rcases List.mem_cons.1 hm with e | hm; cases e; exact h.files _ hm
  tree e := by rcases List.mem_cons.1 e with e | e; cases e; exact absurd e (h.wr _)
  selfWr e m' hm := by rcases List.mem_cons.1 hm with e' | hm; cases e'; exact h.tree_mem.1 ⟨m', hm⟩ (hc e)
  selfRd e := by rcases List.mem_cons.1 e with e | e; cases e; exact h.wr _ e
  iter n e := by cases e
  tx y e := by cases e
  order y e := by cases e

theorem Base.acq_tx2 (h : Base held o) {x : Nat} (hc : ∀ n, (n, x) ∉ o) (hf : free (.tx x) .wr) : AcqOk free ((.tree, .rd) :: held) (.tx x) .wr where
  files m' hm := by rcases List.mem_cons.1 hm with e | hm; cases e; exact h.files _ hm
  tree e := by rcases List.mem_cons.1 e with e | e; cases e; exact absurd e (h.wr _)
  selfWr e m' hm := by
    rcases List.mem_cons.1 hm with e' | hm
    · cases e'
    · obtain ⟨n, hn⟩ := (h.tx_mem x).1 ⟨m', hm⟩; exact hc n hn
  selfRd e := by rcases List.mem_cons.1 e with e | e; cases e; exact h.wr _ e
  iter n e := by cases e
  tx y _ _ := hf
  order y _ _ := ⟨_, List.mem_cons_self ..⟩

theorem Base.acq_iter (h : Base held o) {n : Nat} (hf : free (.iter n) .wr) : AcqOk free held (.iter n) .wr where
  files := h.files
  tree e := absurd e (h.wr _)
  selfWr _ m' hm := h.iter n m' hm
  selfRd := h.wr _
  iter _ _ := hf
  tx y e := by cases e
  order y e := by cases e

theorem Base.acq_tx3 (h : Base held o) {x n : Nat} (hc : ∀ n, (n, x) ∉ o) (hf : o ≠ [] → free (.tx x) .wr) : AcqOk free ((.iter n, .wr) :: held) (.tx x) .wr where
  files m' hm := by rcases List.mem_cons.1 hm with e | hm; cases e; exact h.files _ hm
  tree e := by rcases List.mem_cons.1 e with e | e; cases e; exact absurd e (h.wr _)
  selfWr e m' hm := by
    rcases List.mem_cons.1 hm with e' | hm
    · cases e'
    · obtain ⟨n, hn⟩ := (h.tx_mem x).1 ⟨m', hm⟩; exact hc n hn
  selfRd e := by rcases List.mem_cons.1 e with e | e; cases e; exact h.wr _ e
  iter n e := by cases e
  tx y _ e := by
    obtain ⟨m', hm⟩ := e
    rcases List.mem_cons.1 hm with e' | hm
    · cases e'
    · exact hf (h.tree_mem.1 ⟨m', hm⟩)
  order y _ e := by
    obtain ⟨z, m', hm⟩ := e
    rcases List.mem_cons.1 hm with e' | hm
    · cases e'
    · obtain ⟨n, hn⟩ := (h.tx_mem z).1 ⟨m', hm⟩
      obtain ⟨m2, h2⟩ := h.tree_mem.2 (List.ne_nil_of_mem hn)
      exact ⟨m2, List.mem_cons_of_mem _ h2⟩

theorem Base.files1 (h : Base held o) (m : Mode) : FilesOk ((.tree, m) :: held) :=
  ⟨fun ⟨l, m⟩ hm e => by
    dsimp only at e; subst e
    rcases List.mem_cons.1 hm with e | hm
    · cases e
    · exact h.files _ hm, m, List.mem_cons_self ..⟩

theorem Base.files2 (h : Base held o) (x : Nat) (m m2 : Mode) : FilesOk ((.tree, m) :: (.tx x, m2) :: held) :=
  ⟨fun ⟨l, m⟩ hm e => by
    dsimp only at e; subst e
    rcases List.mem_cons.1 hm with e | hm
    · cases e
    rcases List.mem_cons.1 hm with e | hm
    · cases e
    · exact h.files _ hm, m, List.mem_cons_self ..⟩

theorem Base.files3 (h : Base held o) (x : Nat) (m m2 : Mode) : FilesOk ((.tx x, m2) :: (.tree, m) :: held) :=
  ⟨fun ⟨l, m⟩ hm e => by
    dsimp only at e; subst e
    rcases List.mem_cons.1 hm with e | hm
    · cases e
    rcases List.mem_cons.1 hm with e | hm
    · cases e
    · exact h.files _ hm, m, List.mem_cons_of_mem _ (List.mem_cons_self ..)⟩

theorem Base.files4 (h : Base held o) (ho : o ≠ []) (n : Nat) : FilesOk ((.iter n, .wr) :: held) :=
  ⟨fun ⟨l, m⟩ hm e => by
    dsimp only at e; subst e
    rcases List.mem_cons.1 hm with e | hm
    · cases e
    · exact h.files _ hm, by obtain ⟨m, hm⟩ := h.tree_mem.2 ho; exact ⟨m, List.mem_cons_of_mem _ hm⟩⟩

/-- What strict discipline asks of a call made with `o` open. -/
structure Cond (free : Lock → Mode → Prop) (o : List (Nat × Nat)) (d : Use) : Prop where
  fits : ¬ d.Clashes o
  rd : d.during o ≠ [] → ∀ x ∈ d.readsTx, free (.tx x) .rd
  wr : d.during o ≠ [] ∨ d.upgrades = true → ∀ x ∈ d.changesTx, free (.tx x) .wr ∧ free (.tx x) .rd
  iter : ∀ n ∈ d.iters, free (.iter n) .wr

theorem Cond.noTx {d : Use} (h : Cond free o d) {x : Nat} (hx : x ∈ d.changesTx) : ∀ n, (n, x) ∉ d.during o :=
  fun n hn => h.fits (.inl ⟨x, hx, n, hn⟩)

theorem Cond.noDb {d : Use} (h : Cond free o d) (hx : d.changesDb = true) : d.during o = [] :=
  Decidable.byContradiction fun hn => h.fits (.inr ⟨hx, hn⟩)

local macro "step" : tactic => `(tactic| (show Nice _ _ (List.eraseP _ _) _; first | rw [erase_front] | (rw [List.eraseP_cons_of_neg (by simp), erase_front])))

theorem Call.even (c : Call) (hb : Base held o) (hc : strict = true → Cond free o (.call c)) (hi : ∀ x n ns t, c ≠ .iterate x n ns t) : Even strict free held c.acts := by
  intro p hp
  cases c with
  | root =>
    refine ⟨fun hs => hb.acq_tree (fun h => by cases h), ⟨_, List.mem_cons_self ..⟩, ?_⟩
    step; exact hp
  | inject misses =>
    have hf := hb.files1 .wr
    simp only [Call.acts, List.cons_append, List.append_assoc]
    refine ⟨fun hs => hb.acq_tree (fun _ => (hc hs).noDb rfl), ?_⟩
    refine historyActs_even hf (List.mem_cons_self ..) _ _ ⟨List.mem_cons_self .., ?_⟩
    step; exact hp
  | txCreate x w misses =>
    cases w with
    | false =>
      refine ⟨fun hs => hb.acq_tree (fun h => by cases h), ⟨_, List.mem_cons_self ..⟩, ⟨_, List.mem_cons_self ..⟩, ⟨_, List.mem_cons_self ..⟩, ?_⟩
      step; exact hp
    | true =>
      have hf := hb.files1 .wr
      simp only [Call.acts, List.cons_append, List.append_assoc, if_true, List.nil_append]
      refine ⟨fun hs => hb.acq_tree (fun h => by cases h), ⟨_, List.mem_cons_self ..⟩, ?_⟩
      step
      refine ⟨fun hs => hb.acq_tree (fun _ => (hc hs).noDb rfl), ⟨_, List.mem_cons_self ..⟩, ?_⟩
      refine historyActs_even hf (List.mem_cons_self ..) _ _ ?_
      step; exact hp
  | txDestroy x =>
    refine ⟨fun hs => hb.acq_tx (fun _ => (hc hs).noTx (List.mem_singleton.2 rfl)) (fun ho => ((hc hs).wr (.inl ho) x (List.mem_singleton.2 rfl)).1), List.mem_cons_self .., ?_⟩
    step; exact hp
  | txClear x =>
    refine ⟨fun hs => hb.acq_tx (fun _ => (hc hs).noTx (List.mem_singleton.2 rfl)) (fun ho => ((hc hs).wr (.inl ho) x (List.mem_singleton.2 rfl)).1),
      fun hs => hb.acq_tree1 (fun h => by cases h), ?_, ⟨_, List.mem_cons_self ..⟩, ?_, ?_⟩
    · exact List.mem_cons_of_mem _ (List.mem_cons_self ..)
    · exact List.mem_cons_of_mem _ (List.mem_cons_self ..)
    · step; step; exact hp
  | txRoot x w =>
    cases w with
    | false =>
      refine ⟨fun hs => hb.acq_tx (fun h => by cases h) (fun ho => (hc hs).rd ho x (List.mem_singleton.2 rfl)), ⟨_, List.mem_cons_self ..⟩, ⟨_, List.mem_cons_self ..⟩, ?_⟩
      step; exact hp
    | true =>
      refine ⟨fun hs => hb.acq_tx (fun h => by cases h) (fun ho => ((hc hs).wr (.inl ho) x (List.mem_singleton.2 rfl)).2), ⟨_, List.mem_cons_self ..⟩, ?_⟩
      step
      refine ⟨fun hs => hb.acq_tx (fun _ => (hc hs).noTx (List.mem_singleton.2 rfl)) (fun ho => ((hc hs).wr (.inl ho) x (List.mem_singleton.2 rfl)).1), List.mem_cons_self .., ?_⟩
      step; exact hp
  | txInject x misses =>
    have hf := hb.files2 x .wr .wr
    simp only [Call.acts, List.cons_append, List.append_assoc, List.nil_append]
    refine ⟨fun hs => hb.acq_tx (fun _ => (hc hs).noTx (List.mem_singleton.2 rfl)) (fun ho => ((hc hs).wr (.inl ho) x (List.mem_singleton.2 rfl)).1),
      fun hs => hb.acq_tree1 (fun _ => (hc hs).noDb rfl), ⟨.wr, List.mem_cons_of_mem _ (List.mem_cons_self ..)⟩, ?_⟩
    refine historyActs_even hf (List.mem_cons_self ..) _ _ ⟨List.mem_cons_of_mem _ (List.mem_cons_self ..), ?_⟩
    step; step; exact hp
  | txGet x misses =>
    have hf := hb.files2 x .rd .rd
    simp only [Call.acts, List.cons_append, List.append_assoc, List.nil_append]
    refine ⟨fun hs => hb.acq_tx (fun h => by cases h) (fun ho => (hc hs).rd ho x (List.mem_singleton.2 rfl)),
      fun hs => hb.acq_tree1 (fun h => by cases h), ⟨.rd, List.mem_cons_of_mem _ (List.mem_cons_self ..)⟩, ?_⟩
    refine readsActs_even hf _ _ ?_
    step; step; exact hp
  | txHas x misses =>
    have hf := hb.files2 x .rd .rd
    simp only [Call.acts, List.cons_append, List.append_assoc, List.nil_append]
    refine ⟨fun hs => hb.acq_tx (fun h => by cases h) (fun ho => (hc hs).rd ho x (List.mem_singleton.2 rfl)),
      fun hs => hb.acq_tree1 (fun h => by cases h), ⟨.rd, List.mem_cons_of_mem _ (List.mem_cons_self ..)⟩, ?_⟩
    refine readsActs_even hf _ _ ?_
    step; step; exact hp
  | txInsert x misses =>
    have hf := hb.files2 x .rd .wr
    simp only [Call.acts, List.cons_append, List.append_assoc, List.nil_append]
    refine ⟨fun hs => hb.acq_tx (fun _ => (hc hs).noTx (List.mem_singleton.2 rfl)) (fun ho => ((hc hs).wr (.inl ho) x (List.mem_singleton.2 rfl)).1),
      fun hs => hb.acq_tree1 (fun h => by cases h), ⟨.wr, List.mem_cons_of_mem _ (List.mem_cons_self ..)⟩, ?_⟩
    refine readsActs_even hf _ _ ⟨List.mem_cons_of_mem _ (List.mem_cons_self ..), ?_⟩
    step; step; exact hp
  | txRemove x misses =>
    have hf := hb.files2 x .rd .wr
    simp only [Call.acts, List.cons_append, List.append_assoc, List.nil_append]
    refine ⟨fun hs => hb.acq_tx (fun _ => (hc hs).noTx (List.mem_singleton.2 rfl)) (fun ho => ((hc hs).wr (.inl ho) x (List.mem_singleton.2 rfl)).1),
      fun hs => hb.acq_tree1 (fun h => by cases h), ⟨.wr, List.mem_cons_of_mem _ (List.mem_cons_self ..)⟩, ?_⟩
    refine readsActs_even hf _ _ ⟨List.mem_cons_of_mem _ (List.mem_cons_self ..), ?_⟩
    step; step; exact hp
  | txProve x w misses =>
    cases w with
    | false =>
      have hf := hb.files2 x .rd .rd
      simp only [Call.acts, Bool.false_eq_true, if_false, List.cons_append, List.append_assoc, List.nil_append]
      refine ⟨fun hs => hb.acq_tx (fun h => by cases h) (fun ho => (hc hs).rd ho x (List.mem_singleton.2 rfl)),
        fun hs => hb.acq_tree1 (fun h => by cases h), ⟨.rd, List.mem_cons_of_mem _ (List.mem_cons_self ..)⟩, ⟨.rd, List.mem_cons_of_mem _ (List.mem_cons_self ..)⟩, ?_⟩
      refine readsActs_even hf _ _ ?_
      step; step; exact hp
    | true =>
      have hf := hb.files3 x .rd .wr
      simp only [Call.acts, if_true, List.cons_append, List.append_assoc, List.nil_append]
      refine ⟨fun hs => hb.acq_tx (fun h => by cases h) (fun ho => ((hc hs).wr (.inl ho) x (List.mem_singleton.2 rfl)).2),
        fun hs => hb.acq_tree1 (fun h => by cases h), ⟨.rd, List.mem_cons_of_mem _ (List.mem_cons_self ..)⟩, ?_⟩
      step
      refine ⟨fun hs => hb.acq_tx2 ((hc hs).noTx (List.mem_singleton.2 rfl)) ((hc hs).wr (.inr rfl) x (List.mem_singleton.2 rfl)).1, List.mem_cons_self .., ?_⟩
      refine readsActs_even hf _ _ ⟨List.mem_cons_self .., ?_⟩
      step; step; exact hp
  | txCommit x rolls evicted =>
    have hf := hb.files2 x .wr .wr
    have ht : (Lock.tree, Mode.wr) ∈ ((Lock.tree, Mode.wr) :: (Lock.tx x, Mode.wr) :: held) := List.mem_cons_self ..
    have hx : (Lock.tx x, Mode.wr) ∈ ((Lock.tree, Mode.wr) :: (Lock.tx x, Mode.wr) :: held) := List.mem_cons_of_mem _ (List.mem_cons_self ..)
    simp only [Call.acts, List.cons_append, List.append_assoc, List.nil_append]
    refine ⟨fun hs => hb.acq_tx (fun _ => (hc hs).noTx (List.mem_singleton.2 rfl)) (fun ho => ((hc hs).wr (.inl ho) x (List.mem_singleton.2 rfl)).1),
      fun hs => hb.acq_tree1 (fun _ => (hc hs).noDb rfl), hx, ht, ⟨_, ht⟩, ?_⟩
    refine Even.flatMap (fun r => appendActs_even hf ht r) rolls _ ⟨ht, ht, .inl ht, ?_⟩
    refine Even.flatten (evictActs_even hf ht) evicted _ ⟨ht, hx, ?_⟩
    step; step; exact hp
  | iterate x n ns t => exact absurd rfl (hi x n ns t)

theorem nice_uses : ∀ (us : List Use) (o : List (Nat × Nat)) (held : List (Lock × Mode)), Base held o → Proper o us →
    (strict = true → Unhindered o us ∧ (∀ d ∈ nestedUses o us, (∀ x ∈ d.readsTx, free (.tx x) .rd) ∧ ∀ x ∈ d.changesTx, free (.tx x) .wr ∧ free (.tx x) .rd) ∧
      ∀ d ∈ us, ∀ n ∈ d.iters, free (.iter n) .wr) → Nice strict free held (us.flatMap Use.acts)
  | [], o, held, hb, hp, _ => by
    have ho : o = [] := hp
    subst ho
    show held = []
    cases held with
    | nil => rfl
    | cons a held =>
      obtain ⟨l, m⟩ := a
      have hm := List.mem_cons_self (a := (l, m)) (l := held)
      cases l with
      | tx x => obtain ⟨n, hn⟩ := (hb.tx_mem x).1 ⟨m, hm⟩; cases hn
      | tree => exact absurd rfl (hb.tree_mem.1 ⟨m, hm⟩)
      | iter n => exact absurd hm (hb.iter n m)
      | files => exact absurd hm (hb.files m)
  | d :: us, o, held, hb, hp, hs => by
    have hcond : strict = true → Cond free o d := by
      intro h
      obtain ⟨h1, h2, h3⟩ := hs h
      have hn : d.during o ≠ [] ∨ d.upgrades = true → d ∈ nestedUses o (d :: us) := by
        intro e
        show d ∈ _ ++ _
        rw [if_pos e]
        exact List.mem_append_left _ (List.mem_singleton.2 rfl)
      exact ⟨h1.1, fun e => (h2 d (hn (.inl e))).1, fun e => (h2 d (hn e)).2, h3 d (List.mem_cons_self ..)⟩
    have hrest : strict = true → Unhindered (d.after o) us ∧ (∀ e ∈ nestedUses (d.after o) us, (∀ x ∈ e.readsTx, free (.tx x) .rd) ∧ ∀ x ∈ e.changesTx, free (.tx x) .wr ∧ free (.tx x) .rd) ∧
        ∀ e ∈ us, ∀ n ∈ e.iters, free (.iter n) .wr := by
      intro h
      obtain ⟨h1, h2, h3⟩ := hs h
      exact ⟨h1.2, fun e he => h2 e (List.mem_append_right _ he), fun e he => h3 e (List.mem_cons_of_mem _ he)⟩
    rw [List.flatMap_cons]
    cases d with
    | call c =>
      have hp' : Proper o us ∧ ∀ x n ns t, c ≠ .iterate x n ns t := by
        cases c <;> first | exact ⟨hp, fun _ _ _ _ e => by cases e⟩ | exact absurd hp id
      exact c.even hb hcond hp'.2 _ (nice_uses us o held hb hp'.1 hrest)
    | iterOpen x n =>
      refine ⟨fun h => hb.acq_tx (fun e => by cases e) (fun ho => (hcond h).rd ho x (List.mem_singleton.2 rfl)), fun h => hb.acq_tree1 (fun e => by cases e),
        ⟨.rd, List.mem_cons_of_mem _ (List.mem_cons_self ..)⟩, ?_⟩
      exact nice_uses us _ _ (hb.openIter x n) hp.2 hrest
    | iterNext x n misses =>
      have ho : o ≠ [] := List.ne_nil_of_mem hp.1
      have hf := hb.files4 ho n
      obtain ⟨m, hm⟩ := (hb.tx_mem x).2 ⟨n, hp.1⟩
      simp only [Use.acts, List.cons_append, List.append_assoc, List.nil_append]
      refine ⟨fun h => hb.acq_iter ((hcond h).iter n (List.mem_singleton.2 rfl)), List.mem_cons_self .., ⟨m, List.mem_cons_of_mem _ hm⟩, ?_⟩
      refine readsActs_even hf _ _ ?_
      step
      exact nice_uses us o held hb hp.2 hrest
    | iterClose x n tr =>
      have hb' := hb.closeIter hp.1
      have hrest' := nice_uses us _ _ hb' hp.2 hrest
      simp only [Use.acts, List.cons_append, List.append_assoc, List.nil_append]
      refine ⟨fun h => hb.acq_iter ((hcond h).iter n (List.mem_singleton.2 rfl)), List.mem_cons_self .., ?_⟩
      show Nice _ _ (List.eraseP _ (List.eraseP _ _)) _
      rw [List.eraseP_cons_of_neg (by simp), List.eraseP_cons_of_neg (by simp)]
      cases tr with
      | false => step; exact hrest'
      | true =>
        simp only [if_true, List.cons_append, List.nil_append]
        refine ⟨fun h => hb'.acq_tx3 ((hcond h).noTx (List.mem_singleton.2 rfl)) (fun ho => ((hcond h).wr (.inl ho) x (List.mem_singleton.2 rfl)).1), List.mem_cons_self .., ?_⟩
        step
        step
        exact hrest'

end

/-- What holds in every state. -/
structure NInv (strict : Bool) (free : Nat → Lock → Mode → Prop) (ths : List Thread) : Prop where
  nice : ∀ (t : Nat) (th : Thread), ths[t]? = some th → Nice strict (free t) th.held th.prog
  excl : ∀ (t u : Nat) (a b : Thread), ths[t]? = some a → ths[u]? = some b → t ≠ u → ∀ l, (l, Mode.wr) ∈ a.held → ∀ m, (l, m) ∉ b.held
  free : ∀ (t u : Nat) (b : Thread), ths[u]? = some b → t ≠ u → ∀ l m m', free t l m → Conflict m m' → (l, m') ∉ b.held ∧ Act.acq l m' ∉ b.prog

theorem NInv.set {strict : Bool} {free : Nat → Lock → Mode → Prop} {ths : List Thread} (h : NInv strict free ths) {t : Nat} {th th' : Thread}
    (ht : ths[t]? = some th) (hd : Nice strict (free t) th'.held th'.prog)
    (hu : ∀ l m, (l, m) ∈ th'.held ∨ Act.acq l m ∈ th'.prog → (l, m) ∈ th.held ∨ Act.acq l m ∈ th.prog)
    (he : ∀ (u : Nat) (b : Thread), ths[u]? = some b → t ≠ u → (∀ l, (l, Mode.wr) ∈ th'.held → ∀ m, (l, m) ∉ b.held) ∧
      ∀ l, (l, Mode.wr) ∈ b.held → ∀ m, (l, m) ∉ th'.held) : NInv strict free (ths.set t th') := by
  have htl : t < ths.length := by
    by_contra hn
    rw [List.getElem?_eq_none (by omega)] at ht; cases ht
  have hset : ∀ (u : Nat) (b : Thread), (ths.set t th')[u]? = some b → (u = t ∧ b = th') ∨ (u ≠ t ∧ ths[u]? = some b) := by
    intro u b hu
    rw [List.getElem?_set] at hu
    by_cases htu : t = u
    · subst htu
      rw [if_pos rfl, if_pos htl] at hu
      exact .inl ⟨rfl, (Option.some.inj hu).symm⟩
    · rw [if_neg htu] at hu
      exact .inr ⟨fun h => htu h.symm, hu⟩
  refine ⟨?_, ?_, ?_⟩
  · intro u b hb
    rcases hset u b hb with ⟨rfl, rfl⟩ | ⟨_, hb⟩
    · exact hd
    · exact h.nice u b hb
  · intro u v a b ha hb huv
    rcases hset u a ha with ⟨rfl, rfl⟩ | ⟨hut, ha2⟩
    · rcases hset v b hb with ⟨rfl, rfl⟩ | ⟨_, hb⟩
      · exact absurd rfl huv
      · exact (he v b hb huv).1
    · rcases hset v b hb with ⟨rfl, rfl⟩ | ⟨_, hb⟩
      · exact (he u a ha2 (fun h => huv h.symm)).2
      · exact h.excl u v a b ha2 hb huv
  · intro u v b hb huv l m m' hl hcf
    rcases hset v b hb with ⟨rfl, rfl⟩ | ⟨_, hb⟩
    · obtain ⟨h1, h2⟩ := h.free u v th ht huv l m m' hl hcf
      constructor
      · intro hx; rcases hu l m' (.inl hx) with e | e; exact h1 e; exact h2 e
      · intro hx; rcases hu l m' (.inr hx) with e | e; exact h1 e; exact h2 e
    · exact h.free u v b hb huv l m m' hl hcf

theorem NInv.step {strict pref : Bool} {free : Nat → Lock → Mode → Prop} {ths ths' : List Thread} (h : NInv strict free ths) {t : Nat}
    (e : nestStep pref ths t = some ths') : NInv strict free ths' := by
  rw [nestStep] at e
  cases ht : ths[t]? with
  | none => rw [ht] at e; cases e
  | some th =>
    rw [ht] at e
    simp only at e
    have hd := h.nice t th ht
    have hkeep : ∀ th' : Thread, (∀ x ∈ th'.held, x ∈ th.held) → ∀ (u : Nat) (b : Thread), ths[u]? = some b → t ≠ u →
        (∀ l, (l, Mode.wr) ∈ th'.held → ∀ m, (l, m) ∉ b.held) ∧ ∀ l, (l, Mode.wr) ∈ b.held → ∀ m, (l, m) ∉ th'.held := by
      intro th' hs u b hb htu
      exact ⟨fun l hl m hm => h.excl t u th b ht hb htu l (hs _ hl) m hm,
        fun l hl m hm => h.excl u t b th hb ht (fun h => htu h.symm) l hl m (hs _ hm)⟩
    cases hp : th.prog with
    | nil => rw [hp] at e; cases e
    | cons a p =>
      rw [hp] at e hd
      have hmem : ∀ l m, Act.acq l m ∈ p → Act.acq l m ∈ th.prog := fun l m hm => by rw [hp]; exact List.mem_cons_of_mem _ hm
      cases a with
      | acq l m =>
        simp only at e
        split at e
        · next hfree =>
          cases e
          refine h.set ht hd.2 ?_ ?_
          · rintro l' m' (hm | hm)
            · rcases List.mem_cons.1 hm with hm | hm
              · cases hm; exact .inr (by rw [hp]; exact List.mem_cons_self ..)
              · exact .inl hm
            · exact .inr (hmem _ _ hm)
          · intro u b hb htu
            have hbm := List.mem_of_getElem? hb
            constructor
            · intro l' hl m' hm
              rcases List.mem_cons.1 hl with hl | hl
              · obtain ⟨rfl, rfl⟩ := Prod.mk.inj hl
                simp only [lockFree, Bool.not_eq_true', List.any_eq_false] at hfree
                exact hfree b hbm (holds_iff.2 ⟨m', hm⟩)
              · exact h.excl t u th b ht hb htu l' hl m' hm
            · intro l' hl m' hm
              rcases List.mem_cons.1 hm with hm | hm
              · obtain ⟨rfl, rfl⟩ := Prod.mk.inj hm
                cases m' with
                | wr =>
                  simp only [lockFree, Bool.not_eq_true', List.any_eq_false] at hfree
                  exact hfree b hbm (holds_iff.2 ⟨_, hl⟩)
                | rd =>
                  simp only [lockFree, Bool.and_eq_true, Bool.not_eq_true', List.any_eq_false] at hfree
                  exact hfree.1 b hbm (holdsWr_iff.2 hl)
              · exact h.excl u t b th hb ht (fun h => htu h.symm) l' hl m' hm
        · cases e
      | rel l =>
        cases e
        refine h.set ht hd ?_ (hkeep _ fun x hx => List.mem_of_mem_eraseP hx)
        rintro l' m' (hm | hm)
        · exact .inl (List.mem_of_mem_eraseP hm)
        · exact .inr (hmem _ _ hm)
      | rd v =>
        cases e
        refine h.set ht hd.2 ?_ (hkeep _ fun x hx => hx)
        rintro l' m' (hm | hm)
        · exact .inl hm
        · exact .inr (hmem _ _ hm)
      | wr v =>
        cases e
        refine h.set ht hd.2 ?_ (hkeep _ fun x hx => hx)
        rintro l' m' (hm | hm)
        · exact .inl hm
        · exact .inr (hmem _ _ hm)

theorem NInv.run {strict : Bool} {free : Nat → Lock → Mode → Prop} : ∀ {sched : List Nat} {ths ths' : List Thread}, NInv strict free ths →
    nestRun ths sched = some ths' → NInv strict free ths'
  | [], ths, ths', h, e => by cases e; exact h
  | t :: sched, ths, ths', h, e => by
    rw [nestRun] at e
    cases e1 : nestStep false ths t with
    | none => rw [e1] at e; cases e
    | some ths1 =>
      rw [e1] at e
      exact NInv.run (h.step e1) e

/-- No race in a state that satisfies the invariant. -/
theorem NInv.no_race {strict : Bool} {free : Nat → Lock → Mode → Prop} {ths : List Thread} (h : NInv strict free ths) : ¬ Race ths := by
  rintro ⟨t, u, a, b, v, htu, ha, hb, hwa, hb2⟩
  have da := h.nice t a ha
  have db := h.nice u b hb
  have hca : coverWr a.held v := by
    cases hp : a.prog with
    | nil => rw [hp] at hwa; cases hwa
    | cons x p =>
      rw [hp] at hwa da
      cases hwa
      exact da.1
  have hcb : coverWr b.held v ∨ coverRd b.held v := by
    cases hp : b.prog with
    | nil => rw [hp] at hb2; rcases hb2 with h | h <;> cases h
    | cons x p =>
      rw [hp] at hb2 db
      rcases hb2 with h | h
      · cases h; exact .inl db.1
      · cases h; exact .inr db.1
  have ex := h.excl t u a b ha hb htu
  have ex' := h.excl u t b a hb ha (fun h => htu h.symm)
  cases v with
  | table =>
    rcases hca with hca | ⟨hca, mt, hmt⟩
    · rcases hcb with (hcb | ⟨_, m, hm⟩) | (hcb | ⟨_, m, hm⟩)
      · exact ex _ hca _ hcb
      · exact ex _ hca _ hm
      · exact ex _ hca _ hcb
      · exact ex _ hca _ hm
    · rcases hcb with (hcb | ⟨hm, _⟩) | (hcb | ⟨⟨m, hm⟩, _⟩)
      · exact ex' _ hcb _ hmt
      · exact ex _ hca _ hm
      · exact ex' _ hcb _ hmt
      · exact ex _ hca _ hm
  | iter n =>
    rcases hcb with hcb | hcb
    · exact ex _ hca _ hcb
    · exact ex _ hca _ hcb
  | _ =>
    rcases hcb with hcb | ⟨m, hcb⟩
    · exact ex _ hca _ hcb
    · exact ex _ hca _ hcb

theorem Nice.unfinished {strict : Bool} {free : Lock → Mode → Prop} {held : List (Lock × Mode)} {p : List Act} (h : Nice strict free held p) {x : Lock × Mode}
    (hx : x ∈ held) : p ≠ [] := by
  rintro rfl
  rw [show held = [] from h] at hx
  cases hx

/-- No deadlock in a state that satisfies the strict invariant, with locks that let readers in while writers wait. -/
theorem NInv.no_jam {free : Nat → Lock → Mode → Prop} {ths : List Thread} (h : NInv true free ths) : ¬ Jammed false ths := by
  rintro ⟨⟨th0, hm0, hne0⟩, hstuck⟩
  -- every unfinished thread waits for a lock that another thread has
  have hwait : ∀ (t : Nat) (th : Thread), ths[t]? = some th → th.prog ≠ [] → ∃ l m, AcqOk (free t) th.held l m ∧
      ∃ (u : Nat) (b : Thread) (m' : Mode), u ≠ t ∧ ths[u]? = some b ∧ (l, m') ∈ b.held ∧ Conflict m m' := by
    intro t th ht hne
    have e := hstuck t
    rw [nestStep, ht] at e
    simp only at e
    have hd := h.nice t th ht
    cases hp : th.prog with
    | nil => exact absurd hp hne
    | cons a p =>
      rw [hp] at e hd
      cases a with
      | acq l m =>
        simp only at e
        split at e
        · cases e
        · next hf =>
          have hok := hd.1 rfl
          refine ⟨l, m, hok, ?_⟩
          have hb : ∃ b ∈ ths, ∃ m', (l, m') ∈ b.held ∧ Conflict m m' := by
            cases m with
            | wr =>
              simp only [lockFree, Bool.not_eq_true', Bool.not_eq_false, List.any_eq_true] at hf
              obtain ⟨b, hb, hh⟩ := hf
              obtain ⟨m', hm'⟩ := holds_iff.1 hh
              exact ⟨b, hb, m', hm', .inl rfl⟩
            | rd =>
              simp only [lockFree, Bool.false_and, Bool.not_false, Bool.and_true, Bool.not_eq_true', Bool.not_eq_false, List.any_eq_true] at hf
              obtain ⟨b, hb, hh⟩ := hf
              exact ⟨b, hb, .wr, holdsWr_iff.1 hh, .inr rfl⟩
          obtain ⟨b, hb, m', hm', hcf⟩ := hb
          obtain ⟨u, hu⟩ := List.getElem?_of_mem hb
          refine ⟨u, b, m', ?_, hu, hm', hcf⟩
          rintro rfl
          rw [ht] at hu; cases hu
          rcases hcf with rfl | rfl
          · exact hok.selfWr rfl _ hm'
          · exact hok.selfRd hm'
      | rel l => cases e
      | rd v => cases e
      | wr v => cases e
  -- a thread that holds the table's lock can go on
  have hfiles : ∀ (t : Nat) (th : Thread) m, ths[t]? = some th → (Lock.files, m) ∉ th.held := by
    intro t th m ht hm
    obtain ⟨l, m2, hok, _⟩ := hwait t th ht ((h.nice t th ht).unfinished hm)
    exact hok.files _ hm
  -- so can one that holds the database's lock for writing
  have htreeWr : ∀ (t : Nat) (th : Thread), ths[t]? = some th → (Lock.tree, Mode.wr) ∉ th.held := by
    intro t th ht hm
    obtain ⟨l, m2, hok, u, b, m', _, hu, hm', _⟩ := hwait t th ht ((h.nice t th ht).unfinished hm)
    rw [hok.tree hm] at hm'
    exact hfiles u b _ hu hm'
  -- and one that holds it for reading
  have htree : ∀ (t : Nat) (th : Thread) m, ths[t]? = some th → (Lock.tree, m) ∉ th.held := by
    intro t th m ht hm
    obtain ⟨l, m2, hok, u, b, m', hut, hu, hm', hcf⟩ := hwait t th ht ((h.nice t th ht).unfinished hm)
    cases l with
    | files => exact hfiles u b _ hu hm'
    | iter n => exact (h.free t u b hu (fun e => hut e.symm) _ _ _ (hok.iter n rfl) hcf).1 hm'
    | tree =>
      rcases hcf with rfl | rfl
      · exact hok.selfWr rfl _ hm
      · exact htreeWr u b hu hm'
    | tx x => exact (h.free t u b hu (fun e => hut e.symm) _ _ _ (hok.tx x rfl ⟨m, hm⟩) hcf).1 hm'
  -- and one that holds a transaction's lock
  have htx : ∀ (t : Nat) (th : Thread) x m, ths[t]? = some th → (Lock.tx x, m) ∉ th.held := by
    intro t th x m ht hm
    obtain ⟨l, m2, hok, u, b, m', hut, hu, hm', hcf⟩ := hwait t th ht ((h.nice t th ht).unfinished hm)
    cases l with
    | files => exact hfiles u b _ hu hm'
    | iter n => exact (h.free t u b hu (fun e => hut e.symm) _ _ _ (hok.iter n rfl) hcf).1 hm'
    | tree => exact htree u b _ hu hm'
    | tx y =>
      obtain ⟨m3, h3⟩ := hok.order y rfl ⟨x, m, hm⟩
      exact htree t th m3 ht h3
  obtain ⟨t0, ht0⟩ := List.getElem?_of_mem hm0
  obtain ⟨l, m2, hok, u, b, m', hut, hu, hm', hcf⟩ := hwait t0 th0 ht0 hne0
  cases l with
  | files => exact hfiles u b _ hu hm'
  | iter n => exact (h.free t0 u b hu (fun e => hut e.symm) _ _ _ (hok.iter n rfl) hcf).1 hm'
  | tree => exact htree u b _ hu hm'
  | tx y => exact htx u b _ _ hu hm'

end Urkel
