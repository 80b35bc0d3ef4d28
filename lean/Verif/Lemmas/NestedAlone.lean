import Verif.Lemmas.Nested
/-
Programs with open iterators: what a thread holds, and one thread by itself.
-/
namespace Urkel

/-- The locks held after some steps. -/
def execHeld : List (Lock × Mode) → List Act → List (Lock × Mode)
  | h, [] => h
  | h, .acq l m :: p => execHeld ((l, m) :: h) p
  | h, .rel l :: p => execHeld (h.eraseP fun x => x.1 = l) p
  | h, .rd _ :: p => execHeld h p
  | h, .wr _ :: p => execHeld h p

theorem execHeld_append : ∀ (a b : List Act) (h : List (Lock × Mode)), execHeld h (a ++ b) = execHeld (execHeld h a) b
  | [], _, _ => rfl
  | .acq l m :: a, b, h => execHeld_append a b _
  | .rel l :: a, b, h => execHeld_append a b _
  | .rd _ :: a, b, h => execHeld_append a b _
  | .wr _ :: a, b, h => execHeld_append a b _

/-- May a thread that is alone take the lock? -/
def Avail (h : List (Lock × Mode)) (l : Lock) (m : Mode) : Prop := (l, Mode.wr) ∉ h ∧ (m = .wr → ∀ m', (l, m') ∉ h)

/-- Can a thread that is alone take all the steps? -/
def SoloOk : List (Lock × Mode) → List Act → Prop
  | _, [] => True
  | h, .acq l m :: p => Avail h l m ∧ SoloOk ((l, m) :: h) p
  | h, .rel l :: p => SoloOk (h.eraseP fun x => x.1 = l) p
  | h, .rd _ :: p => SoloOk h p
  | h, .wr _ :: p => SoloOk h p

theorem SoloOk.append : ∀ {a b : List Act} {h : List (Lock × Mode)}, SoloOk h a → SoloOk (execHeld h a) b → SoloOk h (a ++ b)
  | [], _, _, _, hb => hb
  | .acq l m :: a, b, h, ha, hb => ⟨ha.1, SoloOk.append ha.2 hb⟩
  | .rel l :: a, b, h, ha, hb => SoloOk.append (a := a) ha hb
  | .rd _ :: a, b, h, ha, hb => SoloOk.append (a := a) ha hb
  | .wr _ :: a, b, h, ha, hb => SoloOk.append (a := a) ha hb

theorem SoloOk.left : ∀ {a b : List Act} {h : List (Lock × Mode)}, SoloOk h (a ++ b) → SoloOk h a
  | [], _, _, _ => trivial
  | .acq l m :: a, b, h, ha => ⟨ha.1, SoloOk.left ha.2⟩
  | .rel l :: a, b, h, ha => SoloOk.left (a := a) (b := b) ha
  | .rd _ :: a, b, h, ha => SoloOk.left (a := a) (b := b) ha
  | .wr _ :: a, b, h, ha => SoloOk.left (a := a) (b := b) ha

theorem Nice.solo {free : Lock → Mode → Prop} : ∀ {p : List Act} {h : List (Lock × Mode)}, Nice true free h p → SoloOk h p
  | [], _, _ => trivial
  | .acq l m :: a, h, ha => ⟨⟨(ha.1 rfl).selfRd, (ha.1 rfl).selfWr⟩, Nice.solo ha.2⟩
  | .rel l :: a, h, ha => Nice.solo (p := a) ha
  | .rd _ :: a, h, ha => Nice.solo (p := a) ha.2
  | .wr _ :: a, h, ha => Nice.solo (p := a) ha.2

/-- Giving up everything. -/
theorem nice_rels {strict : Bool} {free : Lock → Mode → Prop} : ∀ h : List (Lock × Mode), Nice strict free h (h.map fun x => Act.rel x.1)
  | [] => rfl
  | (l, m) :: h => by
    show Nice _ _ (List.eraseP _ _) _
    rw [erase_front]
    exact nice_rels h

theorem step_solo {pref : Bool} {h : List (Lock × Mode)} {l : Lock} {m : Mode} {p : List Act} :
    lockFree pref [⟨h, .acq l m :: p⟩] l m = true ↔ Avail h l m := by
  cases m with
  | wr =>
    simp only [lockFree, List.any_cons, List.any_nil, Bool.or_false, Bool.not_eq_true', Avail, forall_const]
    constructor
    · intro e
      have : ∀ m', (l, m') ∉ h := fun m' hm => by
        have := (holds_iff (th := ⟨h, .acq l .wr :: p⟩)).2 ⟨m', hm⟩
        rw [e] at this; cases this
      exact ⟨this _, this⟩
    · rintro ⟨-, e⟩
      rw [← Bool.not_eq_true]
      intro hh
      obtain ⟨m', hm⟩ := holds_iff.1 hh
      exact e m' hm
  | rd =>
    have hw : Thread.waitsWr ⟨h, .acq l .rd :: p⟩ l = false := by simp [Thread.waitsWr]
    simp only [lockFree, List.any_cons, List.any_nil, Bool.or_false, hw, Bool.and_false, Bool.not_false, Bool.and_true, Bool.not_eq_true', Avail]
    constructor
    · intro e
      refine ⟨fun hm => ?_, fun e => by cases e⟩
      have := (holdsWr_iff (th := ⟨h, .acq l .rd :: p⟩)).2 hm
      rw [e] at this; cases this
    · rintro ⟨e, -⟩
      rw [← Bool.not_eq_true]
      intro hh
      exact e (holdsWr_iff.1 hh)

/-- A thread that is alone takes steps as long as locks are available. -/
theorem run_solo : ∀ (a : List Act) (h : List (Lock × Mode)) (b : List Act), SoloOk h a →
    nestRun [⟨h, a ++ b⟩] (List.replicate a.length 0) = some [⟨execHeld h a, b⟩]
  | [], _, _, _ => rfl
  | .acq l m :: a, h, b, ha => by
    show (nestStep false _ 0).bind _ = _
    have : nestStep false [⟨h, .acq l m :: (a ++ b)⟩] 0 = some [⟨(l, m) :: h, a ++ b⟩] := by
      show (if lockFree false [⟨h, .acq l m :: (a ++ b)⟩] l m = true then _ else _) = _
      rw [if_pos (step_solo.2 ha.1)]; rfl
    rw [show (Act.acq l m :: a) ++ b = Act.acq l m :: (a ++ b) from rfl, this]
    exact run_solo a _ b ha.2
  | .rel l :: a, h, b, ha => run_solo a _ b ha
  | .rd _ :: a, h, b, ha => run_solo a _ b ha
  | .wr _ :: a, h, b, ha => run_solo a _ b ha

theorem exec_readActs (h : List (Lock × Mode)) (b : Bool) : execHeld h (readActs b) = h := by
  cases b <;> simp [readActs, execHeld]

theorem exec_flatMap {α : Type} {f : α → List Act} {h : List (Lock × Mode)} (hf : ∀ a, execHeld h (f a) = h) : ∀ l : List α, execHeld h (l.flatMap f) = h
  | [] => rfl
  | a :: l => by rw [List.flatMap_cons, execHeld_append, hf a, exec_flatMap hf l]

theorem exec_readsActs (h : List (Lock × Mode)) (ms : List Bool) : execHeld h (readsActs ms) = h := exec_flatMap (exec_readActs h) ms

theorem exec_historyActs (h : List (Lock × Mode)) (ms : List Bool) : execHeld h (historyActs ms) = h := by
  unfold historyActs
  rw [execHeld_append]
  refine exec_flatMap (fun b => ?_) ms
  rw [execHeld_append]
  show execHeld (execHeld h (readActs b)) _ = _
  rw [exec_readActs]; rfl

theorem exec_appendActs (h : List (Lock × Mode)) (b : Bool) : execHeld h (appendActs b) = h := by
  cases b <;> simp [appendActs, execHeld]

theorem exec_evict (h : List (Lock × Mode)) : ∀ n, execHeld h (List.replicate n [Act.rd .table, .acq .files .wr, .wr .table, .rel .files]).flatten = h
  | 0 => rfl
  | n + 1 => by
    rw [List.replicate_succ, List.flatten_cons, execHeld_append, show execHeld h [Act.rd .table, .acq .files .wr, .wr .table, .rel .files] = h by simp [execHeld]]
    exact exec_evict h n

theorem Call.exec (c : Call) (h : List (Lock × Mode)) (hi : ∀ x n ns t, c ≠ .iterate x n ns t) : execHeld h c.acts = h := by
  cases c with
  | iterate x n ns t => exact absurd rfl (hi x n ns t)
  | txCreate x w ms => cases w <;> simp [Call.acts, execHeld, execHeld_append, exec_historyActs]
  | txRoot x w => cases w <;> simp [Call.acts, execHeld, execHeld_append]
  | txProve x w ms => cases w <;> simp [Call.acts, execHeld, execHeld_append, exec_readsActs]
  | txCommit x rolls ev =>
    simp only [Call.acts, execHeld, execHeld_append, exec_flatMap (exec_appendActs _) rolls, exec_evict, List.cons_append, List.append_assoc, List.nil_append]
    simp
  | _ => simp [Call.acts, execHeld, execHeld_append, exec_readsActs, exec_historyActs]

/-- One step of `Proper`. -/
def Use.Suits (o : List (Nat × Nat)) : Use → Prop
  | .call c => ∀ x n ns t, c ≠ .iterate x n ns t
  | .iterOpen _ n => ∀ y, (n, y) ∉ o
  | .iterNext x n _ => (n, x) ∈ o
  | .iterClose x n _ => (n, x) ∈ o

theorem Proper.cons {o : List (Nat × Nat)} {d : Use} {us : List Use} (h : Proper o (d :: us)) : d.Suits o ∧ Proper (d.after o) us := by
  cases d with
  | call c => cases c <;> first | exact ⟨(fun _ _ _ _ e => by cases e), h⟩ | exact absurd h id
  | iterOpen x n => exact h
  | iterNext x n ms => exact h
  | iterClose x n t => exact h

theorem Use.exec_base {d : Use} {held : List (Lock × Mode)} {o : List (Nat × Nat)} (hb : Base held o) (hs : d.Suits o) : Base (execHeld held d.acts) (d.after o) := by
  cases d with
  | call c => rw [show execHeld held (Use.call c).acts = held from c.exec held hs]; exact hb
  | iterOpen x n => exact hb.openIter x n
  | iterNext x n ms =>
    have : execHeld held (Use.iterNext x n ms).acts = held := by simp [Use.acts, execHeld, execHeld_append, exec_readsActs]
    rw [this]; exact hb
  | iterClose x n t =>
    have : execHeld held (Use.iterClose x n t).acts = (held.eraseP fun h => h.1 = .tree).eraseP fun h => h.1 = .tx x := by
      cases t <;> simp [Use.acts, execHeld, execHeld_append]
    rw [this]; exact hb.closeIter hs

theorem exec_base : ∀ {us : List Use} {vs : List Use} {held : List (Lock × Mode)} {o : List (Nat × Nat)}, Base held o → Proper o (us ++ vs) →
    Base (execHeld held (us.flatMap Use.acts)) (afterAll o us) ∧ Proper (afterAll o us) vs
  | [], vs, held, o, hb, hp => ⟨hb, hp⟩
  | d :: us, vs, held, o, hb, hp => by
    rw [List.flatMap_cons, execHeld_append]
    exact exec_base (us := us) (Use.exec_base hb (Proper.cons hp).1) (Proper.cons hp).2

theorem Use.solo {d : Use} {held : List (Lock × Mode)} {o : List (Nat × Nat)} (hb : Base held o) (hs : d.Suits o) (hc : ¬ d.Clashes o) : SoloOk held d.acts := by
  have hcond : Cond (fun _ _ => True) o d := ⟨hc, fun _ _ _ => trivial, fun _ _ _ => ⟨trivial, trivial⟩, fun _ _ => trivial⟩
  cases d with
  | call c =>
    exact (Nice.solo (c.even (strict := true) (free := fun _ _ => True) hb (fun _ => hcond) hs _ (nice_rels held))).left
  | iterOpen x n => exact ⟨⟨hb.wr _, fun e => by cases e⟩, ⟨(hb.acq_tree1 (free := fun _ _ => True) (m := .rd) (fun e => by cases e)).selfRd, fun e => by cases e⟩, trivial⟩
  | iterNext x n ms =>
    have ho : o ≠ [] := List.ne_nil_of_mem hs
    refine ⟨⟨hb.wr _, fun _ => hb.iter n⟩, ?_⟩
    refine SoloOk.append (a := [Act.wr (.iter n), Act.rd (.tx x)] ++ readsActs ms) (b := [Act.rel (.iter n)]) ?_ trivial
    refine (Nice.solo (free := fun _ _ => True) (readsActs_even (strict := true) (hb.files4 ho n) ms _ (nice_rels _))).left
  | iterClose x n t =>
    have hb' := hb.closeIter hs
    refine ⟨⟨hb.wr _, fun _ => hb.iter n⟩, ?_⟩
    cases t with
    | false => trivial
    | true =>
      have ha := hb'.acq_tx3 (free := fun _ _ => True) (n := n) (hcond.noTx (List.mem_singleton.2 rfl)) (fun _ => trivial)
      have he : ((((Lock.iter n, Mode.wr) :: held).eraseP fun h => h.1 = .tree).eraseP fun h => h.1 = .tx x) =
          (Lock.iter n, Mode.wr) :: ((held.eraseP fun h => h.1 = .tree).eraseP fun h => h.1 = .tx x) := by simp
      show SoloOk ((((Lock.iter n, Mode.wr) :: held).eraseP fun h => h.1 = .tree).eraseP fun h => h.1 = .tx x) _
      rw [he]
      exact ⟨⟨ha.selfRd, ha.selfWr⟩, trivial⟩

theorem solo_uses : ∀ {us : List Use} {vs : List Use} {held : List (Lock × Mode)} {o : List (Nat × Nat)}, Base held o → Proper o (us ++ vs) → Unhindered o us →
    SoloOk held (us.flatMap Use.acts)
  | [], _, _, _, _, _, _ => trivial
  | d :: us, vs, held, o, hb, hp, hf => by
    rw [List.flatMap_cons]
    exact (Use.solo hb (Proper.cons hp).1 hf.1).append (solo_uses (us := us) (Use.exec_base hb (Proper.cons hp).1) (Proper.cons hp).2 hf.2)

/-- The steps of a call that clashes lead to a lock that is not available. -/
theorem Use.blocks {d : Use} {held : List (Lock × Mode)} {o : List (Nat × Nat)} (hb : Base held o) (hs : d.Suits o) (hc : d.Clashes o) :
    ∃ a l m b, d.acts = a ++ Act.acq l m :: b ∧ SoloOk held a ∧ ¬ Avail (execHeld held a) l m := by
  have noTx : ∀ x n, (n, x) ∈ o → ¬ Avail held (.tx x) .wr := by
    intro x n hn ha
    obtain ⟨m, hm⟩ := (hb.tx_mem x).2 ⟨n, hn⟩
    exact ha.2 rfl m hm
  have noTree : o ≠ [] → ¬ Avail held .tree .wr := by
    intro ho ha
    obtain ⟨m, hm⟩ := hb.tree_mem.2 ho
    exact ha.2 rfl m hm
  have noTree1 : ∀ x, o ≠ [] → ¬ Avail ((.tx x, .wr) :: held) .tree .wr := by
    intro x ho ha
    obtain ⟨m, hm⟩ := hb.tree_mem.2 ho
    exact ha.2 rfl m (List.mem_cons_of_mem _ hm)
  have rdTx : ∀ x, Avail held (.tx x) .rd := fun x => ⟨hb.wr _, fun e => by cases e⟩
  have rdTree : Avail held .tree .rd := ⟨hb.wr _, fun e => by cases e⟩
  -- a call that first takes the transaction for writing and then the database
  have both : ∀ (x : Nat) (rest : List Act), ((∃ n, (n, x) ∈ o) ∨ o ≠ []) → ∃ a l m b, Act.acq (.tx x) .wr :: Act.acq .tree .wr :: rest = a ++ Act.acq l m :: b ∧
      SoloOk held a ∧ ¬ Avail (execHeld held a) l m := by
    intro x rest h
    by_cases hx : ∃ n, (n, x) ∈ o
    · obtain ⟨n, hn⟩ := hx
      exact ⟨[], _, _, _, rfl, trivial, noTx x n hn⟩
    · have ho : o ≠ [] := by rcases h with h | h; exact absurd h hx; exact h
      refine ⟨[.acq (.tx x) .wr], _, _, _, rfl, ⟨⟨hb.wr _, fun _ m hm => hx ((hb.tx_mem x).1 ⟨m, hm⟩)⟩, trivial⟩, noTree1 x ho⟩
  cases d with
  | iterOpen x n => rcases hc with ⟨y, hy, -⟩ | ⟨h, -⟩; cases hy; cases h
  | iterNext x n ms => rcases hc with ⟨y, hy, -⟩ | ⟨h, -⟩; cases hy; cases h
  | iterClose x n t =>
    cases t with
    | false => rcases hc with ⟨y, hy, -⟩ | ⟨h, -⟩; cases hy; cases h
    | true =>
      rcases hc with ⟨y, hy, k, hk⟩ | ⟨h, -⟩
      · cases List.mem_singleton.1 hy
        have hb' := hb.closeIter hs
        obtain ⟨m, hm⟩ := (hb'.tx_mem x).2 ⟨k, hk⟩
        refine ⟨[.acq (.iter n) .wr, .wr (.iter n), .rel .tree, .rel (.tx x)], .tx x, .wr, _, rfl, ⟨⟨hb.wr _, fun _ => hb.iter n⟩, trivial⟩, fun ha => ?_⟩
        have he : execHeld held [.acq (.iter n) .wr, .wr (.iter n), .rel .tree, .rel (.tx x)] =
          (Lock.iter n, Mode.wr) :: ((held.eraseP fun h => h.1 = .tree).eraseP fun h => h.1 = .tx x) := by simp [execHeld]
        rw [he] at ha
        exact ha.2 rfl m (List.mem_cons_of_mem _ hm)
      · cases h
  | call c =>
    have hc : (∃ x ∈ c.changesTx, ∃ n, (n, x) ∈ o) ∨ (c.changesDb = true ∧ o ≠ []) := hc
    show ∃ a l m b, c.acts = a ++ Act.acq l m :: b ∧ SoloOk held a ∧ ¬ Avail (execHeld held a) l m
    have one : ∀ x, c.changesTx = [x] → c.changesDb = false → ∃ n, (n, x) ∈ o := by
      intro x h1 h2
      rw [h1, h2] at hc
      rcases hc with ⟨y, hy, h⟩ | ⟨h, -⟩
      · cases List.mem_singleton.1 hy; exact h
      · cases h
    have two : ∀ x, c.changesTx = [x] → (∃ n, (n, x) ∈ o) ∨ o ≠ [] := by
      intro x h1
      rw [h1] at hc
      rcases hc with ⟨y, hy, h⟩ | ⟨-, h⟩
      · cases List.mem_singleton.1 hy; exact .inl h
      · exact .inr h
    have none' : c.changesTx = [] → c.changesDb = true ∧ o ≠ [] := by
      intro h1
      rw [h1] at hc
      rcases hc with ⟨y, hy, h⟩ | h
      · cases hy
      · exact h
    cases c with
    | root => cases (none' rfl).1
    | txGet _ _ => cases (none' rfl).1
    | txHas _ _ => cases (none' rfl).1
    | iterate x n ns t => exact absurd rfl (hs x n ns t)
    | inject ms => exact ⟨[], _, _, _, rfl, trivial, noTree (none' rfl).2⟩
    | txCreate x w ms =>
      cases w with
      | false => cases (none' rfl).1
      | true =>
        refine ⟨[.acq .tree .rd, .rd .head, .rel .tree], .tree, .wr, .rd .head :: historyActs ms ++ [.rel .tree], ?_, ⟨rdTree, trivial⟩, ?_⟩
        · simp [Call.acts]
        · simp only [execHeld]; rw [erase_front]; exact noTree (none' rfl).2
    | txDestroy x => obtain ⟨n, hn⟩ := one x rfl rfl; exact ⟨[], _, _, _, rfl, trivial, noTx x n hn⟩
    | txClear x => obtain ⟨n, hn⟩ := one x rfl rfl; exact ⟨[], _, _, _, rfl, trivial, noTx x n hn⟩
    | txInsert x ms => obtain ⟨n, hn⟩ := one x rfl rfl; exact ⟨[], _, _, _, rfl, trivial, noTx x n hn⟩
    | txRemove x ms => obtain ⟨n, hn⟩ := one x rfl rfl; exact ⟨[], _, _, _, rfl, trivial, noTx x n hn⟩
    | txRoot x w =>
      cases w with
      | false => cases (none' rfl).1
      | true =>
        obtain ⟨n, hn⟩ := one x rfl rfl
        refine ⟨[.acq (.tx x) .rd, .rd (.tx x), .rel (.tx x)], .tx x, .wr, _, rfl, ⟨rdTx x, trivial⟩, ?_⟩
        simp only [execHeld]; rw [erase_front]; exact noTx x n hn
    | txProve x w ms =>
      cases w with
      | false => cases (none' rfl).1
      | true =>
        obtain ⟨n, hn⟩ := one x rfl rfl
        refine ⟨[.acq (.tx x) .rd, .acq .tree .rd, .rd (.tx x), .rel (.tx x)], .tx x, .wr, _, rfl, ⟨rdTx x, ?_, trivial⟩, ?_⟩
        · exact ⟨(hb.acq_tree1 (free := fun _ _ => True) (m := .rd) (fun e => by cases e)).selfRd, fun e => by cases e⟩
        · have he : execHeld held [.acq (.tx x) .rd, .acq .tree .rd, .rd (.tx x), .rel (.tx x)] = (.tree, .rd) :: held := by simp [execHeld]
          rw [he]
          intro ha
          obtain ⟨m, hm⟩ := (hb.tx_mem x).2 ⟨n, hn⟩
          exact ha.2 rfl m (List.mem_cons_of_mem _ hm)
    | txInject x ms => exact both x _ (two x rfl)
    | txCommit x rolls ev => exact both x _ (two x rfl)

/-- How often a lock has been taken and not given back in some steps, beginning with `k`; `none` if it is given back too often. -/
def balance (l : Lock) : Nat → List Act → Option Nat
  | k, [] => some k
  | k, .acq l' _ :: p => balance l (if l' = l then k + 1 else k) p
  | k, .rel l' :: p => if l' = l then (if k = 0 then none else balance l (k - 1) p) else balance l k p
  | k, .rd _ :: p => balance l k p
  | k, .wr _ :: p => balance l k p

theorem balance_append (l : Lock) : ∀ (a b : List Act) (k : Nat), balance l k (a ++ b) = (balance l k a).bind fun k => balance l k b
  | [], _, _ => rfl
  | .acq l' m :: a, b, k => balance_append l a b _
  | .rel l' :: a, b, k => by
    show balance l k (.rel l' :: (a ++ b)) = _
    rw [balance, balance]
    split
    · split
      · rfl
      · exact balance_append l a b _
    · exact balance_append l a b k
  | .rd _ :: a, b, k => balance_append l a b _
  | .wr _ :: a, b, k => balance_append l a b _

theorem balance_readActs (l : Lock) (k : Nat) (b : Bool) : balance l k (readActs b) = some k := by
  by_cases h : Lock.files = l <;> cases b <;> simp [readActs, balance, h]

theorem balance_flatMap {α : Type} {f : α → List Act} {l : Lock} {k : Nat} (hf : ∀ a, balance l k (f a) = some k) : ∀ xs : List α, balance l k (xs.flatMap f) = some k
  | [] => rfl
  | a :: xs => by rw [List.flatMap_cons, balance_append, hf a]; exact balance_flatMap hf xs

theorem balance_readsActs (l : Lock) (k : Nat) (ms : List Bool) : balance l k (readsActs ms) = some k := balance_flatMap (balance_readActs l k) ms

theorem balance_historyActs (l : Lock) (k : Nat) (ms : List Bool) : balance l k (historyActs ms) = some k := by
  unfold historyActs
  rw [balance_append]
  show balance l k _ = _
  refine balance_flatMap (fun b => ?_) ms
  rw [balance_append, balance_readActs]; rfl

theorem balance_appendActs (l : Lock) (k : Nat) (b : Bool) : balance l k (appendActs b) = some k := by
  by_cases h : Lock.files = l <;> cases b <;> simp [appendActs, balance, h]

theorem balance_evict (l : Lock) (k : Nat) : ∀ n, balance l k (List.replicate n [Act.rd .table, .acq .files .wr, .wr .table, .rel .files]).flatten = some k
  | 0 => rfl
  | n + 1 => by
    rw [List.replicate_succ, List.flatten_cons, balance_append,
      show balance l k [Act.rd .table, .acq .files .wr, .wr .table, .rel .files] = some k by by_cases h : Lock.files = l <;> simp [balance, h]]
    exact balance_evict l k n

theorem Call.balance (c : Call) (l : Lock) (k : Nat) (hi : ∀ x n ns t, c ≠ .iterate x n ns t) : balance l k c.acts = some k := by
  cases c with
  | iterate x n ns t => exact absurd rfl (hi x n ns t)
  | root => by_cases h : Lock.tree = l <;> simp [Call.acts, Urkel.balance, h]
  | inject ms => by_cases h : Lock.tree = l <;> simp [Call.acts, Urkel.balance, balance_append, balance_historyActs, h]
  | txCreate x w ms => by_cases h : Lock.tree = l <;> cases w <;> simp [Call.acts, Urkel.balance, balance_append, balance_historyActs, h]
  | txDestroy x => by_cases h : Lock.tx x = l <;> simp [Call.acts, Urkel.balance, h]
  | txRoot x w => by_cases h : Lock.tx x = l <;> cases w <;> simp [Call.acts, Urkel.balance, balance_append, h]
  | txProve x w ms =>
    by_cases h : Lock.tx x = l
    · subst h; cases w <;> simp [Call.acts, Urkel.balance, balance_append, balance_readsActs]
    · by_cases h2 : Lock.tree = l <;> cases w <;> simp [Call.acts, Urkel.balance, balance_append, balance_readsActs, h, h2]
  | txCommit x rolls ev =>
    by_cases h : Lock.tx x = l
    · subst h; simp [Call.acts, Urkel.balance, balance_append, balance_flatMap (balance_appendActs _ _) rolls, balance_evict]
    · by_cases h2 : Lock.tree = l <;> simp [Call.acts, Urkel.balance, balance_append, balance_flatMap (balance_appendActs _ _) rolls, balance_evict, h, h2]
  | txClear x =>
    by_cases h : Lock.tx x = l
    · subst h; simp [Call.acts, Urkel.balance]
    · by_cases h2 : Lock.tree = l <;> simp [Call.acts, Urkel.balance, h, h2]
  | txInject x ms =>
    by_cases h : Lock.tx x = l
    · subst h; simp [Call.acts, Urkel.balance, balance_append, balance_historyActs]
    · by_cases h2 : Lock.tree = l <;> simp [Call.acts, Urkel.balance, balance_append, balance_historyActs, h, h2]
  | txGet x ms | txHas x ms | txInsert x ms | txRemove x ms =>
    by_cases h : Lock.tx x = l
    · subst h; simp [Call.acts, Urkel.balance, balance_append, balance_readsActs]
    · by_cases h2 : Lock.tree = l <;> simp [Call.acts, Urkel.balance, balance_append, balance_readsActs, h, h2]

/-- How often a lock is held. -/
def holdCount (h : List (Lock × Mode)) (l : Lock) : Nat := h.countP fun x => x.1 = l

theorem holdCount_pos {h : List (Lock × Mode)} {l : Lock} (hp : 0 < holdCount h l) : ∃ m, (l, m) ∈ h := by
  obtain ⟨⟨l', m⟩, hm, e⟩ := List.countP_pos_iff.1 hp
  simp only [decide_eq_true_eq] at e
  subst e; exact ⟨m, hm⟩

/-- In the middle of steps that keep the balance, a lock is held as often as before. -/
theorem hold_mid (l : Lock) (c : Nat) : ∀ (a b : List Act) (k : Nat) (h : List (Lock × Mode)), (balance l k (a ++ b)).isSome → c + k ≤ holdCount h l →
    c ≤ holdCount (execHeld h a) l
  | [], _, k, h, _, hk => by show c ≤ holdCount h l; omega
  | .acq l' m :: a, b, k, h, hs, hk => by
    refine hold_mid l c a b _ _ hs ?_
    unfold holdCount at hk ⊢
    rw [List.countP_cons]
    by_cases e : l' = l
    · subst e; simp; omega
    · simp [e]; omega
  | .rel l' :: a, b, k, h, hs, hk => by
    have hs : (balance l k (.rel l' :: (a ++ b))).isSome := hs
    rw [balance] at hs
    unfold holdCount at hk
    split at hs
    · rename_i e
      subst e
      split at hs
      · cases hs
      · refine hold_mid l' c a b (k - 1) _ hs ?_
        unfold holdCount
        rw [countP_eraseP_same]; omega
    · rename_i e
      refine hold_mid l c a b k _ hs ?_
      unfold holdCount
      rw [countP_eraseP_other (by intro x hx; simp only [decide_eq_true_eq] at hx; simp [hx, e])]
      omega
  | .rd _ :: a, b, k, h, hs, hk => hold_mid l c a b k h hs hk
  | .wr _ :: a, b, k, h, hs, hk => hold_mid l c a b k h hs hk

/-- While a thread makes a call that does not close its iterator `n`, it keeps the locks of the transaction and the database. -/
theorem Use.keeps {d : Use} {held : List (Lock × Mode)} {o : List (Nat × Nat)} (hb : Base held o) (hs : d.Suits o) {x n : Nat} (hn : (n, x) ∈ d.during o)
    {a b : List Act} (hab : d.acts = a ++ b) : (∃ m, (Lock.tree, m) ∈ execHeld held a) ∧ ∃ m, (Lock.tx x, m) ∈ execHeld held a := by
  have htree : holdCount held .tree = o.length := hb.tree
  have htx : holdCount held (.tx x) = o.countP (fun p => p.2 = x) := hb.tx x
  have hin : (n, x) ∈ o := by
    cases d <;> first | exact hn | exact List.mem_of_mem_erase hn
  have h1 : 1 ≤ o.length := List.length_pos_of_mem hin
  have h2 : 1 ≤ o.countP (fun p => p.2 = x) := List.countP_pos_iff.2 ⟨_, hin, by simp⟩
  have simple : (∀ l, (balance l 0 d.acts).isSome) → (∃ m, (Lock.tree, m) ∈ execHeld held a) ∧ ∃ m, (Lock.tx x, m) ∈ execHeld held a := by
    intro hbal
    rw [hab] at hbal
    exact ⟨holdCount_pos (hold_mid .tree 1 a b 0 held (hbal _) (by omega)), holdCount_pos (hold_mid (.tx x) 1 a b 0 held (hbal _) (by omega))⟩
  cases d with
  | call c => exact simple fun l => by rw [show (Use.call c).acts = c.acts from rfl, c.balance l 0 hs]; rfl
  | iterOpen y k => exact simple fun l => rfl
  | iterNext y k ms =>
    refine simple fun l => ?_
    by_cases h : Lock.iter k = l <;> simp [Use.acts, balance, balance_append, balance_readsActs, h]
  | iterClose y k t =>
    have hlen : o.length = (o.erase (k, y)).length + 1 := by
      rw [List.length_erase_of_mem hs]; omega
    have hlen1 : 1 ≤ (o.erase (k, y)).length := List.length_pos_of_mem hn
    have hcnt : (o.erase (k, y)).countP (fun p => p.2 = x) = o.countP (fun p => p.2 = x) - if y = x then 1 else 0 := countP_erase_pair x hs
    have hcnt1 : 1 ≤ (o.erase (k, y)).countP (fun p => p.2 = x) := List.countP_pos_iff.2 ⟨_, hn, by simp⟩
    constructor
    · refine holdCount_pos (hold_mid .tree 1 a b 1 held ?_ (by omega))
      rw [← hab]
      cases t <;> simp [Use.acts, balance]
    · by_cases e : y = x
      · subst e
        rw [if_pos rfl] at hcnt
        refine holdCount_pos (hold_mid (.tx y) 1 a b 1 held ?_ (by omega))
        rw [← hab]
        cases t <;> simp [Use.acts, balance]
      · refine holdCount_pos (hold_mid (.tx x) 1 a b 0 held ?_ (by omega))
        rw [← hab]
        cases t <;> simp [Use.acts, balance, e]

/-- The same for several calls, in the middle of any of them. -/
theorem keeps_uses : ∀ {us vs : List Use} {held : List (Lock × Mode)} {o : List (Nat × Nat)} {x n : Nat} {a b : List Act}, Base held o → Proper o (us ++ vs) → (n, x) ∈ o →
    (∀ t, Use.iterClose x n t ∉ us) → us.flatMap Use.acts = a ++ b → (∃ m, (Lock.tree, m) ∈ execHeld held a) ∧ ∃ m, (Lock.tx x, m) ∈ execHeld held a
  | [], vs, held, o, x, n, a, b, hb, hp, hn, hc, e => by
    have ha : a = [] := by cases a with | nil => rfl | cons _ _ => cases e
    subst ha
    exact ⟨hb.tree_mem.2 (List.ne_nil_of_mem hn), (hb.tx_mem x).2 ⟨n, hn⟩⟩
  | d :: us, vs, held, o, x, n, a, b, hb, hp, hn, hc, e => by
    have hp' := Proper.cons hp
    have hdur : (n, x) ∈ d.during o := by
      cases d with
      | iterClose y k t =>
        have hne : (n, x) ≠ (k, y) := by
          intro h; cases h
          exact hc t (List.mem_cons_self ..)
        exact (List.mem_erase_of_ne hne).2 hn
      | call _ => exact hn
      | iterOpen _ _ => exact hn
      | iterNext _ _ _ => exact hn
    have haft : (n, x) ∈ d.after o := by
      cases d with
      | iterClose y k t => exact hdur
      | iterOpen _ _ => exact List.mem_cons_of_mem _ hn
      | call _ => exact hn
      | iterNext _ _ _ => exact hn
    rw [List.flatMap_cons] at e
    rcases List.append_eq_append_iff.1 e with ⟨a', rfl, h2⟩ | ⟨b', h1, -⟩
    · rw [execHeld_append]
      exact keeps_uses (us := us) (Use.exec_base hb hp'.1) hp'.2 haft (fun t ht => hc t (List.mem_cons_of_mem _ ht)) h2
    · exact Use.keeps hb hp'.1 hdur h1

end Urkel
