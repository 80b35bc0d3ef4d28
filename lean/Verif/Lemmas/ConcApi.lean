import Verif.Spec.ConcApi
import Verif.Lemmas.Conc
import Verif.Lemmas.Locks
/-
Every API call follows two-phase locking.
-/
namespace Urkel

variable {L : Type}

open Act

/-- `Guarded` without the data. -/
def ActsOk : List (Lock × Mode) → List Act → Prop
  | _, [] => True
  | held, .acq l m :: p => (∀ v, guardOf v = l → NoData v) ∧ ActsOk ((l, m) :: held) p
  | held, .rel l :: p => ActsOk (held.filter fun h => h.1 ≠ l) p
  | held, .rd v :: p => (NoData v ∨ ∃ m, (guardOf v, m) ∈ held) ∧ ActsOk held p
  | held, .wr v :: p => (NoData v ∨ (guardOf v, Mode.wr) ∈ held) ∧ ActsOk held p

theorem ActsOk.body : ∀ {p : List (SAct L)} {held : List (Lock × Mode)}, ActsOk held (p.map SAct.act) → Guarded held p
  | [], _, _ => trivial
  | .acq _ _ :: _, _, h => ⟨h.1, h.2.body⟩
  | .rel l :: p, held, h => (ActsOk.body (p := p) (held := held.filter fun h => h.1 ≠ l) h : _)
  | .peek _ :: p, held, h => (ActsOk.body (p := p) (held := held) h.2 : _)
  | .rd _ _ :: _, _, h => ⟨h.1, h.2.body⟩
  | .wr _ _ :: _, _, h => ⟨h.1, h.2.body⟩

/-- Can be put in front. -/
def Neut (held : List (Lock × Mode)) (b : List Act) : Prop := ∀ p, ActsOk held p → ActsOk held (b ++ p)

variable {held : List (Lock × Mode)}

theorem Neut.nil : Neut held [] := fun _ h => h

theorem Neut.append {b c : List Act} (hb : Neut held b) (hc : Neut held c) : Neut held (b ++ c) := by
  intro p hp
  rw [List.append_assoc]
  exact hb _ (hc _ hp)

theorem Neut.flatMap {α : Type} {f : α → List Act} (h : ∀ a, Neut held (f a)) : ∀ l : List α, Neut held (l.flatMap f)
  | [] => Neut.nil
  | a :: l => by rw [List.flatMap_cons]; exact (h a).append (Neut.flatMap h l)

theorem Neut.flatten {b : List Act} (h : Neut held b) : ∀ n, Neut held (List.replicate n b).flatten
  | 0 => Neut.nil
  | n + 1 => by rw [List.replicate_succ, List.flatten_cons]; exact h.append (Neut.flatten h n)

theorem Neut.rd {v : Var} (h : NoData v ∨ ∃ m, (guardOf v, m) ∈ held) : Neut held [rd v] := fun _ hp => ⟨h, hp⟩

theorem Neut.wr {v : Var} (h : NoData v ∨ (guardOf v, Mode.wr) ∈ held) : Neut held [wr v] := fun _ hp => ⟨h, hp⟩

/-- Nothing is known about the locks of the file table and of iterators. -/
def Low (held : List (Lock × Mode)) (l : Lock) : Prop := ∀ h ∈ held, h.1 ≠ l

theorem Low.filter {l : Lock} (h : Low held l) (m : Mode) : (((l, m) :: held).filter fun x => x.1 ≠ l) = held := by
  rw [List.filter_cons]
  simp only [ne_eq, not_true_eq_false, decide_false, Bool.false_eq_true, if_false]
  rw [List.filter_eq_self]
  intro x hx
  simpa using h x hx

/-- A critical section of a lock that protects no data. -/
theorem Neut.section {l : Lock} {b : List Act} (hl : Low held l) (hd : ∀ v, guardOf v = l → NoData v) (m : Mode)
    (hb : Neut ((l, m) :: held) b) : Neut held (acq l m :: b ++ [rel l]) := by
  intro p hp
  rw [List.cons_append, List.cons_append, List.append_assoc]
  refine ⟨hd, hb _ ?_⟩
  show ActsOk (((l, m) :: held).filter fun h => h.1 ≠ l) p
  rw [hl.filter]
  exact hp

theorem noData_files : ∀ v, guardOf v = Lock.files → NoData v := by
  intro v h; cases v <;> first | trivial | cases h

theorem noData_iter {n : Nat} : ∀ v, guardOf v = Lock.iter n → NoData v := by
  intro v h; cases v <;> first | trivial | cases h

theorem neut_table (hf : Low held .files) (m : Mode) : Neut held [acq .files m, wr .table, rel .files] :=
  Neut.section (b := [Act.wr .table]) hf noData_files m (Neut.wr (.inl trivial))

theorem neut_look (hf : Low held .files) (m : Mode) : Neut held [acq .files m, rd .table, rel .files] :=
  Neut.section (b := [Act.rd .table]) hf noData_files m (Neut.rd (.inl trivial))

theorem neut_read (hf : Low held .files) (ht : ∃ m, (Lock.tree, m) ∈ held) (miss : Bool) : Neut held (readActs miss) := by
  unfold readActs
  refine Neut.append (Neut.append (Neut.append (b := [rd .out]) (c := [acq .files .rd, rd .table, rel .files]) (Neut.rd (.inr ht)) (neut_look hf _)) ?_) (Neut.rd (.inr ht))
  cases miss
  · exact Neut.nil
  · exact neut_table hf _

theorem neut_reads (hf : Low held .files) (ht : ∃ m, (Lock.tree, m) ∈ held) (misses : List Bool) : Neut held (readsActs misses) :=
  Neut.flatMap (fun miss => neut_read hf ht miss) misses

theorem neut_history (hf : Low held .files) (ht : (Lock.tree, Mode.wr) ∈ held) (misses : List Bool) : Neut held (historyActs misses) := by
  unfold historyActs
  refine Neut.append (Neut.append (b := [rd .state]) (c := [rd .history]) (Neut.rd (.inr ⟨_, ht⟩)) (Neut.rd (.inr ⟨_, ht⟩))) (Neut.flatMap (fun miss => ?_) misses)
  exact (neut_read hf ⟨_, ht⟩ miss).append (Neut.wr (.inr ht))

theorem neut_append (hf : Low held .files) (ht : (Lock.tree, Mode.wr) ∈ held) (roll : Bool) : Neut held (appendActs roll) := by
  unfold appendActs
  refine Neut.append ?_ (Neut.wr (.inr ht))
  cases roll
  · exact Neut.nil
  · exact Neut.append (b := [rd .out]) (c := [acq .files .rd, rd .table, rel .files, rd .table, acq .files .wr, wr .table, rel .files, acq .files .wr, wr .table, rel .files])
      (Neut.rd (.inr ⟨_, ht⟩)) (Neut.append (neut_look hf _) (Neut.append (b := [rd .table]) (Neut.rd (.inl trivial)) ((neut_table hf _).append (neut_table hf _))))

theorem neut_evict (hf : Low held .files) : Neut held [rd .table, acq .files .wr, wr .table, rel .files] :=
  Neut.append (b := [rd .table]) (Neut.rd (.inl trivial)) (neut_table hf _)

theorem Call.pre_ok (c : Call) : PreOk (c.pre L) := by
  unfold PreOk
  cases c <;> (try cases ‹Bool›) <;> simp [Call.pre]

theorem rels_ok : ∀ {held : List (Lock × Mode)} (ls : List Lock), ActsOk held (ls.map Act.rel)
  | _, [] => trivial
  | held, l :: ls => (rels_ok (held := held.filter fun h => h.1 ≠ l) ls : _)

/-- The locks held after the first part. -/
theorem Call.body_ok (c : Call) (hs : c.single) : ActsOk ((c.pre L).foldl heldAfter []) c.body := by
  have low2 : ∀ (x : Nat) (a b : Mode), Low [(Lock.tree, a), (Lock.tx x, b)] .files := by
    intro x a b h hh; simp only [List.mem_cons, List.not_mem_nil, or_false] at hh; rcases hh with rfl | rfl <;> simp
  have low2' : ∀ (x : Nat) (a b : Mode), Low [(Lock.tx x, b), (Lock.tree, a)] .files := by
    intro x a b h hh; simp only [List.mem_cons, List.not_mem_nil, or_false] at hh; rcases hh with rfl | rfl <;> simp
  have low1 : ∀ a : Mode, Low [(Lock.tree, a)] .files := by
    intro a h hh; simp only [List.mem_cons, List.not_mem_nil, or_false] at hh; subst hh; simp
  cases c with
  | root =>
    show ActsOk [(Lock.tree, Mode.rd)] [rd .head, rel .tree]
    exact ⟨.inr ⟨_, .head _⟩, rels_ok [.tree]⟩
  | inject misses =>
    show ActsOk [(Lock.tree, Mode.wr)] (historyActs misses ++ [wr .head, rel .tree])
    exact neut_history (low1 _) (.head _) _ _ ⟨.inr (.head _), rels_ok [.tree]⟩
  | txCreate x write misses =>
    cases write with
    | false =>
      show ActsOk [(Lock.tree, Mode.rd), (Lock.tx x, Mode.wr)] [rd .head, rd .head, rd .state, rel .tree, wr (.tx x), rel (.tx x)]
      refine ⟨.inr ⟨_, .head _⟩, .inr ⟨_, .head _⟩, .inr ⟨_, .head _⟩, .inr ?_, rels_ok [_]⟩
      simp [guardOf]
    | true =>
      show ActsOk ((Lock.tree, Mode.wr) :: ([(Lock.tree, Mode.rd), (Lock.tx x, Mode.wr)].filter fun h => h.1 ≠ Lock.tree)) (rd .head :: (historyActs misses ++ [rel .tree, wr (.tx x), rel (.tx x)]))
      have e : ([(Lock.tree, Mode.rd), (Lock.tx x, Mode.wr)].filter fun h => h.1 ≠ Lock.tree) = [(Lock.tx x, Mode.wr)] := by simp
      rw [e]
      refine ⟨.inr ⟨_, .head _⟩, neut_history (low2 _ _ _) (.head _) _ _ ⟨.inr ?_, rels_ok [_]⟩⟩
      simp [guardOf]
  | txDestroy x =>
    show ActsOk [(Lock.tx x, Mode.wr)] [wr (.tx x), rel (.tx x)]
    exact ⟨.inr (.head _), rels_ok [_]⟩
  | txClear x =>
    show ActsOk [(Lock.tree, Mode.rd), (Lock.tx x, Mode.wr)] [wr (.tx x), rd .state, wr (.tx x), rel .tree, rel (.tx x)]
    exact ⟨.inr (.tail _ (.head _)), .inr ⟨_, .head _⟩, .inr (.tail _ (.head _)), rels_ok [_, _]⟩
  | txRoot x write =>
    cases write with
    | false =>
      show ActsOk [(Lock.tx x, Mode.rd)] [rd (.tx x), rd (.tx x), rel (.tx x)]
      exact ⟨.inr ⟨_, .head _⟩, .inr ⟨_, .head _⟩, rels_ok [_]⟩
    | true =>
      show ActsOk ((Lock.tx x, Mode.wr) :: ([(Lock.tx x, Mode.rd)].filter fun h => h.1 ≠ Lock.tx x)) [wr (.tx x), rel (.tx x)]
      exact ⟨.inr (.head _), rels_ok [_]⟩
  | txInject x misses =>
    show ActsOk [(Lock.tree, Mode.wr), (Lock.tx x, Mode.wr)] (rd (.tx x) :: (historyActs misses ++ [wr (.tx x), rel .tree, rel (.tx x)]))
    exact ⟨.inr ⟨_, .tail _ (.head _)⟩, neut_history (low2 _ _ _) (.head _) _ _ ⟨.inr (.tail _ (.head _)), rels_ok [_, _]⟩⟩
  | txGet x misses =>
    show ActsOk [(Lock.tree, Mode.rd), (Lock.tx x, Mode.rd)] (rd (.tx x) :: (readsActs misses ++ [rel .tree, rel (.tx x)]))
    exact ⟨.inr ⟨_, .tail _ (.head _)⟩, neut_reads (low2 _ _ _) ⟨_, .head _⟩ _ _ (rels_ok [_, _])⟩
  | txHas x misses =>
    show ActsOk [(Lock.tree, Mode.rd), (Lock.tx x, Mode.rd)] (rd (.tx x) :: (readsActs misses ++ [rel .tree, rel (.tx x)]))
    exact ⟨.inr ⟨_, .tail _ (.head _)⟩, neut_reads (low2 _ _ _) ⟨_, .head _⟩ _ _ (rels_ok [_, _])⟩
  | txInsert x misses =>
    show ActsOk [(Lock.tree, Mode.rd), (Lock.tx x, Mode.wr)] (rd (.tx x) :: (readsActs misses ++ [wr (.tx x), rel .tree, rel (.tx x)]))
    exact ⟨.inr ⟨_, .tail _ (.head _)⟩, neut_reads (low2 _ _ _) ⟨_, .head _⟩ _ _ ⟨.inr (.tail _ (.head _)), rels_ok [_, _]⟩⟩
  | txRemove x misses =>
    show ActsOk [(Lock.tree, Mode.rd), (Lock.tx x, Mode.wr)] (rd (.tx x) :: (readsActs misses ++ [wr (.tx x), rel .tree, rel (.tx x)]))
    exact ⟨.inr ⟨_, .tail _ (.head _)⟩, neut_reads (low2 _ _ _) ⟨_, .head _⟩ _ _ ⟨.inr (.tail _ (.head _)), rels_ok [_, _]⟩⟩
  | txProve x write misses =>
    cases write with
    | false =>
      show ActsOk [(Lock.tree, Mode.rd), (Lock.tx x, Mode.rd)] (rd (.tx x) :: rd (.tx x) :: (readsActs misses ++ [rel .tree, rel (.tx x)]))
      exact ⟨.inr ⟨_, .tail _ (.head _)⟩, .inr ⟨_, .tail _ (.head _)⟩, neut_reads (low2 _ _ _) ⟨_, .head _⟩ _ _ (rels_ok [_, _])⟩
    | true =>
      show ActsOk ((Lock.tx x, Mode.wr) :: ([(Lock.tree, Mode.rd), (Lock.tx x, Mode.rd)].filter fun h => h.1 ≠ Lock.tx x))
        (wr (.tx x) :: (readsActs misses ++ [wr (.tx x)]) ++ [rel .tree, rel (.tx x)])
      have e : ([(Lock.tree, Mode.rd), (Lock.tx x, Mode.rd)].filter fun h => h.1 ≠ Lock.tx x) = [(Lock.tree, Mode.rd)] := by simp
      rw [e, List.cons_append, List.append_assoc]
      exact ⟨.inr (.head _), neut_reads (low2' _ _ _) ⟨_, .tail _ (.head _)⟩ _ _ ⟨.inr (.head _), rels_ok [_, _]⟩⟩
  | txCommit x rolls evicted =>
    show ActsOk [(Lock.tree, Mode.wr), (Lock.tx x, Mode.wr)] (wr (.tx x) :: wr .out :: rd .state :: rolls.flatMap appendActs ++ [wr .state, wr .history, rd .table] ++
      (List.replicate evicted [rd .table, acq .files .wr, wr .table, rel .files]).flatten ++ [wr .head, wr (.tx x), rel .tree, rel (.tx x)])
    simp only [List.cons_append, List.append_assoc]
    exact ⟨.inr (.tail _ (.head _)), .inr (.head _), .inr ⟨_, .head _⟩, Neut.flatMap (fun r => neut_append (low2 _ _ _) (.head _) r) rolls _
      ⟨.inr (.head _), .inr (.head _), .inl trivial, (neut_evict (low2 _ _ _)).flatten evicted _ ⟨.inr (.head _), .inr (.tail _ (.head _)), rels_ok [_, _]⟩⟩⟩
  | iterate x n nexts transient =>
    cases hs
    show ActsOk [(Lock.tree, Mode.rd), (Lock.tx x, Mode.rd)] (rd (.tx x) :: (nexts.flatMap fun misses => acq (.iter n) .wr :: wr (.iter n) :: rd (.tx x) :: readsActs misses ++ [rel (.iter n)]) ++
      [acq (.iter n) .wr, wr (.iter n), rel .tree, rel (.tx x)] ++ [] ++ [rel (.iter n)])
    simp only [List.cons_append, List.append_assoc, List.nil_append]
    have lowi : Low [(Lock.tree, Mode.rd), (Lock.tx x, Mode.rd)] (.iter n) := by
      intro h hh; simp only [List.mem_cons, List.not_mem_nil, or_false] at hh; rcases hh with rfl | rfl <;> simp
    refine ⟨.inr ⟨_, .tail _ (.head _)⟩, Neut.flatMap (fun misses => ?_) nexts _ ⟨noData_iter, .inl trivial, rels_ok [_, _, _]⟩⟩
    have hin : Neut ((Lock.iter n, Mode.wr) :: [(Lock.tree, Mode.rd), (Lock.tx x, Mode.rd)]) (wr (.iter n) :: rd (.tx x) :: readsActs misses) :=
      Neut.append (b := [wr (.iter n)]) (c := rd (.tx x) :: readsActs misses) (Neut.wr (.inl trivial))
        (Neut.append (b := [rd (.tx x)]) (c := readsActs misses) (Neut.rd (.inr ⟨Mode.rd, by simp [guardOf]⟩))
          (neut_reads (by intro h hh; simp only [List.mem_cons, List.not_mem_nil, or_false] at hh; rcases hh with rfl | rfl | rfl <;> simp) ⟨Mode.rd, by simp⟩ _))
    have := Neut.section lowi noData_iter Mode.wr hin
    simpa only [List.cons_append, List.append_assoc] using this

theorem performs_twoPhase {p : CProg L} {c : Call} (h : Performs p c) (hs : c.single) : TwoPhase p := by
  unfold TwoPhase
  rw [h.1]
  refine ⟨c.pre_ok, ActsOk.body ?_⟩
  rw [h.2]
  exact c.body_ok hs

theorem Sys.mem_sys (s : Sys) : s.mem.sys = s := rfl

theorem Mem.sys_mem (m : Mem) : m.sys.mem = m := by
  funext v
  cases v <;> rfl

end Urkel
