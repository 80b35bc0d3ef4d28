import Verif.Model.Locks
import Mathlib.Data.List.Basic
import Mathlib.Tactic.ByContra
/-
Locks: a discipline that every call follows, and what follows from it.
-/
namespace Urkel

/-- The order in which shared locks are taken. -/
def Lock.rank : Lock → Nat
  | .tx _ => 0
  | .tree => 1
  | .iter _ => 2
  | .files => 3

/-- Locks that make it safe to read. -/
def coverRd (held : List (Lock × Mode)) : Var → Prop
  | .table => (.tree, .wr) ∈ held ∨ ((∃ m, (.files, m) ∈ held) ∧ ∃ m, (.tree, m) ∈ held)
  | .tx n => ∃ m, (.tx n, m) ∈ held
  | .iter n => (.iter n, .wr) ∈ held
  | _ => ∃ m, (.tree, m) ∈ held

/-- Locks that make it safe to write. -/
def coverWr (held : List (Lock × Mode)) : Var → Prop
  | .table => (.tree, .wr) ∈ held ∨ ((.files, .wr) ∈ held ∧ ∃ m, (.tree, m) ∈ held)
  | .tx n => (.tx n, .wr) ∈ held
  | .iter n => (.iter n, .wr) ∈ held
  | _ => (.tree, .wr) ∈ held

/-- The discipline, for what a thread that holds `held` still does: no lock is taken
twice, every access is covered, everything is released at the end, and (if `strict`)
shared locks are taken in order. -/
def Disc (strict : Bool) (priv : Lock → Prop) : List (Lock × Mode) → List Act → Prop
  | held, [] => held = []
  | held, .acq l m :: p => (∀ m', (l, m') ∉ held) ∧ (strict = true → priv l ∨ ∀ h ∈ held, ¬ priv h.1 → h.1.rank < l.rank) ∧
      Disc strict priv ((l, m) :: held) p
  | held, .rel l :: p => (∃ m, (l, m) ∈ held) ∧ Disc strict priv (held.filter fun h => h.1 ≠ l) p
  | held, .rd v :: p => coverRd held v ∧ Disc strict priv held p
  | held, .wr v :: p => coverWr held v ∧ Disc strict priv held p

/-- A block of steps that leaves the locks as they were. -/
def Neutral (strict : Bool) (priv : Lock → Prop) (held : List (Lock × Mode)) (b : List Act) : Prop :=
  ∀ p, Disc strict priv held p → Disc strict priv held (b ++ p)

section
variable {strict : Bool} {priv : Lock → Prop} {held : List (Lock × Mode)}

theorem Neutral.nil : Neutral strict priv held [] := fun _ h => h

theorem Neutral.append {b c : List Act} (hb : Neutral strict priv held b) (hc : Neutral strict priv held c) : Neutral strict priv held (b ++ c) := by
  intro p hp
  rw [List.append_assoc]
  exact hb _ (hc _ hp)

theorem Neutral.flatMap {α : Type} {f : α → List Act} (h : ∀ a, Neutral strict priv held (f a)) : ∀ l : List α, Neutral strict priv held (l.flatMap f)
  | [] => Neutral.nil
  | a :: l => by rw [List.flatMap_cons]; exact (h a).append (Neutral.flatMap h l)

theorem Neutral.flatten {b : List Act} (h : Neutral strict priv held b) : ∀ n, Neutral strict priv held (List.replicate n b).flatten
  | 0 => Neutral.nil
  | n + 1 => by rw [List.replicate_succ, List.flatten_cons]; exact h.append (Neutral.flatten h n)

theorem Neutral.disc {b p : List Act} (hb : Neutral strict priv held b) (hp : Disc strict priv held p) : Disc strict priv held (b ++ p) := hb p hp

/-- The table's lock may be taken: it is free, everything held ranks below it. -/
structure FilesOk (held : List (Lock × Mode)) : Prop where
  free : ∀ h ∈ held, h.1 ≠ .files
  tree : ∃ m, (Lock.tree, m) ∈ held

theorem FilesOk.rank (h : FilesOk held) : ∀ x ∈ held, x.1.rank < Lock.rank .files := by
  rintro ⟨l, m⟩ hx
  have := h.free _ hx
  cases l <;> simp_all [Lock.rank]

theorem FilesOk.filter (h : FilesOk held) (m : Mode) : (((Lock.files, m) :: held).filter fun x => x.1 ≠ .files) = held := by
  rw [List.filter_cons]
  simp only [ne_eq, not_true, decide_false, Bool.false_eq_true, if_false]
  exact List.filter_eq_self.2 (fun x hx => by simpa using h.free x hx)

theorem readActs_neutral (h : FilesOk held) (miss : Bool) : Neutral strict priv held (readActs miss) := by
  obtain ⟨mt, hmt⟩ := h.tree
  have hno : ∀ m, (Lock.files, m) ∉ held := fun m hm => h.free _ hm rfl
  intro p hp
  have hf := h.filter
  have hr : strict = true → priv Lock.files ∨ ∀ x ∈ held, ¬ priv x.1 → x.1.rank < Lock.rank .files := fun _ => .inr fun x hx _ => h.rank x hx
  have c1 : coverRd held .out := ⟨mt, hmt⟩
  have c2 : ∀ m, coverRd ((Lock.files, m) :: held) .table := fun m => .inr ⟨⟨m, List.mem_cons_self ..⟩, mt, List.mem_cons_of_mem _ hmt⟩
  have c3 : coverWr ((Lock.files, .wr) :: held) .table := .inr ⟨List.mem_cons_self .., mt, List.mem_cons_of_mem _ hmt⟩
  cases miss with
  | false =>
    simp only [readActs, Bool.false_eq_true, if_false, List.append_nil, List.cons_append, List.nil_append]
    refine ⟨c1, hno, hr, c2 _, ⟨_, List.mem_cons_self ..⟩, ?_⟩
    rw [hf]
    exact ⟨c1, hp⟩
  | true =>
    simp only [readActs, if_true, List.cons_append, List.nil_append]
    refine ⟨c1, hno, hr, c2 _, ⟨_, List.mem_cons_self ..⟩, ?_⟩
    rw [hf]
    refine ⟨hno, hr, c3, ⟨_, List.mem_cons_self ..⟩, ?_⟩
    rw [hf]
    exact ⟨c1, hp⟩

theorem readsActs_neutral (h : FilesOk held) (misses : List Bool) : Neutral strict priv held (readsActs misses) :=
  Neutral.flatMap (fun m => readActs_neutral h m) misses

theorem historyActs_neutral (h : FilesOk held) (hw : (Lock.tree, Mode.wr) ∈ held) (misses : List Bool) : Neutral strict priv held (historyActs misses) := by
  have h1 : Neutral strict priv held [.rd .state, .rd .history] := fun p hp => ⟨⟨_, hw⟩, ⟨_, hw⟩, hp⟩
  exact h1.append (Neutral.flatMap (fun m => (readActs_neutral h m).append (c := [.wr .history]) fun p hp => ⟨hw, hp⟩) misses)

theorem appendActs_neutral (h : FilesOk held) (hw : (Lock.tree, Mode.wr) ∈ held) (roll : Bool) : Neutral strict priv held (appendActs roll) := by
  have hno : ∀ m, (Lock.files, m) ∉ held := fun m hm => h.free _ hm rfl
  have hf := h.filter
  have hr : strict = true → priv Lock.files ∨ ∀ x ∈ held, ¬ priv x.1 → x.1.rank < Lock.rank .files := fun _ => .inr fun x hx _ => h.rank x hx
  have hw' : ∀ m, (Lock.tree, Mode.wr) ∈ ((Lock.files, m) :: held) := fun m => List.mem_cons_of_mem _ hw
  intro p hp
  cases roll with
  | false => exact ⟨hw, hp⟩
  | true =>
    simp only [appendActs, if_true, List.cons_append, List.nil_append]
    refine ⟨⟨_, hw⟩, hno, hr, .inl (hw' _), ⟨_, List.mem_cons_self ..⟩, ?_⟩
    rw [hf]
    refine ⟨.inl hw, hno, hr, .inl (hw' _), ⟨_, List.mem_cons_self ..⟩, ?_⟩
    rw [hf]
    refine ⟨hno, hr, .inl (hw' _), ⟨_, List.mem_cons_self ..⟩, ?_⟩
    rw [hf]
    exact ⟨hw, hp⟩

theorem evictActs_neutral (h : FilesOk held) (hw : (Lock.tree, Mode.wr) ∈ held) :
    Neutral strict priv held [.rd .table, .acq .files .wr, .wr .table, .rel .files] := by
  have hno : ∀ m, (Lock.files, m) ∉ held := fun m hm => h.free _ hm rfl
  have hr : strict = true → priv Lock.files ∨ ∀ x ∈ held, ¬ priv x.1 → x.1.rank < Lock.rank .files := fun _ => .inr fun x hx _ => h.rank x hx
  intro p hp
  refine ⟨.inl hw, hno, hr, .inl (List.mem_cons_of_mem _ hw), ⟨_, List.mem_cons_self ..⟩, ?_⟩
  rw [h.filter]
  exact hp

end

/-- Locks that no other thread may use for the call to be free of deadlock: the lock
of the transaction, for a proof that has to upgrade to the write lock; the lock of an
iterator, and of its own transaction. -/
def Call.owns : Call → List Lock
  | .txProve x true _ => [.tx x]
  | .iterate x n _ transient => .iter n :: if transient then [.tx x] else []
  | _ => []

/-- The transaction and iterator locks a call uses. -/
def Call.uses : Call → List Lock
  | .root => []
  | .inject _ => []
  | .txCreate _ _ _ => []
  | .txDestroy x => [.tx x]
  | .txClear x => [.tx x]
  | .txRoot x _ => [.tx x]
  | .txInject x _ => [.tx x]
  | .txGet x _ => [.tx x]
  | .txHas x _ => [.tx x]
  | .txInsert x _ => [.tx x]
  | .txRemove x _ => [.tx x]
  | .txProve x _ _ => [.tx x]
  | .txCommit x _ _ => [.tx x]
  | .iterate x n _ _ => [.tx x, .iter n]

section
variable {strict : Bool} {priv : Lock → Prop}

theorem not_priv_table {c : Call} : Lock.files ∉ c.owns ∧ Lock.tree ∉ c.owns := by
  cases c <;> simp [Call.owns]
  all_goals split <;> simp

/-- Every call follows the discipline. -/
theorem Call.disc (c : Call) (hown : strict = true → ∀ l ∈ c.owns, priv l) : Neutral strict priv [] c.acts := by
  intro q hq
  have ft : ∀ m, FilesOk [(Lock.tree, m)] := fun m => ⟨by simp, m, by simp⟩
  have ftx : ∀ m x mx, FilesOk [(Lock.tree, m), (Lock.tx x, mx)] := fun m x mx => ⟨by simp, m, by simp⟩
  have fit : ∀ n m x mx, FilesOk [(Lock.iter n, Mode.wr), (Lock.tree, m), (Lock.tx x, mx)] := fun n m x mx => ⟨by simp, m, by simp⟩
  cases c with
  | root =>
    simp only [Call.acts, List.cons_append, List.nil_append, List.append_assoc, Bool.false_eq_true, if_false, if_true]
    refine ⟨by simp, by simp, ⟨.rd, by simp⟩, ⟨.rd, by simp⟩, ?_⟩
    simpa using hq
  | inject misses =>
    simp only [Call.acts, List.cons_append, List.nil_append, List.append_assoc, Bool.false_eq_true, if_false, if_true]
    refine ⟨by simp, by simp, ?_⟩
    refine (historyActs_neutral (ft _) (by simp) misses).disc ⟨by simp [coverWr], ⟨.wr, by simp⟩, ?_⟩
    simpa using hq
  | txCreate x write misses =>
    simp only [Call.acts, List.cons_append, List.nil_append, List.append_assoc, Bool.false_eq_true, if_false, if_true]
    refine ⟨by simp, by simp, ⟨.rd, by simp⟩, ?_⟩
    cases write with
    | false =>
      try simp only [List.cons_append, List.nil_append, List.append_assoc, Bool.false_eq_true, if_false]
      refine ⟨⟨.rd, by simp⟩, ⟨.rd, by simp⟩, ⟨.rd, by simp⟩, ?_⟩
      simpa using hq
    | true =>
      try simp only [List.cons_append, List.nil_append, List.append_assoc, if_true]
      refine ⟨⟨.rd, by simp⟩, ?_⟩
      simp only [ne_eq, List.filter_cons, not_true, decide_false, Bool.false_eq_true, if_false, List.filter_nil, if_true]
      refine ⟨by simp, by simp, ⟨.wr, by simp⟩, ?_⟩
      refine (historyActs_neutral (ft _) (by simp) misses).disc ⟨⟨.wr, by simp⟩, ?_⟩
      simpa using hq
  | txDestroy x =>
    simp only [Call.acts, List.cons_append, List.nil_append, List.append_assoc, Bool.false_eq_true, if_false, if_true]
    refine ⟨by simp, by simp, by simp [coverWr], ⟨.wr, by simp⟩, ?_⟩
    simpa using hq
  | txClear x =>
    simp only [Call.acts, List.cons_append, List.nil_append, List.append_assoc, Bool.false_eq_true, if_false, if_true]
    refine ⟨by simp, by simp, by simp, fun _ => .inr (by simp [Lock.rank]), by simp [coverWr], ⟨.rd, by simp⟩, by simp [coverWr], ⟨.rd, by simp⟩, ⟨.wr, by simp⟩, ?_⟩
    simpa using hq
  | txRoot x write =>
    simp only [Call.acts, List.cons_append, List.nil_append, List.append_assoc, Bool.false_eq_true, if_false, if_true]
    refine ⟨by simp, by simp, ⟨.rd, by simp⟩, ?_⟩
    cases write with
    | false =>
      try simp only [List.cons_append, List.nil_append, List.append_assoc, Bool.false_eq_true, if_false]
      refine ⟨⟨.rd, by simp⟩, ⟨.rd, by simp⟩, ?_⟩
      simpa using hq
    | true =>
      try simp only [List.cons_append, List.nil_append, List.append_assoc, if_true]
      refine ⟨⟨.rd, by simp⟩, ?_⟩
      simp only [ne_eq, List.filter_cons, not_true, decide_false, Bool.false_eq_true, if_false, List.filter_nil]
      refine ⟨by simp, by simp, by simp [coverWr], ⟨.wr, by simp⟩, ?_⟩
      simpa using hq
  | txInject x misses =>
    simp only [Call.acts, List.cons_append, List.nil_append, List.append_assoc, Bool.false_eq_true, if_false, if_true]
    refine ⟨by simp, by simp, by simp, fun _ => .inr (by simp [Lock.rank]), ⟨.wr, by simp⟩, ?_⟩
    refine (historyActs_neutral (ftx _ _ _) (by simp) misses).disc ⟨by simp [coverWr], ⟨.wr, by simp⟩, ⟨.wr, by simp⟩, ?_⟩
    simpa using hq
  | txGet x misses =>
    simp only [Call.acts, List.cons_append, List.nil_append, List.append_assoc, Bool.false_eq_true, if_false, if_true]
    refine ⟨by simp, by simp, by simp, fun _ => .inr (by simp [Lock.rank]), ⟨.rd, by simp⟩, ?_⟩
    refine (readsActs_neutral (ftx _ _ _) misses).disc ⟨⟨.rd, by simp⟩, ⟨.rd, by simp⟩, ?_⟩
    simpa using hq
  | txHas x misses =>
    simp only [Call.acts, List.cons_append, List.nil_append, List.append_assoc, Bool.false_eq_true, if_false, if_true]
    refine ⟨by simp, by simp, by simp, fun _ => .inr (by simp [Lock.rank]), ⟨.rd, by simp⟩, ?_⟩
    refine (readsActs_neutral (ftx _ _ _) misses).disc ⟨⟨.rd, by simp⟩, ⟨.rd, by simp⟩, ?_⟩
    simpa using hq
  | txInsert x misses =>
    simp only [Call.acts, List.cons_append, List.nil_append, List.append_assoc, Bool.false_eq_true, if_false, if_true]
    refine ⟨by simp, by simp, by simp, fun _ => .inr (by simp [Lock.rank]), ⟨.wr, by simp⟩, ?_⟩
    refine (readsActs_neutral (ftx _ _ _) misses).disc ⟨by simp [coverWr], ⟨.rd, by simp⟩, ⟨.wr, by simp⟩, ?_⟩
    simpa using hq
  | txRemove x misses =>
    simp only [Call.acts, List.cons_append, List.nil_append, List.append_assoc, Bool.false_eq_true, if_false, if_true]
    refine ⟨by simp, by simp, by simp, fun _ => .inr (by simp [Lock.rank]), ⟨.wr, by simp⟩, ?_⟩
    refine (readsActs_neutral (ftx _ _ _) misses).disc ⟨by simp [coverWr], ⟨.rd, by simp⟩, ⟨.wr, by simp⟩, ?_⟩
    simpa using hq
  | txProve x write misses =>
    simp only [Call.acts, List.cons_append, List.nil_append, List.append_assoc, Bool.false_eq_true, if_false, if_true]
    refine ⟨by simp, by simp, by simp, fun _ => .inr (by simp [Lock.rank]), ⟨.rd, by simp⟩, ?_⟩
    cases write with
    | false =>
      try simp only [List.cons_append, List.nil_append, List.append_assoc, Bool.false_eq_true, if_false]
      refine ⟨⟨.rd, by simp⟩, ?_⟩
      refine (readsActs_neutral (ftx _ _ _) misses).disc ⟨⟨.rd, by simp⟩, ⟨.rd, by simp⟩, ?_⟩
      simpa using hq
    | true =>
      try simp only [List.cons_append, List.nil_append, List.append_assoc, if_true]
      refine ⟨⟨.rd, by simp⟩, ?_⟩
      have e : ([(Lock.tree, Mode.rd), (Lock.tx x, Mode.rd)].filter fun h => h.1 ≠ Lock.tx x) = [(Lock.tree, Mode.rd)] := by simp
      rw [e]
      refine ⟨by simp, fun hs => .inl (hown hs _ (by simp [Call.owns])), by simp [coverWr], ?_⟩
      refine (readsActs_neutral ⟨by simp, .rd, by simp⟩ misses).disc ⟨by simp [coverWr], ⟨.rd, by simp⟩, ⟨.wr, by simp⟩, ?_⟩
      simpa using hq
  | txCommit x rolls evicted =>
    simp only [Call.acts, List.cons_append, List.nil_append, List.append_assoc, Bool.false_eq_true, if_false, if_true]
    refine ⟨by simp, by simp, by simp, fun _ => .inr (by simp [Lock.rank]), by simp [coverWr], by simp [coverWr], ⟨.wr, by simp⟩, ?_⟩
    refine (Neutral.flatMap (fun r => appendActs_neutral (ftx _ _ _) (by simp) r) rolls).disc ?_
    refine ⟨by simp [coverWr], by simp [coverWr], .inl (by simp), ?_⟩
    refine ((evictActs_neutral (ftx _ _ _) (by simp)).flatten evicted).disc ?_
    refine ⟨by simp [coverWr], by simp [coverWr], ⟨.wr, by simp⟩, ⟨.wr, by simp⟩, ?_⟩
    simpa using hq
  | iterate x n nexts transient =>
    simp only [Call.acts, List.cons_append, List.nil_append, List.append_assoc, Bool.false_eq_true, if_false, if_true]
    have hit : strict = true → priv (.iter n) := fun hs => hown hs _ (by simp [Call.owns])
    refine ⟨by simp, by simp, by simp, fun _ => .inr (by simp [Lock.rank]), ⟨.rd, by simp⟩, ?_⟩
    have hnext : ∀ misses, Neutral strict priv [(Lock.tree, Mode.rd), (Lock.tx x, Mode.rd)]
        (.acq (.iter n) .wr :: .wr (.iter n) :: .rd (.tx x) :: readsActs misses ++ [.rel (.iter n)]) := by
      intro misses p hp
      simp only [List.cons_append, List.nil_append, List.append_assoc]
      refine ⟨by simp, fun hs => .inl (hit hs), by simp [coverWr], ⟨.rd, by simp⟩, ?_⟩
      refine (readsActs_neutral (fit _ _ _ _) misses).disc ⟨⟨.wr, by simp⟩, ?_⟩
      simpa using hp
    refine (Neutral.flatMap hnext nexts).disc ?_
    refine ⟨by simp, fun hs => .inl (hit hs), by simp [coverWr], ⟨.rd, by simp⟩, ⟨.rd, by simp⟩, ?_⟩
    have e : (([(Lock.iter n, Mode.wr), (Lock.tree, Mode.rd), (Lock.tx x, Mode.rd)].filter fun h => h.1 ≠ Lock.tree).filter fun h => h.1 ≠ Lock.tx x)
        = [(Lock.iter n, Mode.wr)] := by simp
    rw [e]
    cases transient with
    | false =>
      try simp only [List.cons_append, List.nil_append, List.append_assoc, Bool.false_eq_true, if_false]
      refine ⟨⟨.wr, by simp⟩, ?_⟩
      simpa using hq
    | true =>
      try simp only [List.cons_append, List.nil_append, List.append_assoc, if_true]
      refine ⟨by simp, fun hs => .inl (hown hs _ (by simp [Call.owns])), by simp [coverWr], ⟨.wr, by simp⟩, ⟨.wr, by simp⟩, ?_⟩
      simpa using hq

end
end Urkel
