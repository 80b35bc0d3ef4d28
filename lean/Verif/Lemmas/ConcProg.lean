import Verif.Lemmas.ConcCanon
/-
For every call, a program that makes exactly the accesses of Model/Locks.lean and computes
the operation from what it has read.
-/
namespace Urkel

open Act

/-- What a call has seen so far. -/
def View : Type := (v : Var) → Option (Val v)

def View.empty : View := fun _ => none

def View.see (w : View) (v : Var) (x : Val v) : View := fun u => if h : u = v then some (h ▸ (w v).getD x) else w u

def View.mem (w : View) (d : Mem) : Mem := fun v => (w v).getD (d v)

def View.has (w : View) (N : List Var) : Bool := N.all fun n => (w n).isSome

/-- Anything. -/
def blankMem : Mem := Sys.mem ⟨⟨⟨B32.zero, [], 0, 0, Slab.init, [], Meta.init, Meta.init, [], []⟩, B32.zero, false⟩, fun _ => none⟩

/-- Remember what is read; write the result of the operation once it is determined. -/
def canonAct (E : Env) (op : Op) (N : List Var) : Act → SAct View
  | .acq l m => .acq l m
  | .rel l => .rel l
  | .rd v => .rd v fun x w => w.see v x
  | .wr v => .wr v fun x w =>
    (if (w.see v x).has N then match step E ((w.see v x).mem blankMem).sys op with
      | .ok (s, _) => s.mem v
      | _ => x
    else x, w.see v x)

theorem canonAct_act (E : Env) (op : Op) (N : List Var) (a : Act) : (canonAct E op N a).act = a := by cases a <;> rfl

def canon (E : Env) (op : Op) (c : Call) : CProg View := ⟨c.pre View, c.body.map (canonAct E op c.needs), View.empty⟩

open Classical in
/-- The result, if the code takes this path. -/
noncomputable def canonOut (E : Env) (op : Op) (c : Call) (w : View) : Option Ret :=
  if w.has c.needs = true ∧ c.taken op (w.mem blankMem) then
    match step E (w.mem blankMem).sys op with
    | .ok (_, r) => some r
    | _ => none
  else none

theorem canon_performs (E : Env) (op : Op) (c : Call) : Performs (canon E op c) c := by
  refine ⟨rfl, ?_⟩
  show List.map SAct.act (List.map (canonAct E op c.needs) c.body) = c.body
  rw [List.map_map]
  have : SAct.act ∘ canonAct E op c.needs = id := funext fun a => canonAct_act E op c.needs a
  rw [this, List.map_id]

theorem View.see_ne (w : View) {v u : Var} (x : Val v) (h : u ≠ v) : w.see v x u = w u := by unfold View.see; rw [dif_neg h]

theorem View.see_same (w : View) (v : Var) (x : Val v) : w.see v x v = some ((w v).getD x) := by unfold View.see; rw [dif_pos rfl]

/-- What has been seen is what was there at the beginning; what has not been seen is still
there. -/
structure Seen (m0 : Mem) (x : Mem × View) : Prop where
  was : ∀ v, x.2 v = none ∨ x.2 v = some (m0 v)
  still : ∀ v, x.2 v = none → x.1 v = m0 v

theorem Seen.see {m0 : Mem} {x : Mem × View} (h : Seen m0 x) (v : Var) :
    x.2.see v (x.1 v) v = some (m0 v) ∧ ∀ u, x.2.see v (x.1 v) u = none ∨ x.2.see v (x.1 v) u = some (m0 u) := by
  have h1 : x.2.see v (x.1 v) v = some (m0 v) := by
    rw [View.see_same]
    rcases h.was v with h1 | h1
    · rw [h1, Option.getD_none, h.still v h1]
    · rw [h1, Option.getD_some]
  refine ⟨h1, fun u => ?_⟩
  by_cases hu : u = v
  · subst hu; exact .inr h1
  · rw [View.see_ne _ _ hu]; exact h.was u

theorem Seen.mem {m0 : Mem} {w : View} (h : ∀ v, w v = none ∨ w v = some (m0 v)) {v : Var} (hv : (w v).isSome = true) :
    w.mem blankMem v = m0 v := by
  unfold View.mem
  rcases h v with h1 | h1
  · rw [h1] at hv; cases hv
  · rw [h1]; rfl

/-- Has the variable been accessed? -/
def accessed (A : List Act) (v : Var) : Prop := rd v ∈ A ∨ wr v ∈ A

theorem canon_step {E : Env} {op : Op} {N : List Var} {m0 : Mem} {x : Mem × View} (h : Seen m0 x) (a : Act) :
    Seen m0 ((canonAct E op N a).eff x) ∧
      ∀ v, (((canonAct E op N a).eff x).2 v).isSome = true ↔ (x.2 v).isSome = true ∨ accessed [a] v := by
  cases a with
  | acq l m => exact ⟨h, fun v => by simp [accessed, canonAct, SAct.eff]⟩
  | rel l => exact ⟨h, fun v => by simp [accessed, canonAct, SAct.eff]⟩
  | rd v =>
    obtain ⟨h1, h2⟩ := h.see v
    refine ⟨⟨h2, fun u hu => ?_⟩, fun u => ?_⟩
    · have hne : u ≠ v := by
        rintro rfl
        have hu : x.2.see u (x.1 u) u = none := hu
        rw [h1] at hu; cases hu
      exact h.still u (by rw [← View.see_ne x.2 (x.1 v) hne]; exact hu)
    · show (x.2.see v (x.1 v) u).isSome = true ↔ _
      by_cases hu : u = v
      · subst hu; rw [h1]; simp [accessed]
      · rw [View.see_ne _ _ hu]; simp [accessed, hu]
  | wr v =>
    obtain ⟨h1, h2⟩ := h.see v
    refine ⟨⟨h2, fun u hu => ?_⟩, fun u => ?_⟩
    · have hne : u ≠ v := by
        rintro rfl
        have hu : x.2.see u (x.1 u) u = none := hu
        rw [h1] at hu; cases hu
      show x.1.set v _ u = m0 u
      rw [Mem.set_ne _ _ hne]
      exact h.still u (by rw [← View.see_ne x.2 (x.1 v) hne]; exact hu)
    · show (x.2.see v (x.1 v) u).isSome = true ↔ _
      by_cases hu : u = v
      · subst hu; rw [h1]; simp [accessed]
      · rw [View.see_ne _ _ hu]; simp [accessed, hu]

theorem canon_seen {E : Env} {op : Op} {N : List Var} {m0 : Mem} : ∀ (A : List Act) {x : Mem × View}, Seen m0 x →
    Seen m0 (alone (A.map (canonAct E op N)) x) ∧
      ∀ v, ((alone (A.map (canonAct E op N)) x).2 v).isSome = true ↔ (x.2 v).isSome = true ∨ accessed A v
  | [], x, h => ⟨h, fun v => by simp [accessed, alone]⟩
  | a :: A, x, h => by
    obtain ⟨h1, h2⟩ := canon_step (E := E) (op := op) (N := N) h a
    obtain ⟨h3, h4⟩ := canon_seen (E := E) (op := op) (N := N) A h1
    rw [List.map_cons, alone_cons]
    refine ⟨h3, fun v => ?_⟩
    rw [h4, h2]
    simp only [accessed, List.mem_cons, List.not_mem_nil, or_false]
    constructor
    · rintro ((h | h | h) | h | h)
      · exact .inl h
      · exact .inr (.inl (.inl h))
      · exact .inr (.inr (.inl h))
      · exact .inr (.inl (.inr h))
      · exact .inr (.inr (.inr h))
    · rintro (h | (h | h) | (h | h))
      · exact .inl (.inl h)
      · exact .inl (.inr (.inl h))
      · exact .inr (.inl h)
      · exact .inl (.inr (.inr h))
      · exact .inr (.inr h)

theorem View.has_iff {w : View} {N : List Var} : w.has N = true ↔ ∀ n ∈ N, (w n).isSome = true := by
  unfold View.has; rw [List.all_eq_true]

variable {E : Env} {op : Op} {c : Call} {m0 : Mem} {s1 : Sys} {r : Ret}

theorem canon_wr (hc : CallOf op c) (hp : c.taken op m0) (e : step E m0.sys op = .ok (s1, r)) {x : Mem × View} (h : Seen m0 x) (v : Var) :
    ((canonAct E op c.needs (.wr v)).eff x).1 v = if (x.2.see v (x.1 v)).has c.needs then s1.mem v else x.1 v := by
  show (x.1.set v _) v = _
  rw [Mem.set_same]
  dsimp only
  obtain ⟨h1, h2⟩ := h.see v
  by_cases hs : (x.2.see v (x.1 v)).has c.needs = true
  · rw [if_pos hs, if_pos hs]
    obtain ⟨s1', e2, h3⟩ := footprint_needs hc hp (m' := (x.2.see v (x.1 v)).mem blankMem)
      (fun n hn => (Seen.mem h2 (View.has_iff.1 hs n hn)).symm) e
    rw [e2]
    exact (h3 v (Seen.mem h2 (by rw [h1]; rfl)).symm).symm
  · rw [if_neg hs, if_neg hs]

/-- A step changes only what it writes. -/
theorem canon_other {N : List Var} {x : Mem × View} (a : Act) {v : Var} (h : a ≠ .wr v) : ((canonAct E op N a).eff x).1 v = x.1 v := by
  cases a with
  | wr u =>
    have hne : v ≠ u := by rintro rfl; exact h rfl
    exact Mem.set_ne _ _ hne
  | _ => rfl

/-- Every variable has its old or its new value. -/
theorem canon_either (hc : CallOf op c) (hp : c.taken op m0) (e : step E m0.sys op = .ok (s1, r)) : ∀ (A : List Act) {x : Mem × View}, Seen m0 x →
    ∀ v, (x.1 v = m0 v ∨ x.1 v = s1.mem v) → ((alone (A.map (canonAct E op c.needs)) x).1 v = m0 v ∨ (alone (A.map (canonAct E op c.needs)) x).1 v = s1.mem v)
  | [], x, _, v, h => h
  | a :: A, x, hx, v, h => by
    rw [List.map_cons, alone_cons]
    refine canon_either hc hp e A (canon_step hx a).1 v ?_
    by_cases ha : a = .wr v
    · subst ha
      rw [canon_wr hc hp e hx v]
      split
      · exact .inr rfl
      · exact h
    · rw [canon_other a ha]; exact h

/-- Once it has its new value it keeps it. -/
theorem canon_keep (hc : CallOf op c) (hp : c.taken op m0) (e : step E m0.sys op = .ok (s1, r)) : ∀ (A : List Act) {x : Mem × View}, Seen m0 x →
    ∀ v, x.1 v = s1.mem v → (alone (A.map (canonAct E op c.needs)) x).1 v = s1.mem v
  | [], x, _, v, h => h
  | a :: A, x, hx, v, h => by
    rw [List.map_cons, alone_cons]
    refine canon_keep hc hp e A (canon_step hx a).1 v ?_
    by_cases ha : a = .wr v
    · subst ha
      rw [canon_wr hc hp e hx v]
      split
      · rfl
      · exact h
    · rw [canon_other a ha]; exact h

theorem Seen.init (m : Mem) : Seen m (m, View.empty) := ⟨fun _ => .inl rfl, fun _ _ => rfl⟩

/-- The calls that read a file at least once, or write one. -/
def Call.full : Call → Prop
  | .inject misses => misses ≠ []
  | .txCreate _ write misses => write = true → misses ≠ []
  | .txInject _ misses => misses ≠ []
  | .txGet _ misses => misses ≠ []
  | .txHas _ misses => misses ≠ []
  | .txInsert _ misses => misses ≠ []
  | .txRemove _ misses => misses ≠ []
  | .txProve _ _ misses => misses ≠ []
  | .txCommit _ rolls _ => rolls ≠ []
  | _ => True

theorem mem_reads {misses : List Bool} (h : misses ≠ []) : rd .out ∈ readsActs misses := by
  cases misses with
  | nil => exact absurd rfl h
  | cons a l => simp [readsActs, readActs]

theorem mem_history {misses : List Bool} (h : misses ≠ []) : rd .out ∈ historyActs misses := by
  cases misses with
  | nil => exact absurd rfl h
  | cons a l => simp [historyActs, readActs]

/-- Everything that the outcome depends on is accessed. -/
theorem Call.body_needs (hc : CallOf op c) (hf : c.full) : ∀ n ∈ c.needs, accessed c.body n := by
  cases hc with
  | root => simp [Call.needs, Call.body, accessed]
  | inject h misses => simp [Call.needs, Call.body, accessed, mem_history hf]; simp [historyActs]
  | create x h write misses =>
    cases write
    · simp [Call.needs, Call.body, accessed]
    · simp [Call.needs, Call.body, accessed, mem_history (hf rfl)]; simp [historyActs]
  | destroy x => simp [Call.needs, Call.body, accessed]
  | clear x => simp [Call.needs, Call.body, accessed]
  | txRoot x write => cases write <;> simp [Call.needs, Call.body, accessed]
  | txInject x h misses => simp [Call.needs, Call.body, accessed, mem_history hf]; simp [historyActs]
  | get x k misses => simp [Call.needs, Call.body, accessed, mem_reads hf]
  | has x k misses => simp [Call.needs, Call.body, accessed, mem_reads hf]
  | insert x k v misses => simp [Call.needs, Call.body, accessed, mem_reads hf]
  | remove x k misses => simp [Call.needs, Call.body, accessed, mem_reads hf]
  | prove x k write misses => cases write <;> simp [Call.needs, Call.body, accessed, mem_reads hf]
  | commit x rolls evicted => simp [Call.needs, Call.body, accessed]

/-- Everything that may change is written after everything needed has been accessed. -/
theorem Call.body_changes (hc : CallOf op c) (hf : c.full) : ∀ v ∈ c.changes, ∃ A1 A2, c.body = A1 ++ wr v :: A2 ∧
    ∀ n ∈ c.needs, n = v ∨ accessed A1 n := by
  have hh : ∀ {misses : List Bool}, misses ≠ [] → ∃ A1 A2, historyActs misses = A1 ++ wr .history :: A2 ∧ rd .state ∈ A1 ∧ rd .history ∈ A1 ∧ rd .out ∈ A1 := by
    intro misses h
    cases misses with
    | nil => exact absurd rfl h
    | cons a l =>
      refine ⟨[rd .state, rd .history] ++ readActs a, l.flatMap fun miss => readActs miss ++ [wr .history], ?_, ?_, ?_, ?_⟩
      · simp [historyActs]
      · simp
      · simp
      · simp [readActs]
  have hst : ∀ {misses : List Bool}, rd .state ∈ historyActs misses ∧ rd .history ∈ historyActs misses := by
    intro misses; simp [historyActs]
  intro v hv
  cases hc with
  | root => cases hv
  | inject h misses =>
    simp only [Call.changes, List.mem_cons, List.not_mem_nil, or_false] at hv
    rcases hv with rfl | rfl
    · obtain ⟨A1, A2, e, h1, h2, h3⟩ := hh hf
      refine ⟨A1, A2 ++ [wr .head, rel .tree], ?_, ?_⟩
      · simp [Call.body, e]
      · simp [Call.needs, accessed, h1, h2, h3]
    · exact ⟨historyActs misses, [rel .tree], rfl, by simp [Call.needs, accessed, hst, mem_history hf]⟩
  | create x h write misses =>
    cases write with
    | false =>
      simp only [Call.changes, Bool.false_eq_true, if_false, List.mem_cons, List.not_mem_nil, or_false] at hv
      subst hv
      exact ⟨[rd .head, rd .head, rd .state, rel .tree], [rel (.tx x)], rfl, by simp [Call.needs, accessed]⟩
    | true =>
      simp only [Call.changes, if_true, List.mem_cons, List.not_mem_nil, or_false] at hv
      rcases hv with rfl | rfl
      · obtain ⟨A1, A2, e, h1, h2, h3⟩ := hh (hf rfl)
        refine ⟨rd .head :: A1, A2 ++ [rel .tree, wr (.tx x), rel (.tx x)], ?_, ?_⟩
        · simp [Call.body, e]
        · simp [Call.needs, accessed, h1, h2, h3]
      · exact ⟨rd .head :: historyActs misses ++ [rel .tree], [rel (.tx x)], by simp [Call.body], by simp [Call.needs, accessed, hst, mem_history (hf rfl)]⟩
  | destroy x =>
    simp only [Call.changes, List.mem_cons, List.not_mem_nil, or_false] at hv
    subst hv
    exact ⟨[], [rel (.tx x)], rfl, by simp [Call.needs]⟩
  | clear x =>
    simp only [Call.changes, List.mem_cons, List.not_mem_nil, or_false] at hv
    subst hv
    exact ⟨[wr (.tx x), rd .state], [rel .tree, rel (.tx x)], rfl, by simp [Call.needs, accessed]⟩
  | txRoot x write =>
    cases write with
    | false => cases hv
    | true =>
      simp only [Call.changes, if_true, List.mem_cons, List.not_mem_nil, or_false] at hv
      subst hv
      exact ⟨[], [rel (.tx x)], rfl, by simp [Call.needs]⟩
  | txInject x h misses =>
    simp only [Call.changes, List.mem_cons, List.not_mem_nil, or_false] at hv
    rcases hv with rfl | rfl
    · obtain ⟨A1, A2, e, h1, h2, h3⟩ := hh hf
      refine ⟨rd (.tx x) :: A1, A2 ++ [wr (.tx x), rel .tree, rel (.tx x)], ?_, ?_⟩
      · simp [Call.body, e]
      · simp [Call.needs, accessed, h1, h2, h3]
    · exact ⟨rd (.tx x) :: historyActs misses, [rel .tree, rel (.tx x)], by simp [Call.body], by simp [Call.needs, accessed, hst, mem_history hf]⟩
  | get x k misses => cases hv
  | has x k misses => cases hv
  | insert x k d misses =>
    simp only [Call.changes, List.mem_cons, List.not_mem_nil, or_false] at hv
    subst hv
    exact ⟨rd (.tx x) :: readsActs misses, [rel .tree, rel (.tx x)], by simp [Call.body], by simp [Call.needs, accessed, mem_reads hf]⟩
  | remove x k misses =>
    simp only [Call.changes, List.mem_cons, List.not_mem_nil, or_false] at hv
    subst hv
    exact ⟨rd (.tx x) :: readsActs misses, [rel .tree, rel (.tx x)], by simp [Call.body], by simp [Call.needs, accessed, mem_reads hf]⟩
  | prove x k write misses =>
    cases write with
    | false => cases hv
    | true =>
      simp only [Call.changes, if_true, List.mem_cons, List.not_mem_nil, or_false] at hv
      subst hv
      exact ⟨wr (.tx x) :: readsActs misses, [rel .tree, rel (.tx x)], by simp [Call.body], by simp [Call.needs, accessed, mem_reads hf]⟩
  | commit x rolls evicted =>
    simp only [Call.changes, List.mem_cons, List.not_mem_nil, or_false] at hv
    have hne : rolls ≠ [] := hf
    obtain ⟨a, l, rfl⟩ : ∃ a l, rolls = a :: l := by
      cases rolls with
      | nil => exact absurd rfl hne
      | cons a l => exact ⟨a, l, rfl⟩
    have hpre : ∃ X, appendActs a = X ++ [wr .out] := ⟨_, rfl⟩
    obtain ⟨X, hX⟩ := hpre
    rcases hv with rfl | rfl | rfl | rfl | rfl
    · exact ⟨wr (.tx x) :: wr .out :: rd .state :: (a :: l).flatMap appendActs ++ [wr .state, wr .history, rd .table] ++
        (List.replicate evicted [rd .table, acq .files .wr, wr .table, rel .files]).flatten ++ [wr .head], [rel .tree, rel (.tx x)],
        by simp [Call.body], by simp [Call.needs, accessed]⟩
    · exact ⟨wr (.tx x) :: wr .out :: rd .state :: X, l.flatMap appendActs ++ [wr .state, wr .history, rd .table] ++
        (List.replicate evicted [rd .table, acq .files .wr, wr .table, rel .files]).flatten ++ [wr .head, wr (.tx x), rel .tree, rel (.tx x)],
        by simp [Call.body, hX], by simp [Call.needs, accessed]⟩
    · exact ⟨wr (.tx x) :: wr .out :: rd .state :: (a :: l).flatMap appendActs, [wr .history, rd .table] ++
        (List.replicate evicted [rd .table, acq .files .wr, wr .table, rel .files]).flatten ++ [wr .head, wr (.tx x), rel .tree, rel (.tx x)],
        by simp [Call.body], by simp [Call.needs, accessed]⟩
    · exact ⟨wr (.tx x) :: wr .out :: rd .state :: (a :: l).flatMap appendActs ++ [wr .state], [rd .table] ++
        (List.replicate evicted [rd .table, acq .files .wr, wr .table, rel .files]).flatten ++ [wr .head, wr (.tx x), rel .tree, rel (.tx x)],
        by simp [Call.body], by simp [Call.needs, accessed]⟩
    · exact ⟨wr (.tx x) :: wr .out :: rd .state :: (a :: l).flatMap appendActs ++ [wr .state, wr .history, rd .table] ++
        (List.replicate evicted [rd .table, acq .files .wr, wr .table, rel .files]).flatten, [wr (.tx x), rel .tree, rel (.tx x)],
        by simp [Call.body], by simp [Call.needs, accessed]⟩

theorem Call.taken_congr (hc : CallOf op c) {m m' : Mem} (h : ∀ n ∈ c.needs, m n = m' n) (hp : c.taken op m) : c.taken op m' := by
  cases hc with
  | create x k write misses =>
    have h1 : m .head = m' .head := h .head (by cases write <;> simp [Call.needs])
    show write = (k.isSome || (show B32 × Bool from m' .head).2)
    rw [← h1]; exact hp
  | txRoot x write =>
    have h1 : m (.tx x) = m' (.tx x) := h (.tx x) (by simp [Call.needs])
    intro t n ht
    rw [← h1] at ht
    exact hp t n ht
  | prove x k write misses =>
    have h1 : m (.tx x) = m' (.tx x) := h (.tx x) (by simp [Call.needs])
    intro t n ht
    rw [← h1] at ht
    exact hp t n ht
  | _ => trivial

/-- Run alone, the program leaves the memory as the operation does. -/
theorem canon_memory (hc : CallOf op c) (hf : c.full) (hp : c.taken op m0) (e : step E m0.sys op = .ok (s1, r)) :
    (alone ((canon E op c).pre ++ (canon E op c).body) (m0, (canon E op c).loc)).1 = s1.mem := by
  rw [alone_append, alone_pre (pre := (canon E op c).pre) (Call.pre_ok c).2]
  funext v
  show (alone (c.body.map (canonAct E op c.needs)) (m0, View.empty)).1 v = s1.mem v
  by_cases hv : v ∈ c.changes
  · obtain ⟨A1, A2, eb, hn⟩ := Call.body_changes hc hf v hv
    rw [eb, List.map_append, List.map_cons, alone_append, alone_cons]
    obtain ⟨h1, h2⟩ := canon_seen (E := E) (op := op) (N := c.needs) A1 (Seen.init m0)
    refine canon_keep hc hp e A2 (canon_step h1 _).1 v ?_
    rw [canon_wr hc hp e h1 v, if_pos]
    rw [View.has_iff]
    intro n hn2
    rcases hn n hn2 with rfl | h3
    · rw [(h1.see n).1]; rfl
    · by_cases hnv : n = v
      · subst hnv; rw [(h1.see n).1]; rfl
      · rw [View.see_ne _ _ hnv]
        exact (h2 n).2 (.inr h3)
  · have h1 := footprint_changes hc hp e v hv
    rcases canon_either hc hp e c.body (Seen.init m0) v (.inl rfl) with h2 | h2
    · rw [h2, h1]
    · exact h2

theorem canon_view (hc : CallOf op c) (hf : c.full) : ∀ n ∈ c.needs,
    m0 n = (alone ((canon E op c).pre ++ (canon E op c).body) (m0, (canon E op c).loc)).2.mem blankMem n ∧
      ((alone ((canon E op c).pre ++ (canon E op c).body) (m0, (canon E op c).loc)).2 n).isSome = true := by
  intro n hn
  rw [alone_append, alone_pre (pre := (canon E op c).pre) (Call.pre_ok c).2]
  obtain ⟨h1, h2⟩ := canon_seen (E := E) (op := op) (N := c.needs) c.body (Seen.init m0)
  have h3 : ((alone (c.body.map (canonAct E op c.needs)) (m0, View.empty)).2 n).isSome = true := (h2 n).2 (.inr (Call.body_needs hc hf n hn))
  exact ⟨(Seen.mem h1.was h3).symm, h3⟩

theorem canon_implements (hc : CallOf op c) (hf : c.full) : Implements E (canonOut E op c) (canon E op c) op := by
  intro m r ho
  have hview := canon_view (E := E) (m0 := m) hc hf
  unfold canonOut at ho
  split at ho
  · rename_i h
    split at ho
    · rename_i s0 r0 e0
      cases ho
      obtain ⟨s1, e1, _⟩ := footprint_needs hc h.2 (m' := m) (fun n hn => (hview n hn).1.symm) e0
      have hp : c.taken op m := Call.taken_congr hc (fun n hn => (hview n hn).1.symm) h.2
      rw [canon_memory hc hf hp e1, Sys.mem_sys]
      exact e1
    · cases ho
  · cases ho

theorem canon_returns (hc : CallOf op c) (hf : c.full) (hp : c.taken op m0) (e : step E m0.sys op = .ok (s1, r)) :
    canonOut E op c (alone ((canon E op c).pre ++ (canon E op c).body) (m0, (canon E op c).loc)).2 = some r := by
  have hview := canon_view (E := E) (m0 := m0) hc hf
  obtain ⟨s2, e2, _⟩ := footprint_needs hc hp (fun n hn => (hview n hn).1) e
  unfold canonOut
  rw [if_pos ⟨View.has_iff.2 fun n hn => (hview n hn).2, Call.taken_congr hc (fun n hn => (hview n hn).1) hp⟩, e2]

end Urkel
