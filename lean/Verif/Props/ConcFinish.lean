import Verif.Props.Conc
import Verif.Props.Locks
/-
C59, the other half: the executions it speaks about exist. Nothing but a lock ever holds up
a call.
-/
namespace Urkel

variable {L : Type}

/-- Whenever the locks allow a step it can be made. -/
theorem lock_cstep {s : Mem × List (CT L)} {t : Nat} {ths : List Thread}
    (e : lockStep false (s.2.map CT.thread) t = some ths) : ∃ s', cstep s t = some s' := by
  unfold lockStep at e
  unfold cstep
  rw [List.getElem?_map] at e
  cases hc : s.2[t]? with
  | none => rw [hc] at e; cases e
  | some c =>
    rw [hc] at e
    dsimp only [Option.map_some] at e ⊢
    have key : ∀ (a : SAct L) (rest : List (SAct L)), c.pre ++ c.body = a :: rest →
        canStep s.2 a = true := by
      intro a rest h
      have hprog : c.thread.prog = a.act :: rest.map SAct.act := by
        show (c.pre ++ c.body).map SAct.act = _
        rw [h]; rfl
      rw [hprog] at e
      cases a with
      | acq l m =>
        dsimp only [SAct.act] at e
        by_cases hf : lockFree false (s.2.map CT.thread) l m = true
        · exact hf
        · rw [if_neg hf] at e; cases e
      | _ => rfl
    cases hpre : c.pre with
    | cons a pre =>
      dsimp only
      rw [if_pos (key a (pre ++ c.body) (by rw [hpre]; rfl))]
      exact ⟨_, rfl⟩
    | nil =>
      cases hbd : c.body with
      | cons a body =>
        dsimp only
        rw [if_pos (key a body (by rw [hpre, hbd]; rfl))]
        exact ⟨_, rfl⟩
      | nil =>
        have hprog : c.thread.prog = [] := by
          show (c.pre ++ c.body).map SAct.act = _
          rw [hpre, hbd]; rfl
        rw [hprog] at e
        cases e

/-- C59 (schedules): every order of steps the locks allow (Model/Locks.lean) is an
execution, whatever the calls compute. -/
theorem C59_schedules : ∀ (sched : List Nat) {s : Mem × List (CT L)} {ths : List Thread},
    lockRun (s.2.map CT.thread) sched = some ths →
    ∃ s', crun s sched = some s' ∧ s'.2.map CT.thread = ths
  | [], s, ths, e => by cases e; exact ⟨s, rfl, rfl⟩
  | t :: sched, s, ths, e => by
    rw [lockRun] at e
    obtain ⟨ths1, e1, e⟩ := Option.bind_eq_some_iff.1 e
    obtain ⟨s1, hs1⟩ := lock_cstep e1
    rw [cstep_lock hs1] at e1
    cases e1
    obtain ⟨s', h1, h2⟩ := C59_schedules sched e
    exact ⟨s', by rw [crun, hs1]; exact h1, h2⟩

/-- The transaction and iterator locks a call takes, `urkel_tx_create` included. -/
def Call.locks : Call → List Lock
  | .txCreate x _ _ => [.tx x]
  | c => c.uses

/-- What a call does, in two parts. -/
def Call.steps (L : Type) (c : Call) : List Act := (c.pre L).map SAct.act ++ c.body

theorem Call.steps_disc (c : Call) {priv : Lock → Prop} (hown : ∀ l ∈ c.owns, priv l) : Disc true priv [] (c.steps L) := by
  have hd := c.disc (strict := true) (priv := priv) (fun _ => hown) [] rfl
  rw [List.append_nil, C59_acts (L := L)] at hd
  have ftx : ∀ m x mx, FilesOk [(Lock.tree, m), (Lock.tx x, mx)] := fun m x mx => ⟨by simp, m, by simp⟩
  cases c with
  | txCreate x write misses =>
    unfold Call.steps Call.pre Call.body
    cases write with
    | false =>
      simp only [Bool.false_eq_true, if_false, List.map_cons, List.map_nil, SAct.act, List.cons_append, List.nil_append]
      refine ⟨by simp, fun _ => .inr (by simp), by simp, fun _ => .inr (by simp [Lock.rank]), ⟨.rd, by simp⟩, ⟨.rd, by simp⟩, ⟨.rd, by simp⟩,
        ⟨.rd, by simp⟩, ?_⟩
      simp [Disc, coverWr]
    | true =>
      simp only [if_true, List.map_cons, List.map_nil, SAct.act, List.cons_append, List.nil_append]
      refine ⟨by simp, fun _ => .inr (by simp), by simp, fun _ => .inr (by simp [Lock.rank]), ⟨.rd, by simp⟩, ⟨.rd, by simp⟩, ?_⟩
      simp only [ne_eq, List.filter_cons, not_true, decide_false, Bool.false_eq_true, if_false, List.filter_nil, reduceCtorEq, not_false_iff, decide_true, if_true]
      refine ⟨by simp, fun _ => .inr (by simp [Lock.rank]), ⟨.wr, by simp⟩, ?_⟩
      refine (historyActs_neutral (ftx _ _ _) (by simp) misses).disc ?_
      simp [Disc, coverWr]
  | _ => exact hd

theorem Call.steps_locks (c : Call) {l : Lock} {m : Mode} (h : Act.acq l m ∈ c.steps L) : l = .tree ∨ l = .files ∨ l ∈ c.locks := by
  have ha := c.uses_acts (l := l) (m := m)
  rw [C59_acts (L := L)] at ha
  cases c with
  | txCreate x write misses =>
    by_cases hx : l = .tx x
    · subst hx; exact .inr (.inr (List.mem_singleton.2 rfl))
    · rcases ha (List.mem_filter.2 ⟨h, by simp [hx]⟩) with h | h | h
      · exact .inl h
      · exact .inr (.inl h)
      · cases h
  | _ => exact ha h

/-- C59 (completion): calls that take the steps of Model/Locks.lean and do not get in each
other's way as in C42 can at any time be completed, whatever they have done so far; nothing
they find in the memory can hold them up. -/
theorem C59_finish (calls : List (CProg L)) (kinds : List Call)
    (hsteps : calls.map (fun p => (p.pre ++ p.body).map SAct.act) = kinds.map fun c => (c.pre L).map SAct.act ++ c.body)
    (hown : ∀ (t u : Nat) (c d : Call), kinds[t]? = some c → kinds[u]? = some d → t ≠ u →
      ∀ l ∈ c.owns, l ∉ d.locks)
    (m : Mem) (sched : List Nat) (s : Mem × List (CT L))
    (hrun : crun (m, calls.map CProg.start) sched = some s) :
    ∃ rest s', crun (m, calls.map CProg.start) (sched ++ rest) = some s' ∧
      s'.2.length = calls.length ∧ ∀ c ∈ s'.2, c.pre = [] ∧ c.body = [] ∧ c.held = [] := by
  have hth : (calls.map CProg.start).map CT.thread = kinds.map fun c => ⟨[], c.steps L⟩ := by
    have h2 := congrArg (List.map fun p => (⟨[], p⟩ : Thread)) hsteps
    rw [List.map_map, List.map_map] at h2
    rw [List.map_map]
    exact h2
  have hl := C59_locks sched hrun
  rw [show ((m, calls.map CProg.start).2.map CT.thread) = _ from hth] at hl
  have hget : ∀ (t : Nat) (th : Thread), (kinds.map fun c => (⟨[], c.steps L⟩ : Thread))[t]? = some th → ∃ c, kinds[t]? = some c ∧ th = ⟨[], c.steps L⟩ := by
    intro t th ht
    rw [List.getElem?_map] at ht
    obtain ⟨c, h1, rfl⟩ := Option.map_eq_some_iff.1 ht
    exact ⟨c, h1, rfl⟩
  have hinv : LInv true (fun t l => ∃ c, kinds[t]? = some c ∧ l ∈ c.owns) (kinds.map fun c => (⟨[], c.steps L⟩ : Thread)) := by
    refine ⟨?_, ?_, ?_⟩
    · intro t th ht
      obtain ⟨c, hc, rfl⟩ := hget t th ht
      exact c.steps_disc fun l hl => ⟨c, hc, hl⟩
    · intro t u a b ha _ _ l hl
      obtain ⟨c, hc, rfl⟩ := hget t a ha
      cases hl
    · rintro t u b hb htu l ⟨c, hc, hl⟩ hu
      obtain ⟨d, hd, rfl⟩ := hget u b hb
      rcases hu with ⟨m, hm⟩ | ⟨m, hm⟩
      · cases hm
      · rcases d.steps_locks hm with rfl | rfl | hu
        · exact not_priv_table.2 hl
        · exact not_priv_table.1 hl
        · exact hown t u c d hc hd htu l hl hu
  obtain ⟨rest, ths', hr, hdone⟩ := (hinv.run hl).finish
  obtain ⟨s', h1, h2⟩ := C59_schedules rest hr
  refine ⟨rest, s', by rw [crun_append, hrun]; exact h1, ?_, fun c hc => ?_⟩
  · have hlen : ∀ (l : List Nat) {a b : Mem × List (CT L)}, crun a l = some b →
        b.2.length = a.2.length := by
      intro l
      induction l with
      | nil => intro a b e; cases e; rfl
      | cons t l ih =>
        intro a b e
        rw [crun] at e
        obtain ⟨a1, e1, e⟩ := Option.bind_eq_some_iff.1 e
        rw [ih e]
        unfold cstep at e1
        split at e1
        · cases e1
        · split at e1
          · split at e1
            · cases e1; exact List.length_set
            · cases e1
          · split at e1
            · cases e1; exact List.length_set
            · cases e1
          · cases e1
    rw [hlen rest h1, hlen sched hrun]
    exact List.length_map ..
  · obtain ⟨h3, h4⟩ := hdone c.thread (by rw [← h2]; exact List.mem_map_of_mem hc)
    have h3' : (c.pre ++ c.body).map SAct.act = [] := h3
    rw [List.map_eq_nil_iff, List.append_eq_nil_iff] at h3'
    exact ⟨h3'.1, h3'.2, h4⟩

/-- A commit beside a lookup in another transaction and the creation of a third one, whatever
they have done so far. -/
theorem C59_finish_example (E : Env) (k : B32) (m : Mem) (sched : List Nat) (s : Mem × List (CT View))
    (hrun : crun (m, [canon E (.commit 0) (.txCommit 0 [false] 0), canon E (.create 2 none) (.txCreate 2 false []),
      canon E (.get 1 k) (.txGet 1 [false])].map CProg.start) sched = some s) :
    ∃ rest s', crun (m, [canon E (.commit 0) (.txCommit 0 [false] 0), canon E (.create 2 none) (.txCreate 2 false []),
      canon E (.get 1 k) (.txGet 1 [false])].map CProg.start) (sched ++ rest) = some s' ∧
      s'.2.length = 3 ∧ ∀ c ∈ s'.2, c.pre = [] ∧ c.body = [] ∧ c.held = [] := by
  refine C59_finish _ [.txCommit 0 [false] 0, .txCreate 2 false [], .txGet 1 [false]] rfl ?_ m sched s hrun
  intro t u c d hc hd htu
  match t, u with
  | 0, 0 | 1, 1 | 2, 2 => exact absurd rfl htu
  | 0, 1 | 0, 2 | 1, 0 | 1, 2 | 2, 0 | 2, 1 => cases hc; cases hd; decide
  | t + 3, _ => cases hc
  | 0, u + 3 | 1, u + 3 | 2, u + 3 => cases hd

end Urkel
