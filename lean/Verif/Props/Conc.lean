import Verif.Lemmas.ConcProg
import Verif.Lemmas.Concrete
/-
C59: concurrent calls have the results of the same calls made one after the other.
-/
namespace Urkel

variable {L : Type}

/-- C59 (locks): the runs considered here obey the locks exactly as in Model/Locks.lean,
so that C42 and C43 apply to them. -/
theorem C59_locks : ∀ (sched : List Nat) {s s' : Mem × List (CT L)}, crun s sched = some s' →
    lockRun (s.2.map CT.thread) sched = some (s'.2.map CT.thread)
  | [], s, s', e => by cases e; rfl
  | t :: sched, s, s', e => by
    rw [crun] at e
    obtain ⟨s1, e1, e⟩ := Option.bind_eq_some_iff.1 e
    rw [lockRun, cstep_lock e1]
    exact C59_locks sched e

/-- C59 (locking): whatever calls that follow two-phase locking compute, and however
their steps are interleaved, there is an order, in agreement with real time, such that every
finished call ends with what it ends with when the calls are made one after the other in
that order; and if all have finished, the shared memory is the same too. -/
theorem C59_two_phase (calls : List (CProg L)) (h : ∀ p ∈ calls, TwoPhase p) (m : Mem) (sched : List Nat) (m' : Mem) (ths : List (CT L))
    (hrun : crun (m, calls.map CProg.start) sched = some (m', ths)) :
    ∃ order : List Nat, order.Nodup ∧ (∀ i ∈ order, i < calls.length) ∧
      (∀ i j, i ∈ order → j ∈ order → Before sched i j → Precedes order i j) ∧
      (∀ (i : Nat) (c : CT L), ths[i]? = some c → c.pre = [] → c.body = [] → i ∈ order ∧ (i, c.loc) ∈ (serial calls order m).2) ∧
      ((∀ c ∈ ths, c.pre = [] ∧ c.body = []) → (serial calls order m).1 = m' ∧ ∀ i, i < calls.length → i ∈ order) := by
  have hinv := CInv.run h (CInv.init calls m h) hrun
  rw [List.nil_append] at hinv
  refine ⟨linOf (m, calls.map CProg.start) sched, hinv.nodup, hinv.range, fun i j hi hj hb => linOf_precedes hrun hi hj hb, ?_, ?_⟩
  · intro i c hc h1 h2
    obtain ⟨h3, _, h4, _⟩ := hinv.within i c hc h1
    rw [h2] at h4
    exact ⟨h3, h4⟩
  · intro hall
    constructor
    · funext v
      by_cases hv : ∃ (i : Nat) (c : CT L), ths[i]? = some c ∧ (guardOf v, Mode.wr) ∈ c.held
      · obtain ⟨i, c, hc, hw⟩ := hv
        obtain ⟨h1, h2⟩ := hall c (List.mem_of_getElem? hc)
        obtain ⟨_, _, _, h4⟩ := hinv.within i c hc h1
        rw [h4 v hw, h2]
        rfl
      · exact hinv.rest v (fun i c hc _ hw => hv ⟨i, c, hc, hw⟩)
    · intro i hi
      have hi' : i < ths.length := by
        have : ths.length = calls.length := hinv.len
        rw [this]; exact hi
      have hc : ths[i]? = some ths[i] := List.getElem?_eq_getElem hi'
      exact (hinv.within i _ hc (hall _ (List.mem_of_getElem? hc)).1).1

/-- C59 (API): the division of the calls in two parts is that of Model/Locks.lean, but for
the lock of the transaction that `urkel_tx_create` is making. -/
theorem C59_acts (c : Call) : c.acts = match c with
    | .txCreate x write misses => ((Call.pre L (.txCreate x write misses)).map SAct.act ++ Call.body (.txCreate x write misses)).filter
        fun a => a ≠ .acq (.tx x) .wr ∧ a ≠ .wr (.tx x) ∧ a ≠ .rel (.tx x)
    | c => (c.pre L).map SAct.act ++ c.body := by
  have hr : ∀ (x : Nat) (miss : Bool), ((readActs miss).filter fun a => a ≠ .acq (.tx x) .wr ∧ a ≠ .wr (.tx x) ∧ a ≠ .rel (.tx x)) = readActs miss := by
    intro x miss; cases miss <;> simp [readActs]
  have hh : ∀ (x : Nat) (misses : List Bool),
      ((misses.flatMap fun miss => readActs miss ++ [Act.wr .history]).filter fun a => a ≠ .acq (.tx x) .wr ∧ a ≠ .wr (.tx x) ∧ a ≠ .rel (.tx x)) =
        misses.flatMap fun miss => readActs miss ++ [Act.wr .history] := by
    intro x misses
    induction misses with
    | nil => rfl
    | cons a l ih => rw [List.flatMap_cons, List.filter_append, List.filter_append, ih, hr]; simp
  cases c with
  | txCreate x write misses =>
    cases write
    · simp [Call.acts, Call.pre, Call.body, SAct.act]
    · simp only [Call.acts, Call.pre, Call.body, if_true, List.map_cons, List.map_nil, SAct.act, historyActs, List.cons_append, List.nil_append,
        List.filter_cons, List.filter_append, hh, List.append_assoc]
      simp
  | txRoot x write => cases write <;> simp [Call.acts, Call.pre, Call.body, SAct.act]
  | txProve x write misses => cases write <;> simp [Call.acts, Call.pre, Call.body, SAct.act]
  | _ => simp [Call.acts, Call.pre, Call.body, SAct.act]

theorem seq_serial {E : Env} {out : Nat → L → Option Ret} {calls : List (CProg L)} {ops : Nat → Op}
    (himp : ∀ (i : Nat) (p : CProg L), calls[i]? = some p → Implements E (out i) p (ops i)) {ret : Nat → Ret} :
    ∀ (order : List Nat) (m : Mem), (∀ i ∈ order, i < calls.length) →
      (∀ x ∈ (serial calls order m).2, out x.1 x.2 = some (ret x.1)) → Seq E m.sys (order.map fun i => (ops i, ret i)) (serial calls order m).1.sys
  | [], m, _, _ => .nil _
  | i :: is, m, hr, ho => by
    have hi := hr i (.head _)
    have hc : calls[i]? = some calls[i] := List.getElem?_eq_getElem hi
    rw [serial, hc] at ho ⊢
    simp only at ho ⊢
    rw [List.map_cons]
    refine .cons (himp i _ hc m (ret i) (ho _ (.head _))) (seq_serial himp is _ (fun j hj => hr j (.tail _ hj)) fun x hx => ho x (.tail _ hx))

theorem serial_fst (calls : List (CProg L)) : ∀ (order : List Nat) (m : Mem), (∀ i ∈ order, i < calls.length) →
    (serial calls order m).2.map Prod.fst = order
  | [], _, _ => rfl
  | i :: is, m, hr => by
    have hi := hr i (.head _)
    have hc : calls[i]? = some calls[i] := List.getElem?_eq_getElem hi
    rw [serial, hc]
    simp only [List.map_cons]
    rw [serial_fst calls is _ fun j hj => hr j (.tail _ hj)]

/-- C59: API calls made at the same time from several threads, whatever the order in which
their steps interleave, once they have all returned, have returned the same and left the
database and the transactions in the same state as the same calls made one after the other,
in an order in which calls that returned before others were made come first. Calls made by
one thread one after the other are a special case of the latter. -/
theorem C59_calls (E : Env) (out : Nat → L → Option Ret) (calls : List (CProg L)) (kind : Nat → Call) (ops : Nat → Op)
    (hcall : ∀ (i : Nat) (p : CProg L), calls[i]? = some p → CallOf (ops i) (kind i) ∧ Performs p (kind i) ∧ Implements E (out i) p (ops i))
    (s : Sys) (sched : List Nat) (m' : Mem) (ths : List (CT L)) (ret : Nat → Ret)
    (hrun : crun (s.mem, calls.map CProg.start) sched = some (m', ths))
    (hend : ∀ (i : Nat) (c : CT L), ths[i]? = some c → c.pre = [] ∧ c.body = [] ∧ out i c.loc = some (ret i)) :
    ∃ order : List Nat, order.Perm (List.range calls.length) ∧ (∀ i j, i < calls.length → j < calls.length → Before sched i j → Precedes order i j) ∧
      Seq E s (order.map fun i => (ops i, ret i)) m'.sys := by
  have htp : ∀ p ∈ calls, TwoPhase p := by
    intro p hp
    obtain ⟨i, hi, rfl⟩ := List.getElem_of_mem hp
    obtain ⟨h1, h2, _⟩ := hcall i _ (List.getElem?_eq_getElem hi)
    refine performs_twoPhase h2 ?_
    generalize ops i = o, kind i = c at h1
    cases h1 <;> trivial
  obtain ⟨order, hnd, hrange, hprec, hval, hall⟩ := C59_two_phase calls htp s.mem sched m' ths hrun
  obtain ⟨hmem, hin⟩ := hall fun c hc => by
    obtain ⟨i, hi, rfl⟩ := List.getElem_of_mem hc
    exact ⟨(hend i _ (List.getElem?_eq_getElem hi)).1, (hend i _ (List.getElem?_eq_getElem hi)).2.1⟩
  have hlen : ths.length = calls.length := by
    have h := (CInv.run htp (CInv.init calls s.mem htp) hrun).len
    exact h
  have hperm : order.Perm (List.range calls.length) := by
    rw [List.perm_ext_iff_of_nodup hnd List.nodup_range]
    intro i
    rw [List.mem_range]
    exact ⟨hrange i, hin i⟩
  refine ⟨order, hperm, fun i j hi hj hb => hprec i j (hin i hi) (hin j hj) hb, ?_⟩
  rw [← hmem]
  refine seq_serial (fun i p hp => (hcall i p hp).2.2) order s.mem hrange fun x hx => ?_
  have hx1 : x.1 ∈ order := by
    rw [← serial_fst calls order s.mem hrange]
    exact List.mem_map_of_mem hx
  have hlt : x.1 < ths.length := by rw [hlen]; exact hrange _ hx1
  have hc : ths[x.1]? = some ths[x.1] := List.getElem?_eq_getElem hlt
  obtain ⟨h1, h2, h3⟩ := hend _ _ hc
  have h4 := (hval _ _ hc h1 h2).2
  have hnd2 : ((serial calls order s.mem).2.map Prod.fst).Nodup := by rw [serial_fst calls order s.mem hrange]; exact hnd
  have : x = (x.1, (ths[x.1]).loc) := by
    have key : ∀ (l : List (Nat × L)), (l.map Prod.fst).Nodup → ∀ a ∈ l, ∀ b ∈ l, a.1 = b.1 → a = b := by
      intro l
      induction l with
      | nil => intro _ a ha; cases ha
      | cons c l ih =>
        intro hn a ha b hb e
        rw [List.map_cons, List.nodup_cons] at hn
        rcases List.mem_cons.1 ha with ha1 | ha1 <;> rcases List.mem_cons.1 hb with hb1 | hb1
        · rw [ha1, hb1]
        · subst ha1; exact (hn.1 (e ▸ List.mem_map_of_mem hb1)).elim
        · subst hb1; exact (hn.1 (e ▸ List.mem_map_of_mem ha1)).elim
        · exact ih hn.2 a ha1 b hb1 e
    exact key _ hnd2 x hx _ h4 rfl
  rw [this]
  exact h3

/-- C59 (accesses): the accesses to shared state listed in Model/Locks.lean are those that
the operations of Model/Api.lean need: nothing else is changed, and what a call returns and
writes does not depend on anything else. -/
theorem C59_footprint {E : Env} {op : Op} {c : Call} (hc : CallOf op c) {m : Mem} (hp : c.taken op m) {s1 : Sys} {r : Ret}
    (e : step E m.sys op = .ok (s1, r)) :
    (∀ v, .wr v ∉ c.body → c.full → s1.mem v = m v) ∧
      ∀ m' : Mem, c.full → (∀ v, (.rd v ∈ c.body ∨ .wr v ∈ c.body) → m v = m' v) →
        ∃ s1', step E m'.sys op = .ok (s1', r) ∧ ∀ v, m v = m' v → s1.mem v = s1'.mem v := by
  refine ⟨fun v hv hf => footprint_changes hc hp e v fun hn => ?_, fun m' hf h => footprint_needs hc hp (fun n hn => h n (Call.body_needs hc hf n hn)) e⟩
  obtain ⟨A1, A2, eb, _⟩ := Call.body_changes hc hf v hn
  exact hv (by rw [eb]; simp)

/-- C59 (programs): for every operation and every call that makes it there is a program with
exactly the lock operations and accesses of the call that implements the operation, and that
returns whenever the operation does and the code takes that path: `C59_calls` is about all
of the API. -/
theorem C59_programs (E : Env) {op : Op} {c : Call} (hc : CallOf op c) (hf : c.full) :
    ∃ (p : CProg View) (out : View → Option Ret), Performs p c ∧ Implements E out p op ∧
      ∀ (m : Mem) (s1 : Sys) (r : Ret), c.taken op m → step E m.sys op = .ok (s1, r) → out (alone (p.pre ++ p.body) (m, p.loc)).2 = some r :=
  ⟨canon E op c, canonOut E op c, canon_performs E op c, canon_implements hc hf, fun _ _ _ hp e => canon_returns hc hf hp e⟩

theorem canonOut_of {E : Env} {op : Op} {c : Call} (hc : CallOf op c) {m : Mem} {w : View} (hw : ∀ n ∈ c.needs, w n = some (m n))
    (hp : c.taken op m) {s1 : Sys} {r : Ret} (e : step E m.sys op = .ok (s1, r)) : canonOut E op c w = some r := by
  have hv : ∀ n ∈ c.needs, m n = w.mem blankMem n := fun n hn => by unfold View.mem; rw [hw n hn]; rfl
  obtain ⟨s2, e2, _⟩ := footprint_needs hc hp hv e
  unfold canonOut
  rw [if_pos ⟨View.has_iff.2 fun n hn => by rw [hw n hn]; rfl, Call.taken_congr hc hv hp⟩, e2]

/-- Two readers at the same time. -/
theorem two_readers (E : Env) (k : B32) (m : Mem) : ∃ ths, crun (m, [canon E .root .root, canon E (.get 0 k) (.txGet 0 [false])].map CProg.start)
      [1, 1, 0, 1, 1, 0, 1, 1, 1, 1, 0, 1, 1] = some (m, ths) ∧ ∀ (i : Nat) (c : CT View), ths[i]? = some c → c.pre = [] ∧ c.body = [] ∧
        ((i = 0 ∧ c.loc .head = some (m .head)) ∨ (i = 1 ∧ c.loc (.tx 0) = some (m (.tx 0)) ∧ c.loc .out = some (m .out))) := by
  refine ⟨[⟨[], [], [], View.empty.see .head (m .head)⟩, ⟨[], [], [], (((View.empty.see (.tx 0) (m (.tx 0))).see .out (m .out)).see .table (m .table)).see .out (m .out)⟩],
    by simp [crun, cstep, canon, CProg.start, Call.pre, Call.body, readsActs, readActs, canonAct, canStep, lockFree, SAct.eff, heldAfter, CT.thread, Thread.holds, Thread.holdsWr], ?_⟩
  intro i c hc
  match i, hc with
  | 0, hc => cases hc; exact ⟨rfl, rfl, .inl ⟨rfl, rfl⟩⟩
  | 1, hc => cases hc; exact ⟨rfl, rfl, .inr ⟨rfl, rfl, rfl⟩⟩
  | n + 2, hc => cases hc

/-- A run that meets the hypotheses of `C59_calls`: `urkel_root` and `urkel_tx_get` of a
pair just inserted, both holding the tree lock at the same time. -/
example (k : B32) (v : Bytes) (hv : v.length ≤ 1023) :
    ∃ m' ths, crun ((sys2 k v).mem, [canon toyEnv .root .root, canon toyEnv (.get 0 k) (.txGet 0 [false])].map CProg.start)
      [1, 1, 0, 1, 1, 0, 1, 1, 1, 1, 0, 1, 1] = some (m', ths) ∧ ∀ (i : Nat) (c : CT View), ths[i]? = some c → c.pre = [] ∧ c.body = [] ∧
        (if i = 0 then canonOut toyEnv .root .root else canonOut toyEnv (.get 0 k) (.txGet 0 [false])) c.loc =
          some (if i = 0 then .hash (dbRoot (sys2 k v).db) else .bytes v) := by
  obtain ⟨ths, e, h⟩ := two_readers toyEnv k (sys2 k v).mem
  refine ⟨_, ths, e, fun i c hc => ?_⟩
  obtain ⟨h1, h2, h3⟩ := h i c hc
  refine ⟨h1, h2, ?_⟩
  rcases h3 with ⟨rfl, h3⟩ | ⟨rfl, h3, h4⟩
  · simp only [if_true]
    refine canonOut_of CallOf.root (m := (sys2 k v).mem) (s1 := sys2 k v) ?_ trivial ?_
    · intro n hn
      simp only [Call.needs, List.mem_cons, List.not_mem_nil, or_false] at hn
      subst hn; exact h3
    · rfl
  · rw [if_neg (by decide), if_neg (by decide)]
    refine canonOut_of (CallOf.get 0 k [false]) (m := (sys2 k v).mem) (s1 := sys2 k v) ?_ trivial ?_
    · intro n hn
      simp only [Call.needs, List.mem_cons, List.not_mem_nil, or_false] at hn
      rcases hn with rfl | rfl
      · exact h3
      · exact h4
    · rw [Sys.mem_sys]
      have hg : txGet db0 (leafTx k v) k = .ok v := by
        rw [sys2_shows k v hv k]
        simp [Contents.read, Contents.ofList, Contents.set]
      simp only [step]
      refine bind_step (a := leafTx k v) rfl ?_
      rw [sys2_db, hg]
      rfl

end Urkel
