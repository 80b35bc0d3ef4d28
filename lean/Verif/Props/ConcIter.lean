import Verif.Lemmas.ConcIter
import Verif.Props.Conc
import Verif.Props.Iter
import Verif.Lemmas.Damage
/-
C85: iterations among concurrent calls.
-/
namespace Urkel

variable {L : Type}

theorem JobOf.single {j : Job} {c : Call} (h : JobOf j c) : c.single := by
  cases h with
  | call h => cases h <;> trivial
  | scan x k nexts => rfl

theorem jobSeq_serial {E : Env} {out : Nat → L → Option JobRet} {calls : List (CProg L)} {jobs : Nat → Job}
    (himp : ∀ (i : Nat) (p : CProg L), calls[i]? = some p → DoesJob E (out i) p (jobs i)) {ret : Nat → JobRet} :
    ∀ (order : List Nat) (m : Mem), (∀ i ∈ order, i < calls.length) →
      (∀ x ∈ (serial calls order m).2, out x.1 x.2 = some (ret x.1)) → JobSeq E m.sys (order.map fun i => (jobs i, ret i)) (serial calls order m).1.sys
  | [], m, _, _ => .nil _
  | i :: is, m, hr, ho => by
    have hi := hr i (.head _)
    have hc : calls[i]? = some calls[i] := List.getElem?_eq_getElem hi
    rw [serial, hc] at ho ⊢
    simp only at ho ⊢
    rw [List.map_cons]
    refine .cons (himp i _ hc m (ret i) (ho _ (.head _))) (jobSeq_serial himp is _ (fun j hj => hr j (.tail _ hj)) fun x hx => ho x (.tail _ hx))

/-- C85: calls and whole iterations by several threads, the iterations going on while other calls are made by any thread, also by the one that iterates. However their steps
interleave, once all are done they have returned what they return when done one after the other, in an order in which what ended before something else began comes first, and in which each
iteration comes before everything that began when `urkel_iter_create` had returned: an iteration shows one state, the one it was made in. -/
theorem C85_jobs (E : Env) (out : Nat → L → Option JobRet) (calls : List (CProg L)) (kind : Nat → Call) (jobs : Nat → Job)
    (hcall : ∀ (i : Nat) (p : CProg L), calls[i]? = some p → JobOf (jobs i) (kind i) ∧ Performs p (kind i) ∧ DoesJob E (out i) p (jobs i))
    (s : Sys) (sched : List Nat) (m' : Mem) (ths : List (CT L)) (ret : Nat → JobRet)
    (hrun : crun (s.mem, calls.map CProg.start) sched = some (m', ths))
    (hend : ∀ (i : Nat) (c : CT L), ths[i]? = some c → c.pre = [] ∧ c.body = [] ∧ out i c.loc = some (ret i)) :
    ∃ order : List Nat, order.Perm (List.range calls.length) ∧ (∀ i j, i < calls.length → j < calls.length → Before sched i j → Precedes order i j) ∧
      (∀ i j x n, i < calls.length → j < calls.length → jobs i = .scan x n → BegunAfter sched 3 i j → Precedes order i j) ∧
      JobSeq E s (order.map fun i => (jobs i, ret i)) m'.sys := by
  have htp : ∀ p ∈ calls, TwoPhase p := by
    intro p hp
    obtain ⟨i, hi, rfl⟩ := List.getElem_of_mem hp
    obtain ⟨h1, h2, _⟩ := hcall i _ (List.getElem?_eq_getElem hi)
    exact performs_twoPhase h2 h1.single
  have hinv := CInv.run htp (CInv.init calls s.mem htp) hrun
  rw [List.nil_append] at hinv
  have hlen : ths.length = calls.length := hinv.len
  have hget : ∀ i, i < calls.length → ∃ c, ths[i]? = some c := fun i hi => ⟨_, List.getElem?_eq_getElem (hlen ▸ hi)⟩
  have hin : ∀ i, i < calls.length → i ∈ linOf (s.mem, calls.map CProg.start) sched := fun i hi => by
    obtain ⟨c, hc⟩ := hget i hi
    exact (hinv.within i c hc (hend i c hc).1).1
  have hval : ∀ (i : Nat) (c : CT L), ths[i]? = some c → (i, c.loc) ∈ (serial calls (linOf (s.mem, calls.map CProg.start) sched) s.mem).2 := by
    intro i c hc
    have h := (hinv.within i c hc (hend i c hc).1).2.2.1
    rw [(hend i c hc).2.1] at h
    exact h
  have hmem : (serial calls (linOf (s.mem, calls.map CProg.start) sched) s.mem).1 = m' := by
    funext v
    by_cases hv : ∃ (i : Nat) (c : CT L), ths[i]? = some c ∧ (guardOf v, Mode.wr) ∈ c.held
    · obtain ⟨i, c, hc, hw⟩ := hv
      obtain ⟨_, _, _, h4⟩ := hinv.within i c hc (hend i c hc).1
      rw [h4 v hw, (hend i c hc).2.1]
      rfl
    · exact hinv.rest v (fun i c hc _ hw => hv ⟨i, c, hc, hw⟩)
  refine ⟨linOf (s.mem, calls.map CProg.start) sched, ?_, fun i j hi hj hb => linOf_precedes hrun (hin i hi) (hin j hj) hb, ?_, ?_⟩
  · rw [List.perm_ext_iff_of_nodup hinv.nodup List.nodup_range]
    intro i
    rw [List.mem_range]
    exact ⟨hinv.range i, hin i⟩
  · intro i j x n hi hj hs hb
    have hp : calls[i]? = some calls[i] := List.getElem?_eq_getElem hi
    obtain ⟨h1, h2, _⟩ := hcall i _ hp
    refine linOf_begun htp hrun hp ?_ (hin j hj) hb
    rw [hs] at h1
    rw [h2.1]
    generalize kind i = c at h1
    cases h1
    show 2 ≤ 3
    omega
  · rw [← hmem]
    refine jobSeq_serial (fun i p hp => (hcall i p hp).2.2) _ s.mem hinv.range fun x hx => ?_
    have hx1 : x.1 ∈ linOf (s.mem, calls.map CProg.start) sched := by
      rw [← serial_fst calls _ s.mem hinv.range]
      exact List.mem_map_of_mem hx
    obtain ⟨c, hc⟩ := hget x.1 (hinv.range _ hx1)
    have h4 := hval _ _ hc
    have hnd2 : ((serial calls (linOf (s.mem, calls.map CProg.start) sched) s.mem).2.map Prod.fst).Nodup := by rw [serial_fst calls _ s.mem hinv.range]; exact hinv.nodup
    have : x = (x.1, c.loc) := by
      have key : ∀ (l : List (Nat × L)), (l.map Prod.fst).Nodup → ∀ a ∈ l, ∀ b ∈ l, a.1 = b.1 → a = b := by
        intro l
        induction l with
        | nil => intro _ a ha; cases ha
        | cons c l ih =>
          intro hn a ha b hb e
          rw [List.map_cons, List.nodup_cons] at hn
          rcases List.mem_cons.1 ha with ha1 | ha1 <;> rcases List.mem_cons.1 hb with hb1 | hb1
          · rw [ha1, hb1]
          · subst ha1; exact (hn.1 (e ▸ List.mem_map_of_mem hb1)).elim
          · subst hb1; exact (hn.1 (e ▸ List.mem_map_of_mem ha1)).elim
          · exact ih hn.2 a ha1 b hb1 e
      exact key _ hnd2 x hx _ h4 rfl
    rw [this]
    exact (hend _ _ hc).2.2

/-- C85 (what an iteration returns): the pairs of the transaction, in order, and then the end. -/
theorem C85_scan_partial {E : Env} (hE : EnvOk E) {s s' : Sys} (hr : Reachable E s) {x n : Nat} {tx : Tx} (hx : s.txs x = some tx) {c : Contents} (hc : Shows s.db tx c)
    (hsh : Shallow 127 c) {r : JobRet} (e : jobStep E s (.scan x n) = .ok (s', r)) : s' = s ∧ ∃ l, Lists l c ∧ r = .pairs (listing l n) := by
  obtain ⟨it, l, e1, hl, h⟩ := C30_iteration_partial hE hr hx hc hsh
  have hamid : ∀ n, Amid E x s (List.replicate n s) := by
    intro n
    induction n with
    | zero => exact .nil s
    | succ n ih => exact .cons (.nil s) (fun _ h => nomatch h) ih
  have h2 := h _ (hamid n)
  rw [List.map_replicate, List.length_replicate] at h2
  simp only [jobStep, Sys.tx, hx, Res.bind_ok, e1, h2] at e
  cases e
  exact ⟨rfl, l, hl, rfl⟩

/-- Jobs that the API allows in the states they are done in. -/
def JobsAllowed (E : Env) : Sys → List (Job × JobRet) → Prop
  | _, [] => True
  | s, (.call op, _) :: t => Allowed E s op ∧ ∀ s1 r, step E s op = .ok (s1, r) → JobsAllowed E s1 t
  | s, (.scan _ _, _) :: t => JobsAllowed E s t

theorem jobSeq_reachable {E : Env} : ∀ {t : List (Job × JobRet)} {s s' : Sys}, Reachable E s → JobSeq E s t s' → JobsAllowed E s t → Reachable E s'
  | [], s, s', hr, h, _ => by cases h; exact hr
  | (.call op, _) :: t, s, s', hr, h, ha => by
    cases h with
    | cons e h =>
      obtain ⟨⟨s1, r⟩, e1, e2⟩ := Res.bind_eq_ok.1 e
      cases e2
      exact jobSeq_reachable (hr.next ha.1 e1) h (ha.2 _ _ e1)
  | (.scan x n, _) :: t, s, s', hr, h, ha => by
    cases h with
    | cons e h =>
      have : _ = s := (scan_step (m := s.mem) (m' := s.mem) rfl rfl e).1
      subst this
      exact jobSeq_reachable hr h ha

theorem JobSeq.split {E : Env} : ∀ {a b : List (Job × JobRet)} {s s' : Sys}, JobSeq E s (a ++ b) s' → ∃ s1, JobSeq E s a s1 ∧ JobSeq E s1 b s'
  | [], b, s, s', h => ⟨s, .nil s, h⟩
  | x :: a, b, s, s', h => by
    cases h with
    | cons e h =>
      obtain ⟨s1, h1, h2⟩ := JobSeq.split h
      exact ⟨s1, .cons e h1, h2⟩

theorem JobsAllowed.left {E : Env} : ∀ {a b : List (Job × JobRet)} {s : Sys}, JobsAllowed E s (a ++ b) → JobsAllowed E s a
  | [], _, _, _ => trivial
  | (.call op, _) :: a, b, s, h => ⟨h.1, fun s1 r e => JobsAllowed.left (h.2 s1 r e)⟩
  | (.scan _ _, _) :: a, b, s, h => JobsAllowed.left (a := a) h

/-- C85: in a run of allowed jobs from a reachable state, each iteration returns the pairs that its transaction has in one state, the one that the jobs before it in the order lead to. -/
theorem C85_snapshot_partial {E : Env} (hE : EnvOk E) {s s' : Sys} (hr : Reachable E s) {before after : List (Job × JobRet)} {x n : Nat} {r : JobRet}
    (h : JobSeq E s (before ++ (.scan x n, r) :: after) s') (ha : JobsAllowed E s (before ++ (.scan x n, r) :: after)) :
    ∃ s1, JobSeq E s before s1 ∧ JobSeq E s1 after s' ∧ Reachable E s1 ∧ ∃ tx, s1.txs x = some tx ∧
      ∀ c, Shows s1.db tx c → Shallow 127 c → ∃ l, Lists l c ∧ r = .pairs (listing l n) := by
  obtain ⟨s1, h1, h2⟩ := h.split
  have hr1 := jobSeq_reachable hr h1 ha.left
  cases h2 with
  | cons e h2 =>
    have hs : _ = s1 := (scan_step (m := s1.mem) (m' := s1.mem) rfl rfl e).1
    subst hs
    have e' := e
    simp only [jobStep] at e'
    obtain ⟨tx, e1, e'⟩ := Res.bind_eq_ok.1 e'
    have hx : _ = some tx := Sys.tx_some e1
    exact ⟨_, h1, h2, hr1, tx, hx, fun c hc hsh => (C85_scan_partial hE hr1 hx hc hsh e).2⟩

/-- C85: there are such programs, for every call and for every iteration that reads anything, and they return whenever the job can be done. -/
theorem C85_programs (E : Env) {j : Job} {c : Call} (hc : JobOf j c) (hf : c.reads) :
    ∃ (p : CProg View) (out : View → Option JobRet), Performs p c ∧ DoesJob E out p j ∧
      ∀ (m : Mem) (s1 : Sys) (r : JobRet), (∀ op, j = .call op → c.taken op m) → jobStep E m.sys j = .ok (s1, r) → out (alone (p.pre ++ p.body) (m, p.loc)).2 = some r := by
  cases hc with
  | @call op c h =>
    have hf : c.full := by cases h <;> exact hf
    refine ⟨canon E op c, fun w => (canonOut E op c w).map .ret, canon_performs E op c, ?_, ?_⟩
    · intro m r ho
      obtain ⟨r0, h1, rfl⟩ := Option.map_eq_some_iff.1 ho
      have := canon_implements h hf m r0 h1
      simp only [jobStep, this, Res.bind_ok]
      rfl
    · intro m s1 r ht e
      obtain ⟨⟨s2, r0⟩, e1, e2⟩ := Res.bind_eq_ok.1 e
      cases e2
      show Option.map JobRet.ret _ = _
      rw [canon_returns h hf (ht op rfl) e1]
      rfl
  | scan x k nexts =>
    exact ⟨scanProg x k nexts, scanOut E x nexts.length, scan_performs x k nexts, scan_does E x k nexts, fun m s1 r _ e => scan_returns E x k nexts hf e⟩

/-- `crun`, in the order in which it is evaluated. -/
def runO {L : Type} (o : Option (Mem × List (CT L))) (l : List Nat) : Option (Mem × List (CT L)) := o.bind fun s => crun s l

theorem crun_runO {L : Type} (s : Mem × List (CT L)) (l : List Nat) : crun s l = runO (some s) l := rfl
theorem runO_append {L : Type} (o : Option (Mem × List (CT L))) (a b : List Nat) : runO o (a ++ b) = runO (runO o a) b := by
  cases o with
  | none => rfl
  | some s => exact crun_append a b s
theorem runO_nil {L : Type} (o : Option (Mem × List (CT L))) : runO o [] = o := by cases o <;> rfl
theorem runO_cons {L : Type} (s : Mem × List (CT L)) (t : Nat) (l : List Nat) : runO (some s) (t :: l) = runO (cstep s t) l := rfl

/-- A run in which `urkel_root` is called, and returns, in the middle of an iteration. -/
def overlap : List Nat := [0, 0, 0, 1, 0] ++ [0, 0, 0, 0, 0] ++ [0, 0, 0, 1, 1] ++ [0, 0, 0, 0] ++ [0, 0, 0, 0, 0]

theorem scan_overlap (E : Env) (m : Mem) : ∃ ths, crun (m, [scanProg 0 0 [[false], []], canon E .root .root].map CProg.start) overlap = some (m, ths) ∧
      ∀ (i : Nat) (c : CT View), ths[i]? = some c → c.pre = [] ∧ c.body = [] ∧
        ((i = 1 ∧ c.loc .head = some (m .head)) ∨ (i = 0 ∧ c.loc (.tx 0) = some (m (.tx 0)) ∧ c.loc .out = some (m .out))) := by
  rw [overlap, crun_runO, runO_append, runO_append, runO_append, runO_append]
  simp only [canon, scanProg, CProg.start, List.map, Call.pre, Call.body, readsActs, readActs, List.flatMap_cons, List.flatMap_nil, List.nil_append, List.cons_append, List.append_nil, lookAct, canonAct, if_false, Bool.false_eq_true]
  simp [Mem.set_self, runO_nil, runO_cons, cstep, canStep, lockFree, SAct.eff, heldAfter, CT.thread, Thread.holds, Thread.holdsWr]
  intro i c hc
  match i, hc with
  | 0, hc => cases hc; exact ⟨rfl, rfl, .inr ⟨rfl, rfl, rfl⟩⟩
  | 1, hc => cases hc; exact ⟨rfl, rfl, .inl ⟨rfl, rfl⟩⟩
  | n + 2, hc => cases hc

theorem scan_pairs (k : B32) (v : Bytes) (hv : v.length ≤ 1023) :
    jobStep toyEnv (sys2 k v) (.scan 0 2) = .ok (sys2 k v, .pairs [.ok (k, v), .error .EITEREND]) := by
  have hr : storeRetrieve db0.store (some v) none = .ok (some v) := by
    simp only [storeRetrieve]
    rw [check_of (decide_eq_true (show v.length ≤ valueSize from hv))]
    rfl
  have e1 : ∀ n, nextLoop db0.store (n + 1) ⟨createLeaf toyEnv.H k v, none, [], false⟩ =
      (storeRetrieve db0.store (some v) none).bind fun r => match r with
        | none => .ok (⟨createLeaf toyEnv.H k v, some (createLeaf toyEnv.H k v), [⟨createLeaf toyEnv.H k v, 0, false, 0⟩], false⟩, .error .ECORRUPTION)
        | some x => .ok (⟨createLeaf toyEnv.H k v, some (createLeaf toyEnv.H k v), [⟨createLeaf toyEnv.H k v, 0, false, 0⟩], false⟩, .ok (k, x)) := fun n => rfl
  have e3 : iterNext db0 ⟨createLeaf toyEnv.H k v, none, [], false⟩ =
      .ok (⟨createLeaf toyEnv.H k v, some (createLeaf toyEnv.H k v), [⟨createLeaf toyEnv.H k v, 0, false, 0⟩], false⟩, .ok (k, v)) := by
    show nextLoop db0.store (599 + 1) _ = _
    rw [e1, hr]
    rfl
  have e4 : iterNext db0 ⟨createLeaf toyEnv.H k v, some (createLeaf toyEnv.H k v), [⟨createLeaf toyEnv.H k v, 0, false, 0⟩], false⟩ =
      .ok (⟨createLeaf toyEnv.H k v, none, [], true⟩, .error .EITEREND) := rfl
  have e5 : iterCalls ⟨createLeaf toyEnv.H k v, none, [], false⟩ [db0, db0] = .ok [.ok (k, v), .error .EITEREND] := by
    simp only [iterCalls, e3, e4, Res.bind_ok]
    rfl
  show (iterCalls ⟨createLeaf toyEnv.H k v, none, [], false⟩ [db0, db0]).bind _ = _
  rw [e5]
  rfl

/-- That run meets the hypotheses of `C85_jobs`, in a database where transaction 0 has one pair: the iteration returns the pair and then the end. -/
example (k : B32) (v : Bytes) (hv : v.length ≤ 1023) : ∃ ths, crun ((sys2 k v).mem, [scanProg 0 0 [[false], []], canon toyEnv .root .root].map CProg.start) overlap = some ((sys2 k v).mem, ths) ∧
      BegunAfter overlap 3 0 1 ∧ ∀ (i : Nat) (c : CT View), ths[i]? = some c → c.pre = [] ∧ c.body = [] ∧
        (if i = 0 then scanOut toyEnv 0 2 else fun w => (canonOut toyEnv .root .root w).map .ret) c.loc =
          some (if i = 0 then .pairs [.ok (k, v), .error .EITEREND] else .ret (.hash (dbRoot (sys2 k v).db))) := by
  obtain ⟨ths, e, h⟩ := scan_overlap toyEnv (sys2 k v).mem
  refine ⟨ths, e, ⟨by decide, fun b hb => ?_⟩, fun i c hc => ?_⟩
  · have h3 : 3 ≤ b := by
      match b, hb with
      | 0, hb => cases hb
      | 1, hb => cases hb
      | 2, hb => cases hb
      | n + 3, _ => omega
    have h4 : overlap.take b = [0, 0, 0] ++ (overlap.drop 3).take (b - 3) := by
      obtain ⟨n, rfl⟩ : ∃ n, b = n + 3 := ⟨b - 3, by omega⟩
      rw [Nat.add_sub_cancel]
      rfl
    rw [h4, List.count_append]
    exact Nat.le_add_right 3 _
  obtain ⟨h1, h2, h3⟩ := h i c hc
  refine ⟨h1, h2, ?_⟩
  rcases h3 with ⟨rfl, h3⟩ | ⟨rfl, h3, h4⟩
  · show Option.map JobRet.ret _ = _
    rw [canonOut_of CallOf.root (m := (sys2 k v).mem) (s1 := sys2 k v) (r := .hash (dbRoot (sys2 k v).db)) ?_ trivial rfl]
    · rfl
    · intro n hn
      simp only [Call.needs, List.mem_cons, List.not_mem_nil, or_false] at hn
      subst hn; exact h3
  · simp only [if_true]
    unfold scanOut
    rw [if_pos (View.has_iff.2 (by simp [h3, h4]))]
    have ea : (sys2 k v).mem (.tx 0) = c.loc.mem blankMem (.tx 0) := by unfold View.mem; rw [h3]; rfl
    have eb : (sys2 k v).mem .out = c.loc.mem blankMem .out := by unfold View.mem; rw [h4]; rfl
    have e := scan_pairs k v hv
    rw [← Sys.mem_sys (sys2 k v)] at e
    rw [(scan_step ea eb e).2]

end Urkel
