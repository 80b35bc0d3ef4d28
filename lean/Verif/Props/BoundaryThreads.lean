import Verif.Props.Boundary
/-
C79 with several threads: the process is killed while several calls are in progress, wherever
the files end.
-/
namespace Urkel

variable {L : Type}

theorem StopSeq.split {E : Env} : ∀ {a b : List (Op × Ret)} {log log' : List ((B32 × Contents) × Bool)} {s S : Sys}, StopSeq E log s (a ++ b) log' S →
    ∃ log1 S1, StopSeq E log s a log1 S1 ∧ StopSeq E log1 S1 b log' S
  | [], _, log, _, s, _, h => ⟨log, s, .nil _ _, h⟩
  | _ :: _, _, _, _, _, _, h => by
    rw [List.cons_append] at h
    cases h with
    | commit ha e hc hn h =>
      obtain ⟨l1, S1, h1, h2⟩ := StopSeq.split h
      exact ⟨l1, S1, .commit ha e hc hn h1, h2⟩
    | other ha e hc h =>
      obtain ⟨l1, S1, h1, h2⟩ := StopSeq.split h
      exact ⟨l1, S1, .other ha e hc h1, h2⟩

theorem StopSeq.same {E : Env} {a : List (Op × Ret)} {log log' : List ((B32 × Contents) × Bool)} {s S : Sys} (h : StopSeq E log s a log' S) :
    ∀ {S' : Sys}, Seq E s a S' → S' = S := by
  induction h with
  | nil => intro S' h; cases h; rfl
  | commit _ e _ _ _ ih => intro S' h; cases h with | cons e' h => rw [e] at e'; cases e'; exact ih h
  | other _ e _ _ ih => intro S' h; cases h with | cons e' h => rw [e] at e'; cases e'; exact ih h

theorem StopSeq.append {E : Env} {a b : List (Op × Ret)} {log log1 log2 : List ((B32 × Contents) × Bool)} {s s1 s2 : Sys}
    (h1 : StopSeq E log s a log1 s1) (h2 : StopSeq E log1 s1 b log2 s2) : StopSeq E log s (a ++ b) log2 s2 := by
  induction h1 with
  | nil => exact h2
  | commit ha e hc hn _ ih => exact .commit ha e hc hn (ih h2)
  | other ha e hc _ ih => exact .other ha e hc (ih h2)

/-- The calls one after the other. -/
theorem StopSeq.calls {E : Env} (hE : EnvOk E) {a b : List (Op × Ret)} {log log' : List ((B32 × Contents) × Bool)} {s S S' : Sys} (h0 : Stopped E log s)
    (hs : Seq E s a S) (h : StopSeq E log s (a ++ b) log' S') :
    ∃ log1, StopSeq E log s a log1 S ∧ Stopped E log1 S ∧ StopSeq E log1 S b log' S' ∧ S.db.store.key = s.db.store.key := by
  obtain ⟨log1, S1, h1, h2⟩ := h.split
  obtain rfl := h1.same hs
  exact ⟨log1, h1, h1.stopped h0, h2, (h1.files hE (h0.inv hE).logged.reachable).2⟩

theorem Stopped.reopens {E : Env} (hE : EnvOk E) {log : List ((B32 × Contents) × Bool)} {s : Sys} (h : Stopped E log s) (rand : B32) :
    ∃ d db, dbOpen E ⟨some s.db.store.key.bytes, s.db.store.files⟩ rand = .ok (d, .ok db) ∧ Stopped E (survivors log) ⟨db, fun _ => none⟩ := by
  obtain ⟨s0, h0⟩ := (h.inv hE).anchor
  obtain ⟨d, db, o⟩ := h0.open_ok hE (.nil _) rand
  exact ⟨d, db, o, .idle h (.nil _) o⟩

theorem Stopped.opens {E : Env} (hE : EnvOk E) {log : List ((B32 × Contents) × Bool)} {s s' : Sys} (h : Stopped E log s) {op : Op} {c : Contents}
    (ha : Allowed E s op) (e : step E s op = .ok (s', .unit)) (hcm : Commits E s op c)
    (hn : NoImitation E s.db.store.key (survivors log = []) s.db.store.files s'.db.store.files) {F : List Bytes}
    (hi : CrashImage s.db.store.files s'.db.store.files F) (rand : B32) :
    ∃ d db, dbOpen E ⟨some s.db.store.key.bytes, F⟩ rand = .ok (d, .ok db) ∧
      Stopped E (survivors (if F = s'.db.store.files then ((dbRoot s'.db, c), s'.onBoundary) :: log else log)) ⟨db, fun _ => none⟩ := by
  obtain ⟨s0, h0⟩ := (h.inv hE).image hE ha e hcm hn hi
  obtain ⟨d, db, o⟩ := h0.open_ok hE (.nil _) rand
  exact ⟨d, db, o, .killed h ha e hcm hn hi (.nil _) o⟩

/-- The next call of a sequence, when it is a commit. -/
theorem StopSeq.next {E : Env} (hE : EnvOk E) {t : List (Op × Ret)} {id : Nat} {r : Ret} {log log' : List ((B32 × Contents) × Bool)} {s S s1 : Sys}
    (h : StopSeq E log s ((.commit id, r) :: t) log' S) (h0 : Stopped E log s) (e : step E s (.commit id) = .ok (s1, r)) :
    r = .unit ∧ Allowed E s (.commit id) ∧ ∃ c, Commits E s (.commit id) c ∧ NoImitation E s.db.store.key (survivors log = []) s.db.store.files s1.db.store.files ∧
      StopSeq E (((dbRoot s1.db, c), s1.onBoundary) :: log) s1 t log' S := by
  cases h with
  | commit ha e' hc hn h =>
    rw [e] at e'; cases e'
    exact ⟨rfl, ha, _, hc, hn, h⟩
  | other ha e' hc h =>
    obtain ⟨h1, ⟨c, h2⟩, _⟩ := commit_unit hE (h0.inv hE).logged.reachable ha e'
    exact (hc.elim (fun h => h h1) fun h => h c h2).elim

/-- C79 with several threads: the process is killed while calls are in progress, at any moment, wherever the files end.
The next `urkel_open` succeeds, and the database is as after the calls of `order` made one after the other and then a
stop (all of them calls that had been made, in agreement with real time, among them every
commit that had returned), or a stop in the middle of one more commit that had been
started. `hsafe`: in every order in which the calls can take effect, the commits are within the limits
and write nothing that imitates a commit record. -/
theorem C79_threads {E : Env} (hE : EnvOk E) (out : Nat → L → Option Ret) (calls : List (CProg L)) (kind : Nat → Call) (ops : Nat → Op)
    (hcall : ∀ (i : Nat) (p : CProg L), calls[i]? = some p →
      CallOf (ops i) (kind i) ∧ Performs p (kind i) ∧ Implements E (out i) p (ops i) ∧ Gradual E (out i) p (ops i))
    {log : List ((B32 × Contents) × Bool)} {s : Sys} (h0 : Stopped E log s) (sched : List Nat) (m : Mem) (ths : List (CT L)) (ret : Nat → Ret)
    (hrun : crun (s.mem, calls.map CProg.start) sched = some (m, ths))
    (hret : ∀ (i : Nat) (c : CT L), ths[i]? = some c → c.pre = [] → out i (alone c.body (m, c.loc)).2 = some (ret i))
    (hsafe : ∀ (order : List Nat) (S : Sys), order.Nodup → (∀ i, i ∈ order ↔ ∃ c, ths[i]? = some c ∧ c.pre = []) →
      (∀ i ∈ order, ∀ j ∈ order, Before sched i j → Precedes order i j) →
      Seq E s (order.map fun i => (ops i, ret i)) S → ∃ log', StopSeq E log s (order.map fun i => (ops i, ret i)) log' S)
    (rand : B32) :
    ∃ (order : List Nat) (log' : List ((B32 × Contents) × Bool)) (S : Sys) (d : Dir) (db : Db),
      order.Nodup ∧ (∀ i ∈ order, i ∈ sched) ∧
      (∀ i ∈ order, ∀ j ∈ order, Before sched i j → Precedes order i j) ∧
      (∀ (i : Nat) (c : CT L) (id : Nat), ths[i]? = some c → c.Done → ops i = .commit id → i ∈ order ∧ ret i = .unit) ∧
      StopSeq E log s (order.map fun i => (ops i, ret i)) log' S ∧
      dbOpen E ⟨some s.db.store.key.bytes, m.files⟩ rand = .ok (d, .ok db) ∧
      (Stopped E (survivors log') ⟨db, fun _ => none⟩ ∨
        ∃ (i : Nat) (c : CT L) (id : Nat) (S' : Sys) (x : Contents), ths[i]? = some c ∧ ¬ c.Done ∧ ops i = .commit id ∧ i ∉ order ∧
          step E S (.commit id) = .ok (S', .unit) ∧ Commits E S (.commit id) x ∧
          CrashImage S.db.store.files S'.db.store.files m.files ∧
          Stopped E (survivors (if m.files = S'.db.store.files then ((dbRoot S'.db, x), S'.onBoundary) :: log' else log')) ⟨db, fun _ => none⟩) := by
  have htp : ∀ p ∈ calls, TwoPhase p := by
    intro p hp
    obtain ⟨i, hi, rfl⟩ := List.getElem_of_mem hp
    obtain ⟨h1, h2, _⟩ := hcall i _ (List.getElem?_eq_getElem hi)
    refine performs_twoPhase h2 ?_
    generalize ops i = o, kind i = c at h1
    cases h1 <;> trivial
  have hinv := CInv.run htp (CInv.init calls s.mem htp) hrun
  have htr := Track.run htp (CInv.init calls s.mem htp) (Track.init calls s.mem htp) hrun
  rw [List.nil_append] at hinv htr
  have hprec : ∀ i j, i ∈ linOf (s.mem, calls.map CProg.start) sched → j ∈ linOf (s.mem, calls.map CProg.start) sched → Before sched i j →
      Precedes (linOf (s.mem, calls.map CProg.start) sched) i j := fun i j => linOf_precedes hrun
  have hmem : ∀ i, i ∈ linOf (s.mem, calls.map CProg.start) sched → i ∈ sched := fun i hi => linOf_mem hi
  generalize linOf (s.mem, calls.map CProg.start) sched = lin at hinv htr hprec hmem
  have hget : ∀ i, i < calls.length → ∃ c p, ths[i]? = some c ∧ calls[i]? = some p := fun i hi =>
    ⟨_, _, List.getElem?_eq_getElem (by rw [show ths.length = calls.length from hinv.len]; exact hi), List.getElem?_eq_getElem hi⟩
  have hlin : ∀ i, i ∈ lin ↔ ∃ c, ths[i]? = some c ∧ c.pre = [] := by
    intro i
    constructor
    · intro hi
      obtain ⟨c, p, hc, hp⟩ := hget i (hinv.range i hi)
      refine ⟨c, hc, ?_⟩
      by_cases hn : c.pre = []
      · exact hn
      · exact ((hinv.before i c p hc hp hn).1 hi).elim
    · rintro ⟨c, hc, hn⟩
      exact (hinv.within i c hc hn).1
  -- what each call of the serial run returns
  have hout : ∀ x ∈ (serial calls lin s.mem).2, out x.1 x.2 = some (ret x.1) := by
    intro x hx
    have hx1 : x.1 ∈ lin := by
      rw [← serial_fst calls lin s.mem hinv.range]
      exact List.mem_map_of_mem hx
    obtain ⟨c, hc, hn⟩ := (hlin x.1).1 hx1
    obtain ⟨_, _, h4, _⟩ := hinv.within _ c hc hn
    have hnd2 : ((serial calls lin s.mem).2.map Prod.fst).Nodup := by rw [serial_fst calls lin s.mem hinv.range]; exact hinv.nodup
    rw [nodup_fst hnd2 x hx _ h4 rfl]
    exact hret _ c hc hn
  have himp : ∀ (i : Nat) (p : CProg L), calls[i]? = some p → Implements E (out i) p (ops i) := fun i p hp => (hcall i p hp).2.2.1
  have hseq := seq_serial himp lin s.mem hinv.range hout
  rw [Sys.mem_sys] at hseq
  obtain ⟨logE, hcare⟩ := hsafe lin _ hinv.nodup hlin (fun i hi j hj => hprec i j hi hj) hseq
  have commits : ∀ (i : Nat) (c : CT L) (id : Nat), ths[i]? = some c → c.Done → ops i = .commit id → ret i = .unit ∧ i ∈ lin := by
    intro i c id hc hd hop
    have hi : i ∈ lin := (hlin i).2 ⟨c, hc, hd.1⟩
    refine ⟨?_, hi⟩
    obtain ⟨x, y, hxy⟩ := List.append_of_mem hi
    subst hxy
    have hr1 : ∀ j ∈ x, j < calls.length := fun j hj => hinv.range j (List.mem_append_left _ hj)
    have hs1 := seq_serial himp x s.mem hr1 fun z hz => hout z (by rw [serial_append]; exact List.mem_append_left _ hz)
    rw [Sys.mem_sys] at hs1
    rw [List.map_append, List.map_cons] at hcare
    obtain ⟨log1, _, hc1, hc2, _⟩ := StopSeq.calls hE h0 hs1 hcare
    obtain ⟨_, p, _, hp⟩ := hget i (hinv.range i hi)
    have hx := hout (i, (alone (p.pre ++ p.body) ((serial calls x s.mem).1, p.loc)).2) (by
      rw [serial_append, serial, hp]
      exact List.mem_append_right _ (.head _))
    have es := himp i p hp _ _ hx
    rw [hop] at es hc2
    exact (hc2.next hE hc1 es).1
  by_cases hw : ∃ (i : Nat) (c : CT L), ths[i]? = some c ∧ c.pre = [] ∧ (Lock.tree, Mode.wr) ∈ c.held
  · obtain ⟨i, c, hc, hn, hw⟩ := hw
    obtain ⟨a, rest, hl, ham, hrest⟩ := htr.body i c hc hn
    obtain ⟨c', p, q, hc', hp, _, hq, hg, hloc, hv⟩ := ham
    have : c' = c := by
      have h := hc'.symm.trans hc
      exact Option.some.inj h
    subst this
    subst hl
    have hra : ∀ j ∈ a, j < calls.length := fun j hj => hinv.range j (List.mem_append_left _ hj)
    have hs1 := seq_serial himp a s.mem hra fun z hz => hout z (by rw [serial_append]; exact List.mem_append_left _ hz)
    rw [Sys.mem_sys] at hs1
    rw [List.map_append, List.map_cons] at hcare
    obtain ⟨log1, hls, hc1, hc2, hk1⟩ := StopSeq.calls hE h0 hs1 hcare
    have hx := hout (i, (alone (p.pre ++ p.body) ((serial calls a s.mem).1, p.loc)).2) (by
      rw [serial_append, serial, hp]
      exact List.mem_append_right _ (.head _))
    have es := himp i p hp _ _ hx
    have hm : m .out = (alone q ((serial calls a s.mem).1, p.loc)).1 .out := hv .out (.inr ⟨_, hw⟩)
    obtain ⟨hco, hperf, _, hgrad⟩ := hcall i p hp
    have hnd : a.Nodup := (List.nodup_append.1 hinv.nodup).1
    have hia : i ∉ a := fun hi => (List.nodup_append.1 hinv.nodup).2.2 i hi i (.head _) rfl
    have hsub : ∀ i ∈ a, ∀ j ∈ a, Before sched i j → Precedes a i j := by
      intro x hx y hy hb
      exact (hprec x y (List.mem_append_left _ hx) (List.mem_append_left _ hy) hb).prefix hinv.nodup hy
    have hdone : ∀ (j : Nat) (d : CT L) (id : Nat), ths[j]? = some d → d.Done → ops j = .commit id → j ∈ a ∨ j = i := by
      intro j d id hd hdn hop
      rcases List.mem_append.1 (commits j d id hd hdn hop).2 with hj | hj
      · exact .inl hj
      · rcases List.mem_cons.1 hj with hj | hj
        · exact .inr hj
        · exfalso
          obtain ⟨_, pj, _, hpj⟩ := hget j (hinv.range j (List.mem_append_right _ (.tail _ hj)))
          refine hrest hw j hj pj hpj .wr ?_
          obtain ⟨hco, hpf, _⟩ := hcall j pj hpj
          rw [hop] at hco
          rw [hpf.1]
          generalize kind j = kd at hco
          cases hco
          simp [Call.pre, heldAfter]
    have hpre : PreOk p.pre := (htp p (List.mem_of_getElem? hp)).1
    by_cases hcom : ∃ id, ops i = .commit id
    · obtain ⟨id, hop⟩ := hcom
      rw [hop] at es
      rw [hop] at hc2
      obtain ⟨hu, ha, x, hcx, hno, hnext⟩ := hc2.next hE hc1 es
      have hx2 := hx
      rw [hu] at es
      by_cases hb : c'.body = []
      · -- it has returned, or is about to
        rw [hb, List.append_nil] at hq
        have hmf : m.files = (alone (p.pre ++ p.body) ((serial calls a s.mem).1, p.loc)).1.files := by
          rw [alone_append, alone_pre hpre.2, hq]
          unfold Mem.files
          rw [hm]
        have hcr : Stopped E _ _ := .commit hc1 ha es hcx fun _ => hno
        obtain ⟨d, db, ho, hfin⟩ := Stopped.reopens hE hcr rand
        have hk2 := step_key (fun _ => by exact fun h => nomatch h) es
        have happ : a ++ i :: rest = (a ++ [i]) ++ rest := by simp
        have hnd1 : (a ++ [i]).Nodup := by
          have := hinv.nodup
          rw [happ] at this
          exact (List.nodup_append.1 this).1
        have hin1 : ∀ j ∈ a ++ [i], j ∈ a ++ i :: rest := fun j hj => by rw [happ]; exact List.mem_append_left _ hj
        refine ⟨a ++ [i], _, (alone (p.pre ++ p.body) ((serial calls a s.mem).1, p.loc)).1.sys, d, db, ?_, ?_, ?_, ?_, ?_, ?_, .inl hfin⟩
        · exact hnd1
        · exact fun j hj => hmem j (hin1 j hj)
        · intro x hx y hy hb
          have := hprec x y (hin1 x hx) (hin1 y hy) hb
          rw [happ] at this
          exact this.prefix (by rw [← happ]; exact hinv.nodup) hy
        · intro j d id hd hdn hop
          refine ⟨?_, (commits j d id hd hdn hop).1⟩
          rcases hdone j d id hd hdn hop with h | rfl
          · exact List.mem_append_left _ h
          · exact List.mem_append_right _ (.head _)
        · rw [List.map_append]
          refine hls.append ?_
          rw [List.map_cons, List.map_nil, hop, hu]
          exact .commit ha es hcx hno (.nil _ _)
        · rw [hmf, ← hk1, ← hk2]; exact ho
      · have himg : CrashImage (serial calls a s.mem).1.files (alone (p.pre ++ p.body) ((serial calls a s.mem).1, p.loc)).1.files m.files := by
          have := hgrad (serial calls a s.mem).1 (ret i) (p.pre ++ q) c'.body (hc1.inv hE).logged.reachable (by rw [hop]; exact ha) hx2 (by rw [hq, List.append_assoc])
          rw [alone_append p.pre q, alone_pre hpre.2] at this
          rw [show m.files = (alone q ((serial calls a s.mem).1, p.loc)).1.files by unfold Mem.files; rw [hm]]
          exact this
        obtain ⟨d, db, ho, hfin⟩ := Stopped.opens hE hc1 ha es hcx hno himg rand
        refine ⟨a, log1, _, d, db, hnd, fun j hj => hmem j (List.mem_append_left _ hj), hsub, ?_, hls, ?_, .inr ⟨i, c', id, _, x, hc, fun h => hb h.2, hop, hia, es, hcx, himg, hfin⟩⟩
        · intro j d id hd hdn hop
          refine ⟨?_, (commits j d id hd hdn hop).1⟩
          rcases hdone j d id hd hdn hop with h | rfl
          · exact h
          · rw [hc] at hd; cases hd; exact (hb hdn.2).elim
        · rw [← hk1]; exact ho
    · -- a call that does not write the files
      have hmf : m.files = (serial calls a s.mem).1.files := by
        unfold Mem.files
        rw [hm, alone_keep]
        intro act hact heq
        refine hcom ?_
        have : Act.wr .out ∈ (kind i).body := by
          rw [← hperf.2, hq, ← heq]
          exact List.mem_map_of_mem (List.mem_append_left _ hact)
        obtain ⟨id, _, _, h, _⟩ := out_written hco this
        exact ⟨id, h⟩
      obtain ⟨d, db, ho, hfin⟩ := Stopped.reopens hE hc1 rand
      refine ⟨a, log1, _, d, db, hnd, fun j hj => hmem j (List.mem_append_left _ hj), hsub, ?_, hls, ?_, .inl hfin⟩
      · intro j d id hd hdn hop
        refine ⟨?_, (commits j d id hd hdn hop).1⟩
        rcases hdone j d id hd hdn hop with h | rfl
        · exact h
        · exact (hcom ⟨_, hop⟩).elim
      · rw [hmf, ← hk1]; exact ho
  · have hm : (serial calls lin s.mem).1 .out = m .out := hinv.rest .out fun i c hc hn hh => hw ⟨i, c, hc, hn, hh⟩
    have hmf : m.files = (serial calls lin s.mem).1.files := by unfold Mem.files; rw [hm]
    obtain ⟨log1, hls, hc1, hc2, hk1⟩ := StopSeq.calls hE (b := []) h0 hseq (by rw [List.append_nil]; exact hcare)
    obtain ⟨d, db, ho, hfin⟩ := Stopped.reopens hE hc1 rand
    exact ⟨lin, log1, _, d, db, hinv.nodup, hmem, fun i hi j hj => hprec i j hi hj,
      fun i c id hc hd hop => ⟨(commits i c id hc hd hop).2, (commits i c id hc hd hop).1⟩, hls, by rw [hmf, ← hk1]; exact ho, .inl hfin⟩


theorem one_run (m : Mem) (body : List (SAct L)) (l : L) :
    ∃ c, crun (m, [⟨[.acq (.tx 0) .wr, .acq .tree .wr], body, l⟩].map CProg.start) [0, 0] = some (m, [c]) ∧ c.pre = [] ∧ c.body = body ∧ c.loc = l :=
  ⟨_, rfl, rfl, rfl, rfl⟩

/-- A run that meets the hypotheses: the process is killed when a commit whose record will be off a
boundary has taken its locks. -/
example : ∃ (log : List ((B32 × Contents) × Bool)) (s : Sys) (m : Mem) (ths : List (CT View)) (ret : Nat → Ret), Stopped toyEnv log s ∧
    crun (s.mem, [canon toyEnv (.commit 0) (.txCommit 0 [false] 0)].map CProg.start) [0, 0] = some (m, ths) ∧
    (∀ (i : Nat) (c : CT View), ths[i]? = some c → c.pre = [] → canonOut toyEnv (.commit 0) (.txCommit 0 [false] 0) (alone c.body (m, c.loc)).2 = some (ret i)) ∧
    ∀ (order : List Nat) (S : Sys), order.Nodup → (∀ i, i ∈ order ↔ ∃ c, ths[i]? = some c ∧ c.pre = []) →
      Seq toyEnv s (order.map fun i => (Op.commit 0, ret i)) S → ∃ log', StopSeq toyEnv log s (order.map fun i => (Op.commit 0, ret i)) log' S := by
  obtain ⟨log, s2, s3, h2, i3, i4, i5, hno, hb⟩ := off_boundary toyEnv_ok rfl (keyOf 1) B32.zero
  obtain ⟨c, e, hp, hbd, hl⟩ := one_run s2.mem (canon toyEnv (.commit 0) (.txCommit 0 [false] 0)).body View.empty
  have hm : s2.mem.sys = s2 := Sys.mem_sys s2
  refine ⟨_, s2, s2.mem, [c], fun _ => .unit, h2, e, ?_, ?_⟩
  · intro i x hx _
    match i, hx with
    | 0, hx =>
      cases hx
      rw [hbd, hl]
      have := canon_returns (E := toyEnv) (CallOf.commit 0 [false] 0) (by simp [Call.full]) (m0 := s2.mem) trivial (by rw [hm]; exact i4)
      rw [alone_append, alone_pre (pre := (canon toyEnv (.commit 0) (.txCommit 0 [false] 0)).pre) (Call.pre_ok (.txCommit 0 [false] 0)).2] at this
      exact this
    | n + 1, hx => cases hx
  · intro order S hn hmem hs
    have h0 : 0 ∈ order := (hmem 0).2 ⟨c, rfl, hp⟩
    have : order = [0] := by
      have hpm : order.Perm [0] := by
        rw [List.perm_ext_iff_of_nodup hn (by decide)]
        intro i
        rw [hmem]
        match i with
        | 0 => simp [hp]
        | n + 1 => simp
      exact List.perm_singleton.1 hpm
    subst this
    cases hs with
    | cons e' hs =>
      rw [i4] at e'; cases e'
      cases hs
      exact ⟨_, .commit i3 i4 i5 hno (.nil _ _)⟩

end Urkel
