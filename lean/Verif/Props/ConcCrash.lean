import Verif.Lemmas.ConcCrash
import Verif.Props.Conc
import Verif.Props.Histories
/-
C75: the process is killed while several calls are in progress.
-/
namespace Urkel

variable {L : Type}

theorem nodup_fst {α : Type} : ∀ {l : List (Nat × α)}, (l.map Prod.fst).Nodup → ∀ a ∈ l, ∀ b ∈ l, a.1 = b.1 → a = b
  | [], _, a, ha, _, _, _ => (nomatch ha)
  | c :: l, hn, a, ha, b, hb, e => by
    rw [List.map_cons, List.nodup_cons] at hn
    rcases List.mem_cons.1 ha with ha1 | ha1 <;> rcases List.mem_cons.1 hb with hb1 | hb1
    · rw [ha1, hb1]
    · subst ha1; exact (hn.1 (e ▸ List.mem_map_of_mem hb1)).elim
    · subst hb1; exact (hn.1 (e ▸ List.mem_map_of_mem ha1)).elim
    · exact nodup_fst hn.2 a ha1 b hb1 e

/-- A program that does not write a variable keeps it. -/
theorem alone_keep {v : Var} : ∀ {p : List (SAct L)} {x : Mem × L}, (∀ a ∈ p, a.act ≠ .wr v) → (alone p x).1 v = x.1 v
  | [], _, _ => rfl
  | a :: p, x, h => by
    rw [alone_cons, alone_keep fun b hb => h b (.tail _ hb)]
    have ha := h a (.head _)
    cases a with
    | wr u f =>
      refine Mem.set_ne _ _ ?_
      rintro rfl
      exact ha rfl
    | _ => rfl

/-- Only a commit writes the files. -/
theorem out_written {op : Op} {c : Call} (hc : CallOf op c) (h : .wr .out ∈ c.body) : ∃ x rolls evicted, op = .commit x ∧ c = .txCommit x rolls evicted := by
  have hr : ∀ miss, Act.wr .out ∉ readActs miss := by intro miss; cases miss <;> simp [readActs]
  have hrs : ∀ misses, Act.wr .out ∉ readsActs misses := by
    intro misses hm
    obtain ⟨b, _, hb⟩ := List.mem_flatMap.1 hm
    exact hr b hb
  have hh : ∀ misses, Act.wr .out ∉ historyActs misses := by
    intro misses hm
    simp only [historyActs, List.mem_append, List.mem_cons, reduceCtorEq, List.not_mem_nil, or_false, false_or, List.mem_flatMap] at hm
    obtain ⟨b, _, hb⟩ := hm
    rcases hb with hb | hb
    · exact hr b hb
    · cases hb
  cases hc with
  | commit x rolls evicted => exact ⟨x, rolls, evicted, rfl, rfl⟩
  | create x h write misses => cases write <;> simp [Call.body, hh] at h
  | txRoot x write => cases write <;> simp [Call.body] at h
  | prove x k write misses => cases write <;> simp [Call.body, hrs] at h
  | _ => simp [Call.body, hrs, hh] at h

theorem CallOf.no_reopen {op : Op} {c : Call} (h : CallOf op c) (rand : B32) : op ≠ .reopen rand := by cases h <;> exact fun h => nomatch h

theorem CallOf.no_oneshot {op : Op} {c : Call} (h : CallOf op c) {E : Env} {s : Sys} {x : Contents} (hc : Commits E s op x) : ∃ id, op = .commit id := by
  cases h with
  | commit id _ _ => exact ⟨id, rfl⟩
  | _ => exact hc.elim

theorem Careful.aligned {E : Env} {s : Sys} {l : List (Op × Ret)} (h : Careful E s l) : (s.db.store.files.getLastD []).length % 38 = 0 := by
  cases h <;> assumption

/-- Commits within the limits return success. -/
theorem commit_unit {E : Env} (hE : EnvOk E) {s s' : Sys} (hr : Reachable E s) {id : Nat} {r : Ret} (ha : Allowed E s (.commit id))
    (e : step E s (.commit id) = .ok (s', r)) : r = .unit ∧ (∃ c, Commits E s (.commit id) c) ∧ FExt s.db.store.files s'.db.store.files := by
  obtain ⟨tx, hid, hc⟩ := ha
  obtain ⟨hist, t, hd, ht⟩ := hr.tree hE hid
  obtain ⟨hv, hcap⟩ := canCommit_tree hd ht hc
  obtain ⟨db', tx', e1, hd', ht', hcm, _⟩ := txCommit_ok hE hd ht hv hcap
  simp only [step, Sys.tx, hid, Res.bind_ok, e1, Res.pure_eq] at e
  cases e
  exact ⟨rfl, ⟨_, tx, hid, ht.shows hd⟩, hcm.ext⟩

/-- The calls one after the other, with the log. -/
theorem Crashy.calls {E : Env} (hE : EnvOk E) : ∀ {a b : List (Op × Ret)} {log : List ((B32 × Contents) × Bool)} {s S : Sys}, Crashy E log s →
    Seq E s a S → Careful E s (a ++ b) → (∀ x ∈ a, ∀ rand, x.1 ≠ .reopen rand) →
    ∃ log', LogSeq E log s a log' S ∧ Crashy E log' S ∧ Careful E S b ∧ S.db.store.key = s.db.store.key
  | [], b, log, s, S, h, hs, hc, _ => by
    cases hs
    exact ⟨log, .nil _ _, h, hc, rfl⟩
  | (op, r) :: a, b, log, s, S, h, hs, hc, hn => by
    cases hs with
    | @cons _ s1 _ _ _ _ e hs =>
      cases hc with
      | cons hal ha hown hrest =>
        have hk := step_key (hn _ (.head _)) e
        by_cases hcase : r = .unit ∧ ∃ c, Commits E s op c
        · obtain ⟨rfl, c, hcm⟩ := hcase
          obtain ⟨log', h1, h2, h3, h4⟩ := Crashy.calls hE (.commit h ha e hcm) hs (hrest _ e) fun x hx => hn x (.tail _ hx)
          exact ⟨log', .commit ha e hcm h1, h2, h3, h4.trans hk⟩
        · have ho : r ≠ .unit ∨ ∀ c, ¬ Commits E s op c := by
            by_cases hr : r = .unit
            · exact .inr fun c hc => hcase ⟨hr, c, hc⟩
            · exact .inl hr
          obtain ⟨log', h1, h2, h3, h4⟩ := Crashy.calls hE (.other h ha e ho) hs (hrest _ e) fun x hx => hn x (.tail _ hx)
          exact ⟨log', .other ha e ho h1, h2, h3, h4.trans hk⟩

/-- A kill between two calls. -/
theorem Crashy.reopens {E : Env} (hE : EnvOk E) {log : List ((B32 × Contents) × Bool)} {s : Sys} (h : Crashy E log s)
    (hal : (s.db.store.files.getLastD []).length % 38 = 0) (rand : B32) :
    ∃ d db, dbOpen E ⟨some s.db.store.key.bytes, s.db.store.files⟩ rand = .ok (d, .ok db) ∧ Crashy E log ⟨db, fun _ => none⟩ := by
  obtain ⟨log', hl, _, _⟩ := C57_crashes_partial hE h
  obtain ⟨sp, hist, hs⟩ := hl.reachable.sim hE
  obtain ⟨db', e', _⟩ := reopen_ok hE hs.db hal rand
  exact ⟨_, db', e', .idle h hal (.nil _) e'⟩

theorem split_unique {α : Type} {y : α} : ∀ {p q p' q' : List α}, p ++ y :: q = p' ++ y :: q' → (p ++ y :: q).Nodup → p = p'
  | [], q, [], q', _, _ => rfl
  | [], q, b :: p', q', e, hn => by
    cases e
    exact ((List.nodup_cons.1 hn).1 (by simp)).elim
  | a :: p, q, [], q', e, hn => by
    cases e
    exact ((List.nodup_cons.1 hn).1 (by simp)).elim
  | a :: p, q, b :: p', q', e, hn => by
    obtain ⟨rfl, e1⟩ := List.cons.inj e
    rw [List.cons_append] at hn
    rw [split_unique (p := p) (q := q) e1 (List.nodup_cons.1 hn).2]

theorem Precedes.prefix {a b : List Nat} {x y : Nat} (hn : (a ++ b).Nodup) (hy : y ∈ a) (h : Precedes (a ++ b) x y) : Precedes a x y := by
  obtain ⟨u, v, w, e⟩ := h
  obtain ⟨a1, a2, rfl⟩ := List.append_of_mem hy
  rw [List.append_assoc, List.cons_append] at e hn
  have := split_unique e hn
  exact ⟨u, v, a2, by rw [this]⟩

theorem LogSeq.append {E : Env} {a b : List (Op × Ret)} {log log1 log2 : List ((B32 × Contents) × Bool)} {s s1 s2 : Sys}
    (h1 : LogSeq E log s a log1 s1) (h2 : LogSeq E log1 s1 b log2 s2) : LogSeq E log s (a ++ b) log2 s2 := by
  induction h1 with
  | nil => exact h2
  | commit ha e hc _ ih => exact .commit ha e hc (ih h2)
  | other ha e hc _ ih => exact .other ha e hc (ih h2)

/-- C75: the process is killed while calls are in progress on several threads, at any
moment. Every commit whose call had returned survives: the next `urkel_open` finds the
database as it is after the calls of `order` made one after the other (all of them calls
that had been made, in agreement with real time, among them every commit that had returned)
and, possibly, of one more commit that had been started. Missing: as in C25 and C57 (a
misaligned database, values that imitate commit records, commits outside the limits):
`hsafe`. -/
theorem C75_killed_partial {E : Env} (hE : EnvOk E) (out : Nat → L → Option Ret) (calls : List (CProg L)) (kind : Nat → Call) (ops : Nat → Op)
    (hcall : ∀ (i : Nat) (p : CProg L), calls[i]? = some p →
      CallOf (ops i) (kind i) ∧ Performs p (kind i) ∧ Implements E (out i) p (ops i) ∧ Gradual E (out i) p (ops i))
    {log : List ((B32 × Contents) × Bool)} {s : Sys} (h0 : Crashy E log s) (sched : List Nat) (m : Mem) (ths : List (CT L)) (ret : Nat → Ret)
    (hrun : crun (s.mem, calls.map CProg.start) sched = some (m, ths))
    (hret : ∀ (i : Nat) (c : CT L), ths[i]? = some c → c.pre = [] → out i (alone c.body (m, c.loc)).2 = some (ret i))
    (hsafe : ∀ (order : List Nat) (S : Sys), order.Nodup → (∀ i, i ∈ order ↔ ∃ c, ths[i]? = some c ∧ c.pre = []) →
      (∀ i ∈ order, ∀ j ∈ order, Before sched i j → Precedes order i j) →
      Seq E s (order.map fun i => (ops i, ret i)) S → Careful E s (order.map fun i => (ops i, ret i)))
    (rand : B32) :
    ∃ (order : List Nat) (log' : List ((B32 × Contents) × Bool)) (S : Sys) (d : Dir) (db : Db),
      order.Nodup ∧ (∀ i ∈ order, i ∈ sched) ∧
      (∀ i ∈ order, ∀ j ∈ order, Before sched i j → Precedes order i j) ∧
      (∀ (i : Nat) (c : CT L) (id : Nat), ths[i]? = some c → c.Done → ops i = .commit id → i ∈ order ∧ ret i = .unit) ∧
      LogSeq E log s (order.map fun i => (ops i, ret i)) log' S ∧
      dbOpen E ⟨some s.db.store.key.bytes, m.files⟩ rand = .ok (d, .ok db) ∧
      (Crashy E log' ⟨db, fun _ => none⟩ ∨
        ∃ (i : Nat) (c : CT L) (id : Nat) (S' : Sys) (x : Contents), ths[i]? = some c ∧ ¬ c.Done ∧ ops i = .commit id ∧ i ∉ order ∧
          step E S (.commit id) = .ok (S', .unit) ∧ Commits E S (.commit id) x ∧
          Crashy E (((dbRoot S'.db, x), false) :: log') ⟨db, fun _ => none⟩) := by
  have htp : ∀ p ∈ calls, TwoPhase p := by
    intro p hp
    obtain ⟨i, hi, rfl⟩ := List.getElem_of_mem hp
    obtain ⟨h1, h2, _⟩ := hcall i _ (List.getElem?_eq_getElem hi)
    refine performs_twoPhase h2 ?_
    generalize ops i = o, kind i = c at h1
    cases h1 <;> trivial
  have hinv := CInv.run htp (CInv.init calls s.mem htp) hrun
  have htr := Track.run htp (CInv.init calls s.mem htp) (Track.init calls s.mem htp) hrun
  rw [List.nil_append] at hinv htr
  have hprec : ∀ i j, i ∈ linOf (s.mem, calls.map CProg.start) sched → j ∈ linOf (s.mem, calls.map CProg.start) sched → Before sched i j →
      Precedes (linOf (s.mem, calls.map CProg.start) sched) i j := fun i j => linOf_precedes hrun
  have hmem : ∀ i, i ∈ linOf (s.mem, calls.map CProg.start) sched → i ∈ sched := fun i hi => linOf_mem hi
  generalize linOf (s.mem, calls.map CProg.start) sched = lin at hinv htr hprec hmem
  have hget : ∀ i, i < calls.length → ∃ c p, ths[i]? = some c ∧ calls[i]? = some p := fun i hi =>
    ⟨_, _, List.getElem?_eq_getElem (by rw [show ths.length = calls.length from hinv.len]; exact hi), List.getElem?_eq_getElem hi⟩
  have hlin : ∀ i, i ∈ lin ↔ ∃ c, ths[i]? = some c ∧ c.pre = [] := by
    intro i
    constructor
    · intro hi
      obtain ⟨c, p, hc, hp⟩ := hget i (hinv.range i hi)
      refine ⟨c, hc, ?_⟩
      by_cases hn : c.pre = []
      · exact hn
      · exact ((hinv.before i c p hc hp hn).1 hi).elim
    · rintro ⟨c, hc, hn⟩
      exact (hinv.within i c hc hn).1
  -- what each call of the serial run returns
  have hout : ∀ x ∈ (serial calls lin s.mem).2, out x.1 x.2 = some (ret x.1) := by
    intro x hx
    have hx1 : x.1 ∈ lin := by
      rw [← serial_fst calls lin s.mem hinv.range]
      exact List.mem_map_of_mem hx
    obtain ⟨c, hc, hn⟩ := (hlin x.1).1 hx1
    obtain ⟨_, _, h4, _⟩ := hinv.within _ c hc hn
    have hnd2 : ((serial calls lin s.mem).2.map Prod.fst).Nodup := by rw [serial_fst calls lin s.mem hinv.range]; exact hinv.nodup
    rw [nodup_fst hnd2 x hx _ h4 rfl]
    exact hret _ c hc hn
  have himp : ∀ (i : Nat) (p : CProg L), calls[i]? = some p → Implements E (out i) p (ops i) := fun i p hp => (hcall i p hp).2.2.1
  have hseq := seq_serial himp lin s.mem hinv.range hout
  rw [Sys.mem_sys] at hseq
  have hcare := hsafe lin _ hinv.nodup hlin (fun i hi j hj => hprec i j hi hj) hseq
  have hreop : ∀ {a : List Nat}, (∀ i ∈ a, i < calls.length) → ∀ x ∈ a.map fun i => (ops i, ret i), ∀ rand, x.1 ≠ .reopen rand := by
    intro a hr x hx rand
    obtain ⟨i, hi, rfl⟩ := List.mem_map.1 hx
    obtain ⟨_, p, _, hp⟩ := hget i (hr i hi)
    exact (hcall i p hp).1.no_reopen rand
  have commits : ∀ (i : Nat) (c : CT L) (id : Nat), ths[i]? = some c → c.Done → ops i = .commit id → ret i = .unit ∧ i ∈ lin := by
    intro i c id hc hd hop
    have hi : i ∈ lin := (hlin i).2 ⟨c, hc, hd.1⟩
    refine ⟨?_, hi⟩
    obtain ⟨x, y, hxy⟩ := List.append_of_mem hi
    subst hxy
    have hr1 : ∀ j ∈ x, j < calls.length := fun j hj => hinv.range j (List.mem_append_left _ hj)
    have hs1 := seq_serial himp x s.mem hr1 fun z hz => hout z (by rw [serial_append]; exact List.mem_append_left _ hz)
    rw [Sys.mem_sys] at hs1
    rw [List.map_append, List.map_cons] at hcare
    obtain ⟨log1, _, hc1, hc2, _⟩ := Crashy.calls hE h0 hs1 hcare (hreop hr1)
    obtain ⟨_, p, _, hp⟩ := hget i (hinv.range i hi)
    have hx := hout (i, (alone (p.pre ++ p.body) ((serial calls x s.mem).1, p.loc)).2) (by
      rw [serial_append, serial, hp]
      exact List.mem_append_right _ (.head _))
    have es := himp i p hp _ _ hx
    rw [hop] at es hc2
    obtain ⟨logl, hl, _⟩ := C57_crashes_partial hE hc1
    cases hc2 with
    | cons _ ha _ _ => exact (commit_unit hE hl.reachable ha es).1
  by_cases hw : ∃ (i : Nat) (c : CT L), ths[i]? = some c ∧ c.pre = [] ∧ (Lock.tree, Mode.wr) ∈ c.held
  · obtain ⟨i, c, hc, hn, hw⟩ := hw
    obtain ⟨a, rest, hl, ham, hrest⟩ := htr.body i c hc hn
    obtain ⟨c', p, q, hc', hp, _, hq, hg, hloc, hv⟩ := ham
    have : c' = c := by
      have h := hc'.symm.trans hc
      exact Option.some.inj h
    subst this
    subst hl
    have hra : ∀ j ∈ a, j < calls.length := fun j hj => hinv.range j (List.mem_append_left _ hj)
    have hs1 := seq_serial himp a s.mem hra fun z hz => hout z (by rw [serial_append]; exact List.mem_append_left _ hz)
    rw [Sys.mem_sys] at hs1
    rw [List.map_append, List.map_cons] at hcare
    obtain ⟨log1, hls, hc1, hc2, hk1⟩ := Crashy.calls hE h0 hs1 hcare (hreop hra)
    have hx := hout (i, (alone (p.pre ++ p.body) ((serial calls a s.mem).1, p.loc)).2) (by
      rw [serial_append, serial, hp]
      exact List.mem_append_right _ (.head _))
    have es := himp i p hp _ _ hx
    have hm : m .out = (alone q ((serial calls a s.mem).1, p.loc)).1 .out := hv .out (.inr ⟨_, hw⟩)
    obtain ⟨hco, hperf, _, hgrad⟩ := hcall i p hp
    have hnd : a.Nodup := (List.nodup_append.1 hinv.nodup).1
    have hia : i ∉ a := fun hi => (List.nodup_append.1 hinv.nodup).2.2 i hi i (.head _) rfl
    have hsub : ∀ i ∈ a, ∀ j ∈ a, Before sched i j → Precedes a i j := by
      intro x hx y hy hb
      exact (hprec x y (List.mem_append_left _ hx) (List.mem_append_left _ hy) hb).prefix hinv.nodup hy
    have hdone : ∀ (j : Nat) (d : CT L) (id : Nat), ths[j]? = some d → d.Done → ops j = .commit id → j ∈ a ∨ j = i := by
      intro j d id hd hdn hop
      rcases List.mem_append.1 (commits j d id hd hdn hop).2 with hj | hj
      · exact .inl hj
      · rcases List.mem_cons.1 hj with hj | hj
        · exact .inr hj
        · exfalso
          obtain ⟨_, pj, _, hpj⟩ := hget j (hinv.range j (List.mem_append_right _ (.tail _ hj)))
          refine hrest hw j hj pj hpj .wr ?_
          obtain ⟨hco, hpf, _⟩ := hcall j pj hpj
          rw [hop] at hco
          rw [hpf.1]
          generalize kind j = kd at hco
          cases hco
          simp [Call.pre, heldAfter]
    have hpre : PreOk p.pre := (htp p (List.mem_of_getElem? hp)).1
    by_cases hcom : ∃ id, ops i = .commit id
    · obtain ⟨id, hop⟩ := hcom
      rw [hop] at es
      obtain ⟨logl, hll, _⟩ := C57_crashes_partial hE hc1
      cases hc2 with
      | cons hal ha hown hnext =>
        rw [hop] at ha hown hnext
        obtain ⟨hu, ⟨x, hcx⟩, hext⟩ := commit_unit hE hll.reachable ha es
        have hx2 := hx
        rw [hu] at es hown hnext
        by_cases hb : c'.body = []
        · -- it has returned, or is about to
          rw [hb, List.append_nil] at hq
          have hmf : m.files = (alone (p.pre ++ p.body) ((serial calls a s.mem).1, p.loc)).1.files := by
            rw [alone_append, alone_pre hpre.2, hq]
            unfold Mem.files
            rw [hm]
          have hcr := Crashy.commit hc1 ha es hcx
          have hcar := hnext _ es
          obtain ⟨d, db, ho, hfin⟩ := Crashy.reopens hE hcr hcar.aligned rand
          have hk2 := step_key (fun _ => by exact fun h => nomatch h) es
          have happ : a ++ i :: rest = (a ++ [i]) ++ rest := by simp
          have hnd1 : (a ++ [i]).Nodup := by
            have := hinv.nodup
            rw [happ] at this
            exact (List.nodup_append.1 this).1
          have hin1 : ∀ j ∈ a ++ [i], j ∈ a ++ i :: rest := fun j hj => by rw [happ]; exact List.mem_append_left _ hj
          refine ⟨a ++ [i], _, (alone (p.pre ++ p.body) ((serial calls a s.mem).1, p.loc)).1.sys, d, db, ?_, ?_, ?_, ?_, ?_, ?_, .inl hfin⟩
          · exact hnd1
          · exact fun j hj => hmem j (hin1 j hj)
          · intro x hx y hy hb
            have := hprec x y (hin1 x hx) (hin1 y hy) hb
            rw [happ] at this
            exact this.prefix (by rw [← happ]; exact hinv.nodup) hy
          · intro j d id hd hdn hop
            refine ⟨?_, (commits j d id hd hdn hop).1⟩
            rcases hdone j d id hd hdn hop with h | rfl
            · exact List.mem_append_left _ h
            · exact List.mem_append_right _ (.head _)
          · rw [List.map_append]
            refine hls.append ?_
            rw [List.map_cons, List.map_nil, hop, hu]
            exact .commit ha es hcx (.nil _ _)
          · rw [hmf, ← hk1, ← hk2]; exact ho
        · have himg : CrashImage (serial calls a s.mem).1.files (alone (p.pre ++ p.body) ((serial calls a s.mem).1, p.loc)).1.files m.files := by
            have := hgrad (serial calls a s.mem).1 (ret i) (p.pre ++ q) c'.body hll.reachable (by rw [hop]; exact ha) hx2 (by rw [hq, List.append_assoc])
            rw [alone_append p.pre q, alone_pre hpre.2] at this
            rw [show m.files = (alone q ((serial calls a s.mem).1, p.loc)).1.files by unfold Mem.files; rw [hm]]
            exact this
          obtain ⟨d, db, ho, hfin⟩ := C57_opens_partial hE hc1 hal ha es hcx (hown _ es trivial) himg (.nil _) rand
          refine ⟨a, log1, _, d, db, hnd, fun j hj => hmem j (List.mem_append_left _ hj), hsub, ?_, hls, ?_, .inr ⟨i, c', id, _, x, hc, fun h => hb h.2, hop, hia, es, hcx, hfin⟩⟩
          · intro j d id hd hdn hop
            refine ⟨?_, (commits j d id hd hdn hop).1⟩
            rcases hdone j d id hd hdn hop with h | rfl
            · exact h
            · rw [hc] at hd; cases hd; exact (hb hdn.2).elim
          · rw [← hk1]; exact ho
    · -- a call that does not write the files
      have hmf : m.files = (serial calls a s.mem).1.files := by
        unfold Mem.files
        rw [hm, alone_keep]
        intro act hact heq
        refine hcom ?_
        have : Act.wr .out ∈ (kind i).body := by
          rw [← hperf.2, hq, ← heq]
          exact List.mem_map_of_mem (List.mem_append_left _ hact)
        obtain ⟨id, _, _, h, _⟩ := out_written hco this
        exact ⟨id, h⟩
      obtain ⟨d, db, ho, hfin⟩ := Crashy.reopens hE hc1 hc2.aligned rand
      refine ⟨a, log1, _, d, db, hnd, fun j hj => hmem j (List.mem_append_left _ hj), hsub, ?_, hls, ?_, .inl hfin⟩
      · intro j d id hd hdn hop
        refine ⟨?_, (commits j d id hd hdn hop).1⟩
        rcases hdone j d id hd hdn hop with h | rfl
        · exact h
        · exact (hcom ⟨_, hop⟩).elim
      · rw [hmf, ← hk1]; exact ho
  · have hm : (serial calls lin s.mem).1 .out = m .out := hinv.rest .out fun i c hc hn hh => hw ⟨i, c, hc, hn, hh⟩
    have hmf : m.files = (serial calls lin s.mem).1.files := by unfold Mem.files; rw [hm]
    obtain ⟨log1, hls, hc1, hc2, hk1⟩ := Crashy.calls hE (b := []) h0 hseq (by rw [List.append_nil]; exact hcare) (hreop hinv.range)
    obtain ⟨d, db, ho, hfin⟩ := Crashy.reopens hE hc1 hc2.aligned rand
    exact ⟨lin, log1, _, d, db, hinv.nodup, hmem, fun i hi j hj => hprec i j hi hj,
      fun i c id hc hd hop => ⟨(commits i c id hc hd hop).2, (commits i c id hc hd hop).1⟩, hls, by rw [hmf, ← hk1]; exact ho, .inl hfin⟩

theorem LogSeq.crashy {E : Env} {a : List (Op × Ret)} {log log' : List ((B32 × Contents) × Bool)} {s S : Sys}
    (h : LogSeq E log s a log' S) (h0 : Crashy E log s) : Crashy E log' S := by
  induction h with
  | nil => exact h0
  | commit ha e hc _ ih => exact ih (.commit h0 ha e hc)
  | other ha e hc _ ih => exact ih (.other h0 ha e hc)

theorem LogSeq.keeps {E : Env} {a : List (Op × Ret)} {log log' : List ((B32 × Contents) × Bool)} {s S : Sys}
    (h : LogSeq E log s a log' S) {x : (B32 × Contents) × Bool} (hx : x ∈ log) : x ∈ log' := by
  induction h with
  | nil => exact hx
  | commit ha e hc _ ih => exact ih (.tail _ hx)
  | other ha e hc _ ih => exact ih hx

/-- Where a commit is in the log. -/
theorem LogSeq.entry {E : Env} (hE : EnvOk E) : ∀ {a b : List (Op × Ret)} {id : Nat} {log log' : List ((B32 × Contents) × Bool)} {s S : Sys},
    LogSeq E log s (a ++ (.commit id, .unit) :: b) log' S → Crashy E log s →
    ∃ (log1 : List ((B32 × Contents) × Bool)) (s1 s2 : Sys) (c : Contents), LogSeq E log s a log1 s1 ∧
      step E s1 (.commit id) = .ok (s2, .unit) ∧ Commits E s1 (.commit id) c ∧ ((dbRoot s2.db, c), true) ∈ log'
  | [], b, id, log, log', s, S, h, h0 => by
    cases h with
    | commit ha e hc h => exact ⟨_, _, _, _, .nil _ _, e, hc, h.keeps (.head _)⟩
    | other ha e hc h =>
      obtain ⟨logl, hll, _⟩ := C57_crashes_partial hE h0
      obtain ⟨_, ⟨c, hcc⟩, _⟩ := commit_unit hE hll.reachable ha e
      exact (hc.elim (fun h => h rfl) fun h => h c hcc).elim
  | x :: a, b, id, log, log', s, S, h, h0 => by
    cases h with
    | commit ha e hc h =>
      obtain ⟨log1, s1, s2, c, h1, h2⟩ := LogSeq.entry hE h (.commit h0 ha e hc)
      exact ⟨log1, s1, s2, c, .commit ha e hc h1, h2⟩
    | other ha e hc h =>
      obtain ⟨log1, s1, s2, c, h1, h2⟩ := LogSeq.entry hE h (.other h0 ha e hc)
      exact ⟨log1, s1, s2, c, .other ha e hc h1, h2⟩

/-- C75 in terms of contents: whatever else was going on when the process was killed, every
commit that had returned can be opened by its root afterwards, and shows what was committed
(unless two trees collide under the hash). -/
theorem C75_commits_partial {E : Env} (hE : EnvOk E) (out : Nat → L → Option Ret) (calls : List (CProg L)) (kind : Nat → Call) (ops : Nat → Op)
    (hcall : ∀ (i : Nat) (p : CProg L), calls[i]? = some p →
      CallOf (ops i) (kind i) ∧ Performs p (kind i) ∧ Implements E (out i) p (ops i) ∧ Gradual E (out i) p (ops i))
    {log : List ((B32 × Contents) × Bool)} {s : Sys} (h0 : Crashy E log s) (sched : List Nat) (m : Mem) (ths : List (CT L)) (ret : Nat → Ret)
    (hrun : crun (s.mem, calls.map CProg.start) sched = some (m, ths))
    (hret : ∀ (i : Nat) (c : CT L), ths[i]? = some c → c.pre = [] → out i (alone c.body (m, c.loc)).2 = some (ret i))
    (hsafe : ∀ (order : List Nat) (S : Sys), order.Nodup → (∀ i, i ∈ order ↔ ∃ c, ths[i]? = some c ∧ c.pre = []) →
      (∀ i ∈ order, ∀ j ∈ order, Before sched i j → Precedes order i j) →
      Seq E s (order.map fun i => (ops i, ret i)) S → Careful E s (order.map fun i => (ops i, ret i)))
    (rand : B32) :
    ∃ (d : Dir) (db : Db), dbOpen E ⟨some s.db.store.key.bytes, m.files⟩ rand = .ok (d, .ok db) ∧
      ∀ (i : Nat) (c : CT L) (id : Nat), ths[i]? = some c → c.Done → ops i = .commit id →
        ∃ (before : List Nat) (log1 : List ((B32 × Contents) × Bool)) (s1 s2 : Sys) (x : Contents),
          LogSeq E log s (before.map fun i => (ops i, ret i)) log1 s1 ∧ (∀ j ∈ before, j ∈ sched ∧ ¬ Before sched i j) ∧
          (∀ (j : Nat) (e : CT L) (n : Nat), ths[j]? = some e → e.Done → ops j = .commit n → Before sched j i → j ∈ before) ∧
          step E s1 (.commit id) = .ok (s2, .unit) ∧ Commits E s1 (.commit id) x ∧
          ∃ db' tx x', txCreate E db (some (dbRoot s2.db)) = .ok (db', .ok tx) ∧ Shows db' tx x' ∧ (x' = x ∨ TreesCollide E.H x x') := by
  obtain ⟨order, log', S, d, db, hnd, hin, hprec, hdone, hls, ho, hfin⟩ :=
    C75_killed_partial hE out calls kind ops hcall h0 sched m ths ret hrun hret hsafe rand
  obtain ⟨log2, hc2, hsub⟩ : ∃ log2, Crashy E log2 ⟨db, fun _ => none⟩ ∧ ∀ x ∈ log', x ∈ log2 := by
    rcases hfin with h | ⟨_, _, _, _, _, _, _, _, _, _, _, h⟩
    · exact ⟨_, h, fun _ hx => hx⟩
    · exact ⟨_, h, fun _ hx => .tail _ hx⟩
  refine ⟨d, db, ho, fun i c id hc hd hop => ?_⟩
  obtain ⟨hi, hu⟩ := hdone i c id hc hd hop
  obtain ⟨x, y, hxy⟩ := List.append_of_mem hi
  subst hxy
  rw [List.map_append, List.map_cons, hop, hu] at hls
  obtain ⟨log1, s1, s2, cc, h1, h2, h3, h4⟩ := hls.entry hE h0
  refine ⟨x, log1, s1, s2, cc, h1, ?_, ?_, h2, h3, C57_history_partial hE hc2 (hsub _ h4)⟩
  · intro j hj
    refine ⟨hin j (List.mem_append_left _ hj), fun hb => ?_⟩
    obtain ⟨u, v, w, e⟩ := hprec i hi j (List.mem_append_left _ hj) hb
    rw [List.append_assoc, List.cons_append] at e
    have := split_unique e hnd
    subst this
    have hn := hnd
    rw [e] at hn
    have hd := (List.nodup_append.1 hnd).2.2
    rw [List.append_cancel_left_eq] at e
    injection e with _ e
    exact hd j hj j (by rw [e]; simp) rfl
  · intro j e n hje hjd hjo hb
    obtain ⟨hj, _⟩ := hdone j e n hje hjd hjo
    obtain ⟨u, v, w, e⟩ := hprec j hj i hi hb
    have e2 : u ++ j :: v = x := (split_unique (y := i) (by rw [e]) hnd).symm
    rw [← e2]; simp

theorem canon_out {E : Env} {op : Op} {c : Call} (hc : CallOf op c) (hf : c.full) {m : Mem} {r : Ret}
    (ho : canonOut E op c (alone ((canon E op c).pre ++ (canon E op c).body) (m, (canon E op c).loc)).2 = some r) :
    c.taken op m ∧ ∃ s1, step E m.sys op = .ok (s1, r) := by
  have hview := canon_view (E := E) (m0 := m) hc hf
  have hst := canon_implements hc hf m r ho
  refine ⟨?_, _, hst⟩
  unfold canonOut at ho
  split at ho
  · rename_i h
    exact Call.taken_congr hc (fun n hn => (hview n hn).1.symm) h.2
  · cases ho

theorem canon_gradual {E : Env} (hE : EnvOk E) {op : Op} {c : Call} (hc : CallOf op c) (hf : c.full) : Gradual E (canonOut E op c) (canon E op c) op := by
  intro m r a rest hr ha ho hsplit
  obtain ⟨hp, s1, e⟩ := canon_out hc hf ho
  rw [canon_memory hc hf hp e]
  have hnew : FExt m.files s1.mem.files := by
    by_cases hcom : ∃ id, op = .commit id
    · obtain ⟨id, rfl⟩ := hcom
      exact (commit_unit hE hr ha e).2.2
    · have : s1.mem .out = m .out := by
        refine footprint_changes hc hp e _ fun hv => hcom ?_
        obtain ⟨A1, A2, eb, _⟩ := Call.body_changes hc hf _ hv
        obtain ⟨id, _, _, h, _⟩ := out_written hc (by rw [eb]; simp)
        exact ⟨id, h⟩
      rw [show s1.mem.files = m.files by unfold Mem.files; rw [this]]
      exact FExt.refl _
  have hor : (alone a (m, (canon E op c).loc)).1 .out = m .out ∨ (alone a (m, (canon E op c).loc)).1 .out = s1.mem .out := by
    rcases List.append_eq_append_iff.1 hsplit with ⟨t, h1, h2⟩ | ⟨t, h1, h2⟩
    · rw [h1, alone_append, alone_pre (pre := (canon E op c).pre) (Call.pre_ok c).2]
      obtain ⟨A, B, h3, h4, _⟩ := List.map_eq_append_iff.1 h2
      rw [← h4]
      exact canon_either hc hp e A (Seen.init m) .out (.inl rfl)
    · left
      rw [alone_keep]
      intro act hact heq
      have hpre : act ∈ c.pre View := by
        have : (canon E op c).pre = c.pre View := rfl
        rw [← this, h1]; exact List.mem_append_left _ hact
      rcases (Call.pre_ok c).2 act hpre with ⟨l, md, rfl⟩ | ⟨l, rfl⟩ | ⟨v, rfl⟩ <;> cases heq
  unfold Mem.files at hnew ⊢
  rcases hor with h | h <;> rw [h]
  · exact ⟨FExt.refl _, hnew⟩
  · exact ⟨hnew, FExt.refl _⟩

/-- Programs for which C75 holds exist for every call of the API. -/
theorem C75_programs {E : Env} (hE : EnvOk E) {op : Op} {c : Call} (hc : CallOf op c) (hf : c.full) : ∃ (p : CProg View) (out : View → Option Ret),
    Performs p c ∧ Implements E out p op ∧ Gradual E out p op ∧
      ∀ (m : Mem) (s1 : Sys) (r : Ret), c.taken op m → step E m.sys op = .ok (s1, r) → out (alone (p.pre ++ p.body) (m, p.loc)).2 = some r := by
  refine ⟨canon E op c, canonOut E op c, canon_performs E op c, canon_implements hc hf, ?_, fun _ _ _ hp e => canon_returns hc hf hp e⟩
  exact canon_gradual hE hc hf

theorem two_run (m : Mem) {v w : Var} (f : Val v → L → Val v × L) (g : Val w → L → Val w × L) (h : Val .head → L → L) (rest : List (SAct L)) (l : L) :
    ∃ m' c d, crun (m, [⟨[.acq (.tx 0) .wr, .acq .tree .wr], .wr v f :: .wr w g :: rest, l⟩, ⟨[.acq .tree .rd], [.rd .head h, .rel .tree], l⟩].map CProg.start)
        [0, 1, 1, 1, 0, 0, 0] = some (m', [c, d]) ∧ c.pre = [] ∧ d.pre = [] ∧
      (alone c.body (m', c.loc)).2 = (alone ([.acq (.tx 0) .wr, .acq .tree .wr] ++ .wr v f :: .wr w g :: rest) (m, l)).2 ∧
      (alone d.body (m', d.loc)).2 = (alone ([.acq .tree .rd] ++ [.rd .head h, .rel .tree]) (m, l)).2 :=
  ⟨_, _, _, rfl, rfl, rfl, rfl, rfl⟩

/-- A run that meets the hypotheses: `urkel_root` has returned, `urkel_tx_commit` has written
the files but has not returned. -/
example : ∃ (m : Mem) (ths : List (CT View)) (ret : Nat → Ret),
    crun ((sys2 (keyOf 1) [7]).mem, [canon toyEnv (.commit 0) (.txCommit 0 [false] 0), canon toyEnv .root .root].map CProg.start) [0, 1, 1, 1, 0, 0, 0] = some (m, ths) ∧
      (∀ (i : Nat) (c : CT View), ths[i]? = some c → c.pre = [] →
        (if i = 0 then canonOut toyEnv (.commit 0) (.txCommit 0 [false] 0) else canonOut toyEnv .root .root) (alone c.body (m, c.loc)).2 = some (ret i)) ∧
      ∀ (order : List Nat), order.Nodup → (∀ i, i ∈ order ↔ ∃ c, ths[i]? = some c ∧ c.pre = []) →
        Careful toyEnv (sys2 (keyOf 1) [7]) (order.map fun i => (if i = 0 then .commit 0 else .root, ret i)) := by
  have hlen : (firstFiles.getLastD []).length % 38 = 0 := by decide +kernel
  set_option synthInstance.maxHeartbeats 200000 in
  set_option synthInstance.maxSize 1000 in
  have hown : OnlyOwnRecord toyEnv B32.zero [[]] firstFiles := onlyOwn_of (by decide +kernel)
  obtain ⟨hist, t, hd, ht⟩ := (sys2_logged (keyOf 1) [7] (by decide)).reachable.tree toyEnv_ok (sys2_tx _ _)
  have hcan : CanCommit toyEnv (sys2 (keyOf 1) [7]).db (leafTx (keyOf 1) [7]) := sys2_can (keyOf 1) [7] (by decide)
  obtain ⟨hv, hcap⟩ := canCommit_tree hd ht hcan
  obtain ⟨db', tx', e, _, _, _⟩ := txCommit_ok toyEnv_ok hd ht hv hcap
  have hff : firstFiles = db'.store.files := by
    unfold firstFiles
    rw [show txCommit toyEnv db0 (leafTx (keyOf 1) [7]) = _ from e]
  have es : step toyEnv (sys2 (keyOf 1) [7]) (.commit 0) =
      .ok (({ sys2 (keyOf 1) [7] with db := db' } : Sys).setTx 0 (some tx'), .unit) := by
    simp only [step, Sys.tx, sys2_tx, Res.bind_ok, e, Res.pure_eq]; rfl
  have hal : ((sys2 (keyOf 1) [7]).db.store.files.getLastD []).length % 38 = 0 := rfl
  have hal2 : (db'.store.files.getLastD []).length % 38 = 0 := by rw [← hff]; exact hlen
  have hfil : (sys2 (keyOf 1) [7]).db.store.files = [[]] ∧ (sys2 (keyOf 1) [7]).db.store.key = B32.zero := ⟨rfl, rfl⟩
  have htx : (sys2 (keyOf 1) [7]).txs 0 = some (leafTx (keyOf 1) [7]) := sys2_tx _ _
  have hm : (sys2 (keyOf 1) [7]).mem.sys = sys2 (keyOf 1) [7] := rfl
  generalize sys2 (keyOf 1) [7] = s at *
  have hcarec : ∀ r, Careful toyEnv s [(.commit 0, r)] := by
    intro r
    refine .cons hal ⟨_, htx, hcan⟩ ?_ ?_
    · intro s' e1 _
      rw [es] at e1; cases e1
      rw [hfil.1, hfil.2]
      show OnlyOwnRecord toyEnv B32.zero [[]] db'.store.files
      rw [← hff]; exact hown
    · intro s' e1
      rw [es] at e1; cases e1
      exact .nil hal2
  have run : ∃ m ths, crun (s.mem, [canon toyEnv (.commit 0) (.txCommit 0 [false] 0), canon toyEnv .root .root].map CProg.start) [0, 1, 1, 1, 0, 0, 0] = some (m, ths) ∧
      ∃ c d, ths = [c, d] ∧ c.pre = [] ∧ d.pre = [] ∧
        (alone c.body (m, c.loc)).2 = (alone ((canon toyEnv (.commit 0) (.txCommit 0 [false] 0)).pre ++ (canon toyEnv (.commit 0) (.txCommit 0 [false] 0)).body) (s.mem, View.empty)).2 ∧
        (alone d.body (m, d.loc)).2 = (alone ((canon toyEnv .root .root).pre ++ (canon toyEnv .root .root).body) (s.mem, View.empty)).2 := by
    obtain ⟨m', c, d, h1, h2⟩ := two_run s.mem _ _ _ (List.map (canonAct toyEnv (.commit 0) (Call.needs (.txCommit 0 [false] 0))) (Call.body (.txCommit 0 [false] 0)).tail.tail) View.empty
    exact ⟨m', _, h1, c, d, rfl, h2⟩
  obtain ⟨m, ths, hrun, c, d, rfl, hc, hd, hcl, hdl⟩ := run
  refine ⟨m, [c, d], fun i => if i = 0 then .unit else .hash (dbRoot s.db), hrun, ?_, ?_⟩
  · intro i x hx _
    match i, hx with
    | 0, hx =>
      cases hx
      rw [if_pos rfl, hcl]
      exact canon_returns (CallOf.commit 0 [false] 0) (by simp [Call.full]) trivial (by rw [hm]; exact es)
    | 1, hx =>
      cases hx
      rw [if_neg (by decide), hdl]
      exact canon_returns CallOf.root (by simp [Call.full]) trivial (by rw [hm]; rfl)
    | n + 2, hx => cases hx
  · intro order hn hmem
    have h0 : 0 ∈ order := (hmem 0).2 ⟨c, rfl, hc⟩
    have h1 : 1 ∈ order := (hmem 1).2 ⟨d, rfl, hd⟩
    have hp : order.Perm [0, 1] := by
      rw [List.perm_ext_iff_of_nodup hn (by decide)]
      intro i
      rw [hmem]
      match i with
      | 0 => simp [hc]
      | 1 => simp [hd]
      | n + 2 => simp
    have : order = [0, 1] ∨ order = [1, 0] := by
      have hl := hp.length_eq
      match order, hl with
      | [a, b], _ =>
        have h2 : a = 0 ∨ a = 1 := by simpa using hp.subset (List.mem_cons_self ..)
        have h3 : b = 0 ∨ b = 1 := by simpa using hp.subset (List.mem_cons_of_mem _ (List.mem_cons_self ..))
        rcases h2 with rfl | rfl <;> rcases h3 with rfl | rfl <;> simp at hn ⊢
    rcases this with rfl | rfl
    · show Careful toyEnv s [(.commit 0, .unit), (.root, .hash (dbRoot s.db))]
      refine .cons hal ⟨_, htx, hcan⟩ ?_ ?_
      · intro s' e1 _
        rw [es] at e1; cases e1
        rw [hfil.1, hfil.2]
        show OnlyOwnRecord toyEnv B32.zero [[]] db'.store.files
        rw [← hff]; exact hown
      · intro s' e1
        rw [es] at e1; cases e1
        refine .cons hal2 trivial (fun _ _ h => h.elim) fun s' e1 => ?_
        have hs : _ = s' := congrArg Prod.fst (Res.ok.inj e1)
        rw [← hs]
        exact .nil hal2
    · show Careful toyEnv s [(.root, .hash (dbRoot s.db)), (.commit 0, .unit)]
      refine .cons hal trivial (fun _ _ h => h.elim) fun s' e1 => ?_
      cases e1
      exact hcarec _

end Urkel
