import Verif.Spec.ConcIter
import Verif.Lemmas.ConcProg
import Mathlib.Tactic.Tauto
/-
Iterations as programs of accesses, and the order in which concurrent jobs take effect.
-/
namespace Urkel

open Act

theorem seekLoop_same {s s' : Store} (h : SameRead s s') : ∀ (fuel : Nat) (it : Iter), seekLoop s' fuel it = seekLoop s fuel it
  | 0, _ => rfl
  | fuel + 1, it => by simp only [seekLoop, storeResolve_same h, seekLoop_same h fuel]

theorem iterSeek_same {s s' : Store} (h : SameRead s s') (it : Iter) : iterSeek s' it = iterSeek s it := by
  unfold iterSeek; simp only [seekLoop_same h]

theorem nextLoop_same {s s' : Store} (h : SameRead s s') : ∀ (fuel : Nat) (it : Iter), nextLoop s' fuel it = nextLoop s fuel it
  | 0, _ => rfl
  | fuel + 1, it => by simp only [nextLoop, iterSeek_same h, storeRetrieve_same h, nextLoop_same h fuel]

theorem iterCalls_read {db db' : Db} (h : SameRead db.store db'.store) : ∀ (n : Nat) (it : Iter),
    iterCalls it (List.replicate n db') = iterCalls it (List.replicate n db)
  | 0, _ => rfl
  | n + 1, it => by
    have : iterNext db' it = iterNext db it := nextLoop_same h _ _
    simp only [List.replicate_succ, iterCalls, this, iterCalls_read h n]

/-- Reading never changes the part of the first thing done that is left. -/
theorem crun_pre {L : Type} : ∀ {sched : List Nat} {s s' : Mem × List (CT L)}, crun s sched = some s' → ∀ {i : Nat} {c : CT L}, s.2[i]? = some c →
    ∃ c', s'.2[i]? = some c' ∧ c'.pre = c.pre.drop (sched.count i)
  | [], s, s', e, i, c, hc => by cases e; exact ⟨c, hc, by simp⟩
  | t :: sched, s, s', e, i, c, hc => by
    rw [crun] at e
    obtain ⟨s1, e1, e⟩ := Option.bind_eq_some_iff.1 e
    have key : ∃ c1, s1.2[i]? = some c1 ∧ c1.pre = c.pre.drop (if t = i then 1 else 0) := by
      rw [cstep] at e1
      cases ht : s.2[t]? with
      | none => rw [ht] at e1; cases e1
      | some d =>
        rw [ht] at e1
        dsimp only at e1
        have htl : t < s.2.length := (List.getElem?_eq_some_iff.1 ht).1
        by_cases hti : t = i
        · subst hti
          rw [ht] at hc; cases hc
          rw [if_pos rfl]
          split at e1
          · rename_i a pre body h1
            split at e1
            · cases e1; exact ⟨_, by rw [List.getElem?_set_self htl], by rw [h1]; rfl⟩
            · cases e1
          · rename_i a body h1 h2
            split at e1
            · cases e1; exact ⟨_, by rw [List.getElem?_set_self htl], by rw [h1]; rfl⟩
            · cases e1
          · cases e1
        · rw [if_neg hti]
          split at e1
          · split at e1
            · cases e1; exact ⟨c, by rw [List.getElem?_set_ne hti]; exact hc, rfl⟩
            · cases e1
          · split at e1
            · cases e1; exact ⟨c, by rw [List.getElem?_set_ne hti]; exact hc, rfl⟩
            · cases e1
          · cases e1
    obtain ⟨c1, h1, h2⟩ := key
    obtain ⟨c', h3, h4⟩ := crun_pre e h1
    refine ⟨c', h3, ?_⟩
    rw [h4, h2, List.drop_drop, List.count_cons]
    congr 1
    by_cases hti : t = i
    · simp [hti]; omega
    · simp [hti]

/-- A job that began when another one had all its locks comes after it. -/
theorem linOf_begun {L : Type} {calls : List (CProg L)} (htp : ∀ p ∈ calls, TwoPhase p) {m : Mem} {sched : List Nat} {s' : Mem × List (CT L)}
    (e : crun (m, calls.map CProg.start) sched = some s') {i j k : Nat} {p : CProg L} (hp : calls[i]? = some p) (hk : p.pre.length ≤ k)
    (hj : j ∈ linOf (m, calls.map CProg.start) sched) (hb : BegunAfter sched k i j) : Precedes (linOf (m, calls.map CProg.start) sched) i j := by
  obtain ⟨b, hbj, hfirst⟩ : ∃ b, sched[b]? = some j ∧ j ∉ sched.take b := by
    have hj := linOf_mem hj
    clear * - hj
    induction sched with
    | nil => cases hj
    | cons a sched ih =>
      by_cases h : a = j
      · exact ⟨0, by simp [h], by simp⟩
      · obtain ⟨b, h2, h3⟩ := ih ((List.mem_cons.1 hj).resolve_left (fun e => h e.symm))
        exact ⟨b + 1, by simp [h2], by simp [h3, Ne.symm h]⟩
  have hcount := hb.2 b hbj
  have hsplit : sched = sched.take b ++ sched.drop b := (List.take_append_drop b sched).symm
  rw [hsplit, crun_append] at e
  obtain ⟨s1, e1, e2⟩ := Option.bind_eq_some_iff.1 e
  have hinv := CInv.run htp (CInv.init calls m htp) e1
  rw [List.nil_append] at hinv
  obtain ⟨c, hc, hpre⟩ := crun_pre e1 (i := i) (c := p.start) (by show (calls.map CProg.start)[i]? = _; rw [List.getElem?_map, hp]; rfl)
  have hnil : c.pre = [] := by rw [hpre]; exact List.drop_eq_nil_of_le (by show p.pre.length ≤ _; omega)
  have hi1 := (hinv.within i c hc hnil).1
  rw [hsplit, linOf_append _ _ _ _ e1] at hj ⊢
  have hj1 := (List.mem_append.1 hj).resolve_left (fun h => hfirst (linOf_mem h))
  obtain ⟨x, y, hx⟩ := List.append_of_mem hi1
  obtain ⟨z, w, hz⟩ := List.append_of_mem hj1
  exact ⟨x, y ++ z, w, by rw [hx, hz]; simp⟩

/-- The jobs that read a file at least once, or write one. -/
def Call.reads : Call → Prop
  | .iterate _ _ nexts _ => ∃ ms ∈ nexts, ms ≠ []
  | c => c.full

/-- Remember what is read, and write nothing. -/
def lookAct : Act → SAct View
  | .acq l m => .acq l m
  | .rel l => .rel l
  | .rd v => .rd v fun x w => w.see v x
  | .wr v => .wr v fun x w => (x, w.see v x)

/-- The program of an iteration. -/
def scanProg (x k : Nat) (nexts : List (List Bool)) : CProg View :=
  ⟨(Call.iterate x k nexts false).pre View, (Call.iterate x k nexts false).body.map lookAct, View.empty⟩

/-- What the iteration has returned, from what it has seen. -/
def scanOut (E : Env) (x n : Nat) (w : View) : Option JobRet :=
  if w.has [.tx x, .out] then match jobStep E (w.mem blankMem).sys (.scan x n) with
    | .ok (_, r) => some r
    | _ => none
  else none

theorem lookAct_act (a : Act) : (lookAct a).act = a := by cases a <;> rfl

theorem scan_performs (x k : Nat) (nexts : List (List Bool)) : Performs (scanProg x k nexts) (.iterate x k nexts false) := by
  refine ⟨rfl, ?_⟩
  show List.map SAct.act (List.map lookAct _) = _
  rw [List.map_map]
  have : SAct.act ∘ lookAct = id := funext fun a => lookAct_act a
  rw [this, List.map_id]

theorem Mem.set_self (m : Mem) (v : Var) : m.set v (m v) = m := by
  funext w
  by_cases h : w = v
  · subst h; exact Mem.set_same ..
  · exact Mem.set_ne _ _ h

/-- A program that only looks changes nothing and sees what is there. -/
theorem look_alone (m : Mem) : ∀ (A : List Act) (w : View), (∀ v, w v = none ∨ w v = some (m v)) →
    (alone (A.map lookAct) (m, w)).1 = m ∧ (∀ v, (alone (A.map lookAct) (m, w)).2 v = none ∨ (alone (A.map lookAct) (m, w)).2 v = some (m v)) ∧
      ∀ v, ((w v).isSome = true ∨ accessed A v) → ((alone (A.map lookAct) (m, w)).2 v).isSome = true
  | [], w, hw => ⟨rfl, hw, fun v h => by
      rcases h with h | h | h
      · exact h
      · cases h
      · cases h⟩
  | a :: A, w, hw => by
    have seen : ∀ v u, w.see v (m v) u = none ∨ w.see v (m v) u = some (m u) := by
      intro v u
      by_cases h : u = v
      · subst h
        rw [View.see_same]
        rcases hw u with h | h <;> rw [h] <;> exact .inr rfl
      · rw [View.see_ne _ _ h]; exact hw u
    have keeps : ∀ v u, ((w u).isSome = true ∨ u = v) → (w.see v (m v) u).isSome = true := by
      intro v u hu
      by_cases h : u = v
      · subst h; rw [View.see_same]; rfl
      · rw [View.see_ne _ _ h]; exact hu.resolve_right h
    cases a with
    | acq l md =>
      obtain ⟨h1, h2, h3⟩ := look_alone m A w hw
      exact ⟨h1, h2, fun v h => h3 v (by rcases h with h | h | h <;> simp_all [accessed])⟩
    | rel l =>
      obtain ⟨h1, h2, h3⟩ := look_alone m A w hw
      exact ⟨h1, h2, fun v h => h3 v (by rcases h with h | h | h <;> simp_all [accessed])⟩
    | rd v =>
      obtain ⟨h1, h2, h3⟩ := look_alone m A _ (seen v)
      refine ⟨h1, h2, fun u h => h3 u ?_⟩
      rcases h with h | h | h
      · exact .inl (keeps v u (.inl h))
      · rcases List.mem_cons.1 h with h | h
        · cases h; exact .inl (keeps v v (.inr rfl))
        · exact .inr (.inl h)
      · rcases List.mem_cons.1 h with h | h
        · cases h
        · exact .inr (.inr h)
    | wr v =>
      have e : (lookAct (.wr v)).eff (m, w) = (m, w.see v (m v)) := by
        show (m.set v (m v), _) = _
        rw [Mem.set_self]
      obtain ⟨h1, h2, h3⟩ := look_alone m A _ (seen v)
      rw [List.map_cons, alone_cons, e]
      refine ⟨h1, h2, fun u h => h3 u ?_⟩
      rcases h with h | h | h
      · exact .inl (keeps v u (.inl h))
      · rcases List.mem_cons.1 h with h | h
        · cases h
        · exact .inr (.inl h)
      · rcases List.mem_cons.1 h with h | h
        · cases h; exact .inl (keeps v v (.inr rfl))
        · exact .inr (.inr h)

theorem scan_step {E : Env} {x n : Nat} {m m' : Mem} (h1 : m (.tx x) = m' (.tx x)) (h2 : m .out = m' .out) {s : Sys} {r : JobRet}
    (e : jobStep E m.sys (.scan x n) = .ok (s, r)) : s = m.sys ∧ jobStep E m'.sys (.scan x n) = .ok (m'.sys, r) := by
  simp only [jobStep] at e ⊢
  rw [Mem.tx_eq h1]
  obtain ⟨t, e1, e⟩ := Res.bind_eq_ok.1 e
  obtain ⟨it, e2, e⟩ := Res.bind_eq_ok.1 e
  obtain ⟨l, e3, e⟩ := Res.bind_eq_ok.1 e
  cases e
  refine ⟨rfl, ?_⟩
  rw [e1, Res.bind_ok, e2, Res.bind_ok, iterCalls_read (Mem.same_read h2), e3]
  rfl

theorem scan_look (m : Mem) (x k : Nat) (nexts : List (List Bool)) :
    (alone ((scanProg x k nexts).pre ++ (scanProg x k nexts).body) (m, (scanProg x k nexts).loc)).1 = m ∧
    (∀ v, (alone ((scanProg x k nexts).pre ++ (scanProg x k nexts).body) (m, (scanProg x k nexts).loc)).2 v = none ∨
      (alone ((scanProg x k nexts).pre ++ (scanProg x k nexts).body) (m, (scanProg x k nexts).loc)).2 v = some (m v)) ∧
    ∀ v, accessed (Call.iterate x k nexts false).body v → ((alone ((scanProg x k nexts).pre ++ (scanProg x k nexts).body) (m, (scanProg x k nexts).loc)).2 v).isSome = true := by
  rw [alone_append, alone_pre (pre := (scanProg x k nexts).pre) (Call.pre_ok (Call.iterate x k nexts false)).2]
  obtain ⟨h1, h2, h3⟩ := look_alone m (Call.iterate x k nexts false).body View.empty (fun _ => .inl rfl)
  exact ⟨h1, h2, fun v hv => h3 v (.inr hv)⟩

theorem scan_does (E : Env) (x k : Nat) (nexts : List (List Bool)) : DoesJob E (scanOut E x nexts.length) (scanProg x k nexts) (.scan x nexts.length) := by
  intro m r ho
  obtain ⟨h1, h2, -⟩ := scan_look m x k nexts
  generalize alone ((scanProg x k nexts).pre ++ (scanProg x k nexts).body) (m, (scanProg x k nexts).loc) = a at ho h1 h2 ⊢
  unfold scanOut at ho
  split at ho
  · rename_i hh
    have hn := View.has_iff.1 hh
    split at ho
    · rename_i s r0 e
      cases ho
      rw [h1]
      exact (scan_step (m' := m) (Seen.mem h2 (hn _ (by simp))) (Seen.mem h2 (hn _ (by simp))) e).2
    · cases ho
  · cases ho

theorem scan_returns (E : Env) (x k : Nat) (nexts : List (List Bool)) (hf : ∃ ms ∈ nexts, ms ≠ []) {m : Mem} {s : Sys} {r : JobRet}
    (e : jobStep E m.sys (.scan x nexts.length) = .ok (s, r)) :
    scanOut E x nexts.length (alone ((scanProg x k nexts).pre ++ (scanProg x k nexts).body) (m, (scanProg x k nexts).loc)).2 = some r := by
  obtain ⟨-, h2, h3⟩ := scan_look m x k nexts
  generalize alone ((scanProg x k nexts).pre ++ (scanProg x k nexts).body) (m, (scanProg x k nexts).loc) = a at h2 h3 ⊢
  have ha : (a.2 (.tx x)).isSome = true := h3 _ (.inl (by simp [Call.body]))
  have hb : (a.2 .out).isSome = true := by
    obtain ⟨ms, hm, hne⟩ := hf
    refine h3 _ (.inl ?_)
    have : rd .out ∈ readsActs ms := mem_reads hne
    simp only [Call.body, List.mem_cons, List.mem_append, List.mem_flatMap]
    have h2 : ∃ a ∈ nexts, ((rd Var.out = acq (.iter k) .wr ∨ rd Var.out = wr (.iter k) ∨ rd Var.out = rd (.tx x) ∨ rd Var.out ∈ readsActs a) ∨ rd Var.out ∈ [rel (.iter k)]) := ⟨ms, hm, .inl (.inr (.inr (.inr this)))⟩
    simp at h2 ⊢
    tauto
  unfold scanOut
  rw [if_pos (View.has_iff.2 (by simp [ha, hb]))]
  rw [(scan_step (m' := a.2.mem blankMem) (Seen.mem h2 ha).symm (Seen.mem h2 hb).symm e).2]

end Urkel
