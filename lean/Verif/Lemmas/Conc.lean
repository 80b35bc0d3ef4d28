import Verif.Spec.Conc
import Verif.Props.Locks
/-
Two-phase locking gives serializability.
-/
namespace Urkel

variable {L : Type}

theorem Mem.set_same (m : Mem) (v : Var) (x : Val v) : m.set v x v = x := by unfold Mem.set; rw [dif_pos rfl]

theorem Mem.set_ne (m : Mem) {v w : Var} (x : Val v) (h : w ≠ v) : m.set v x w = m w := by unfold Mem.set; rw [dif_neg h]

theorem NoData.eq {v : Var} (h : NoData v) (x y : Val v) : x = y := by
  cases v <;> first | exact h.elim | (cases x; cases y; rfl)

theorem alone_cons (a : SAct L) (p : List (SAct L)) (x : Mem × L) : alone (a :: p) x = alone p (a.eff x) := rfl

theorem alone_append (p q : List (SAct L)) (x : Mem × L) : alone (p ++ q) x = alone q (alone p x) := by
  unfold alone; rw [List.foldl_append]

theorem alone_pre {pre : List (SAct L)} (h : ∀ a ∈ pre, (∃ l m, a = .acq l m) ∨ (∃ l, a = .rel l) ∨ ∃ v, a = .peek v) (x : Mem × L) :
    alone pre x = x := by
  induction pre with
  | nil => rfl
  | cons a pre ih =>
    rw [alone_cons]
    have : a.eff x = x := by
      rcases h a (by simp) with ⟨l, m, rfl⟩ | ⟨l, rfl⟩ | ⟨v, rfl⟩ <;> rfl
    rw [this]
    exact ih (fun b hb => h b (by simp [hb]))

/-- The variables a call may read. -/
def Covers (held : List (Lock × Mode)) (v : Var) : Prop := NoData v ∨ ∃ m, (guardOf v, m) ∈ held

/-- The rest of a call changes only what it holds write locks for. -/
theorem alone_frame : ∀ {p : List (SAct L)} {held : List (Lock × Mode)} {m : Mem} {l : L} {v : Var}, Guarded held p →
    (guardOf v, Mode.wr) ∉ held → (alone p (m, l)).1 v = m v := by
  intro p
  induction p with
  | nil => intro held m l v _ _; rfl
  | cons a p ih =>
    intro held m l v hb hv
    by_cases hnd : NoData v
    · exact hnd.eq _ _
    cases a with
    | acq lk md =>
      refine ih (held := (lk, md) :: held) hb.2 (fun h => ?_)
      rcases List.mem_cons.1 h with h | h
      · exact hnd (hb.1 v (Prod.mk.inj h).1)
      · exact hv h
    | rel lk => exact ih (held := held.filter fun h => h.1 ≠ lk) hb (fun h => hv (List.mem_filter.1 h).1)
    | peek w => exact ih hb hv
    | rd w f => exact ih hb.2 hv
    | wr w f =>
      rw [alone_cons]
      show (alone p (m.set w (f (m w) l).1, (f (m w) l).2)).1 v = m v
      rw [ih hb.2 hv]
      refine Mem.set_ne _ _ (fun h => ?_)
      subst h
      exact hb.1.elim hnd hv

/-- What the rest of a call does depends on the variables it holds locks for. -/
theorem alone_congr : ∀ {p : List (SAct L)} {held : List (Lock × Mode)} {m m' : Mem} {l : L}, Guarded held p →
    (∀ v, Covers held v → m v = m' v) →
    (alone p (m, l)).2 = (alone p (m', l)).2 ∧ ∀ v, Covers held v → (alone p (m, l)).1 v = (alone p (m', l)).1 v := by
  intro p
  induction p with
  | nil => intro held m m' l _ h; exact ⟨rfl, h⟩
  | cons a p ih =>
    intro held m m' l hb h
    cases a with
    | acq lk md =>
      obtain ⟨h1, h2⟩ := ih (l := l) hb.2 (m := m) (m' := m') (by
        rintro v (hv | ⟨md', hv⟩)
        · exact hv.eq _ _
        · rcases List.mem_cons.1 hv with hv | hv
          · exact NoData.eq (hb.1 v (Prod.mk.inj hv).1) _ _
          · exact h v (Or.inr ⟨_, hv⟩))
      refine ⟨h1, fun v hv => h2 v ?_⟩
      rcases hv with hv | ⟨md', hv⟩
      · exact Or.inl hv
      · exact Or.inr ⟨md', by simp [hv]⟩
    | rel lk =>
      have hsub : ∀ v, Covers (held.filter fun h => h.1 ≠ lk) v → Covers held v := by
        rintro v (hv | ⟨md, hv⟩)
        · exact Or.inl hv
        · exact Or.inr ⟨md, (List.mem_filter.1 hv).1⟩
      obtain ⟨h1, h2⟩ := ih (l := l) (held := held.filter fun h => h.1 ≠ lk) hb (m := m) (m' := m') (fun v hv => h v (hsub v hv))
      refine ⟨h1, fun v hv => ?_⟩
      by_cases hg : Covers (held.filter fun h => h.1 ≠ lk) v
      · exact h2 v hg
      · have hfr : ∀ m0 : Mem, (alone p (m0, l)).1 v = m0 v :=
          fun m0 => alone_frame (held := held.filter fun h => h.1 ≠ lk) hb (fun h => hg (Or.inr ⟨_, h⟩))
        rw [alone_cons, alone_cons]
        show (alone p (m, l)).1 v = (alone p (m', l)).1 v
        rw [hfr, hfr]
        exact h v hv
    | peek v => exact ih hb h
    | rd v f =>
      rw [alone_cons, alone_cons]
      show (alone p (m, f (m v) l)).2 = (alone p (m', f (m' v) l)).2 ∧
        ∀ w, _ → (alone p (m, f (m v) l)).1 w = (alone p (m', f (m' v) l)).1 w
      rw [h v hb.1]
      exact ih hb.2 h
    | wr v f =>
      rw [alone_cons, alone_cons]
      show (alone p (m.set v (f (m v) l).1, (f (m v) l).2)).2 = (alone p (m'.set v (f (m' v) l).1, (f (m' v) l).2)).2 ∧
        ∀ w, _ → (alone p (m.set v (f (m v) l).1, (f (m v) l).2)).1 w = (alone p (m'.set v (f (m' v) l).1, (f (m' v) l).2)).1 w
      have hv : m v = m' v := h v (hb.1.imp id (fun h => ⟨_, h⟩))
      rw [hv]
      refine ih hb.2 (fun w hw => ?_)
      by_cases hwv : w = v
      · subst hwv; rw [Mem.set_same, Mem.set_same]
      · rw [Mem.set_ne _ _ hwv, Mem.set_ne _ _ hwv]; exact h w hw

/-- Does the step of call `t` end its first part? -/
def pointOf (s : Mem × List (CT L)) (t : Nat) : Bool :=
  match s.2[t]? with
  | some c => c.pre.length = 1
  | none => false

/-- The calls in the order in which they have all their locks. -/
def linOf : Mem × List (CT L) → List Nat → List Nat
  | _, [] => []
  | s, t :: sched =>
    match cstep s t with
    | none => []
    | some s' => (if pointOf s t then [t] else []) ++ linOf s' sched

theorem linOf_append : ∀ (a b : List Nat) (s s' : Mem × List (CT L)), crun s a = some s' → linOf s (a ++ b) = linOf s a ++ linOf s' b
  | [], b, s, s', h => by cases h; rfl
  | t :: a, b, s, s', h => by
    rw [crun] at h
    obtain ⟨s1, e, h⟩ := Option.bind_eq_some_iff.1 h
    rw [List.cons_append, linOf, linOf, e]
    dsimp only
    rw [linOf_append a b s1 s' h, List.append_assoc]

theorem crun_append : ∀ (a b : List Nat) (s : Mem × List (CT L)), crun s (a ++ b) = (crun s a).bind fun s => crun s b
  | [], b, s => rfl
  | t :: a, b, s => by
    rw [List.cons_append, crun, crun]
    cases cstep s t with
    | none => rfl
    | some s1 => exact crun_append a b s1

theorem serial_append (calls : List (CProg L)) : ∀ (a b : List Nat) (m : Mem),
    serial calls (a ++ b) m = ((serial calls b (serial calls a m).1).1, (serial calls a m).2 ++ (serial calls b (serial calls a m).1).2)
  | [], b, m => rfl
  | i :: a, b, m => by
    rw [List.cons_append, serial, serial]
    cases calls[i]? with
    | none => exact serial_append calls a b m
    | some p => dsimp only; rw [serial_append calls a b]; rfl

/-- What holds in every state of a run of `calls` from `m0`; `lin` are the calls that
have all their locks, in that order. -/
structure CInv (calls : List (CProg L)) (m0 : Mem) (s : Mem × List (CT L)) (lin : List Nat) : Prop where
  len : s.2.length = calls.length
  nodup : lin.Nodup
  range : ∀ i ∈ lin, i < calls.length
  excl : ∀ (t u : Nat) (a b : CT L), s.2[t]? = some a → s.2[u]? = some b → t ≠ u → ∀ l, (l, Mode.wr) ∈ a.held → ∀ m, (l, m) ∉ b.held
  before : ∀ (i : Nat) (c : CT L) (p : CProg L), s.2[i]? = some c → calls[i]? = some p → c.pre ≠ [] →
    i ∉ lin ∧ c.loc = p.loc ∧ c.body = p.body ∧ Guarded (c.pre.foldl heldAfter c.held) p.body ∧
      ∀ a ∈ c.pre, (∃ l m, a = .acq l m) ∨ (∃ l, a = .rel l) ∨ ∃ v, a = .peek v
  within : ∀ (i : Nat) (c : CT L), s.2[i]? = some c → c.pre = [] →
    i ∈ lin ∧ Guarded c.held c.body ∧ (i, (alone c.body (s.1, c.loc)).2) ∈ (serial calls lin m0).2 ∧
      ∀ v, (guardOf v, Mode.wr) ∈ c.held → (serial calls lin m0).1 v = (alone c.body (s.1, c.loc)).1 v
  rest : ∀ v, (∀ (i : Nat) (c : CT L), s.2[i]? = some c → c.pre = [] → (guardOf v, Mode.wr) ∉ c.held) →
    (serial calls lin m0).1 v = s.1 v

theorem CInv.init (calls : List (CProg L)) (m0 : Mem) (h : ∀ p ∈ calls, TwoPhase p) :
    CInv calls m0 (m0, calls.map CProg.start) [] where
  len := by simp
  nodup := List.nodup_nil
  range := fun _ h => (nomatch h)
  excl := by
    intro t u a b ha _ _ l hl
    rw [List.getElem?_map] at ha
    obtain ⟨p, _, rfl⟩ := Option.map_eq_some_iff.1 ha
    cases hl
  before := by
    intro i c p hc hp _
    rw [List.getElem?_map, hp] at hc
    cases hc
    have := h p (List.mem_of_getElem? hp)
    exact ⟨(fun h => nomatch h), rfl, rfl, this.2, this.1.2⟩
  within := by
    intro i c hc hn
    rw [List.getElem?_map] at hc
    obtain ⟨p, hp, rfl⟩ := Option.map_eq_some_iff.1 hc
    exact absurd hn (h p (List.mem_of_getElem? hp)).1.1
  rest := fun _ _ => rfl

theorem set_cases {α : Type} {l : List α} {t u : Nat} {x y : α} (h : (l.set t x)[u]? = some y) :
    (u = t ∧ y = x) ∨ (u ≠ t ∧ l[u]? = some y) := by
  rw [List.getElem?_set] at h
  by_cases htu : t = u
  · rw [if_pos htu] at h
    split at h
    · cases h; exact Or.inl ⟨htu.symm, rfl⟩
    · cases h
  · rw [if_neg htu] at h
    exact Or.inr ⟨fun h => htu h.symm, h⟩

/-- Taking a lock that is free keeps locks exclusive. -/
theorem excl_step {ths : List (CT L)} {t : Nat} {c : CT L} {a : SAct L} (hc : ths[t]? = some c) (hcan : canStep ths a = true)
    (h : ∀ (t u : Nat) (a b : CT L), ths[t]? = some a → ths[u]? = some b → t ≠ u → ∀ l, (l, Mode.wr) ∈ a.held → ∀ m, (l, m) ∉ b.held) :
    ∀ (u : Nat) (b : CT L), ths[u]? = some b → t ≠ u →
      (∀ l, (l, Mode.wr) ∈ heldAfter c.held a → ∀ m, (l, m) ∉ b.held) ∧ (∀ l, (l, Mode.wr) ∈ b.held → ∀ m, (l, m) ∉ heldAfter c.held a) := by
  intro u b hb htu
  have hkeep : ∀ held' : List (Lock × Mode), (∀ x ∈ held', x ∈ c.held) →
      (∀ l, (l, Mode.wr) ∈ held' → ∀ m, (l, m) ∉ b.held) ∧ (∀ l, (l, Mode.wr) ∈ b.held → ∀ m, (l, m) ∉ held') := by
    intro held' hs
    exact ⟨fun l hl m hm => h t u c b hc hb htu l (hs _ hl) m hm, fun l hl m hm => h u t b c hb hc (Ne.symm htu) l hl m (hs _ hm)⟩
  cases a with
  | acq l m =>
    have hbm : b.thread ∈ ths.map CT.thread := List.mem_map_of_mem (List.mem_of_getElem? hb)
    unfold canStep at hcan
    dsimp only at hcan
    constructor
    · intro l' hl m' hm
      rcases List.mem_cons.1 hl with hl | hl
      · obtain ⟨rfl, rfl⟩ := Prod.mk.inj hl
        simp only [lockFree, Bool.not_eq_true', List.any_eq_false] at hcan
        exact hcan _ hbm (holds_iff.2 ⟨m', hm⟩)
      · exact h t u c b hc hb htu l' hl m' hm
    · intro l' hl m' hm
      rcases List.mem_cons.1 hm with hm | hm
      · obtain ⟨rfl, rfl⟩ := Prod.mk.inj hm
        cases m' with
        | wr =>
          simp only [lockFree, Bool.not_eq_true', List.any_eq_false] at hcan
          exact hcan _ hbm (holds_iff.2 ⟨_, hl⟩)
        | rd =>
          simp only [lockFree, Bool.and_eq_true, Bool.not_eq_true', List.any_eq_false] at hcan
          exact hcan.1 _ hbm (holdsWr_iff.2 hl)
      · exact h u t b c hb hc (Ne.symm htu) l' hl m' hm
  | rel l => exact hkeep _ (fun x hx => (List.mem_filter.1 hx).1)
  | peek v => exact hkeep _ (fun x hx => hx)
  | rd v f => exact hkeep _ (fun x hx => hx)
  | wr v f => exact hkeep _ (fun x hx => hx)

theorem excl_set {ths : List (CT L)} {t : Nat} {c c' : CT L} {a : SAct L} (hc : ths[t]? = some c) (hcan : canStep ths a = true)
    (hheld : c'.held = heldAfter c.held a)
    (h : ∀ (t u : Nat) (a b : CT L), ths[t]? = some a → ths[u]? = some b → t ≠ u → ∀ l, (l, Mode.wr) ∈ a.held → ∀ m, (l, m) ∉ b.held) :
    ∀ (x u : Nat) (a b : CT L), (ths.set t c')[x]? = some a → (ths.set t c')[u]? = some b → x ≠ u →
      ∀ l, (l, Mode.wr) ∈ a.held → ∀ m, (l, m) ∉ b.held := by
  have hs := excl_step hc hcan h
  intro x u a' b ha hb hxu
  rcases set_cases ha with ⟨rfl, rfl⟩ | ⟨hx, ha2⟩
  · rcases set_cases hb with ⟨rfl, rfl⟩ | ⟨_, hb⟩
    · exact absurd rfl hxu
    · rw [hheld]; exact (hs u b hb hxu).1
  · rcases set_cases hb with ⟨rfl, rfl⟩ | ⟨_, hb2⟩
    · rw [hheld]; exact (hs x a' ha2 (Ne.symm hx)).2
    · exact h x u a' b ha2 hb2 hxu

theorem CInv.step {calls : List (CProg L)} {m0 : Mem} {s s' : Mem × List (CT L)} {lin : List Nat} {t : Nat}
    (htp : ∀ p ∈ calls, TwoPhase p) (h : CInv calls m0 s lin) (e : cstep s t = some s') :
    CInv calls m0 s' (lin ++ if pointOf s t then [t] else []) := by
  obtain ⟨m, ths⟩ := s
  unfold cstep at e
  dsimp only at e
  cases hc : ths[t]? with
  | none => rw [hc] at e; cases e
  | some c =>
    rw [hc] at e
    dsimp only at e
    have htl : t < ths.length := (List.getElem?_eq_some_iff.1 hc).1
    obtain ⟨p, hp⟩ : ∃ p, calls[t]? = some p := ⟨_, List.getElem?_eq_getElem (by rw [← h.len]; exact htl)⟩
    have hpt : pointOf (m, ths) t = decide (c.pre.length = 1) := by unfold pointOf; dsimp only; rw [hc]
    cases hpre : c.pre with
    | cons a pre =>
      rw [hpre] at e hpt
      dsimp only at e
      split at e
      · rename_i hcan
        cases e
        obtain ⟨hnl, hloc, hbody, hok, hacts⟩ := h.before t c p hc hp (by rw [hpre]; exact (fun h => nomatch h))
        have heff : ∀ x : Mem × L, a.eff x = x := by
          intro x
          rcases hacts a (by rw [hpre]; simp) with ⟨l, md, rfl⟩ | ⟨l, rfl⟩ | ⟨v, rfl⟩ <;> rfl
        rw [heff]
        have hex := excl_set (c' := ⟨heldAfter c.held a, pre, c.body, c.loc⟩) hc hcan rfl h.excl
        cases pre with
        | cons a2 pre =>
          rw [hpt]
          simp only [List.length_cons]
          rw [if_neg (by simp), List.append_nil]
          refine ⟨by simp [h.len], h.nodup, h.range, hex, ?_, ?_, ?_⟩
          · intro i d q hd hq hne
            rcases set_cases hd with ⟨rfl, rfl⟩ | ⟨_, hd2⟩
            · rw [hp] at hq; cases hq
              refine ⟨hnl, hloc, hbody, ?_, fun b hb => hacts b ?_⟩
              · rw [hpre] at hok; exact hok
              · rw [hpre]; exact List.mem_cons_of_mem _ hb
            · exact h.before i d q hd2 hq hne
          · intro i d hd hn
            rcases set_cases hd with ⟨rfl, rfl⟩ | ⟨_, hd2⟩
            · cases hn
            · exact h.within i d hd2 hn
          · intro v hv
            refine h.rest v (fun i d hd hn => ?_)
            refine hv i d ?_ hn
            rw [List.getElem?_set]
            rw [if_neg]
            · exact hd
            · rintro rfl
              rw [hc] at hd; cases hd
              rw [hpre] at hn; cases hn
        | nil =>
          rw [hpt]
          simp only [List.length_cons, List.length_nil, Nat.zero_add]
          rw [if_pos (by simp)]
          have hok' : Guarded (heldAfter c.held a) p.body := by rw [hpre] at hok; exact hok
          have hserial : serial calls (lin ++ [t]) m0 =
              ((alone p.body ((serial calls lin m0).1, p.loc)).1, (serial calls lin m0).2 ++ [(t, (alone p.body ((serial calls lin m0).1, p.loc)).2)]) := by
            rw [serial_append, serial, hp]
            dsimp only
            rw [alone_append, alone_pre (pre := p.pre)]
            · rfl
            · exact (htp p (List.mem_of_getElem? hp)).1.2
          -- the memory the call will see is the serial one
          have hagree : ∀ v, Covers (heldAfter c.held a) v → (serial calls lin m0).1 v = m v := by
            rintro v (hv | ⟨md, hv⟩)
            · exact hv.eq _ _
            · refine h.rest v (fun i d hd hn hw => ?_)
              have hit : i ≠ t := by
                rintro rfl
                rw [hc] at hd; cases hd
                rw [hpre] at hn; cases hn
              have hd' : (ths.set t ⟨heldAfter c.held a, [], c.body, c.loc⟩)[i]? = some d := by
                rw [List.getElem?_set, if_neg (Ne.symm hit)]; exact hd
              have ht' : (ths.set t ⟨heldAfter c.held a, [], c.body, c.loc⟩)[t]? = some ⟨heldAfter c.held a, [], c.body, c.loc⟩ := by
                rw [List.getElem?_set, if_pos rfl, if_pos htl]
              exact hex i t d _ hd' ht' hit _ hw md hv
          obtain ⟨hc1, hc2⟩ := alone_congr (l := p.loc) hok' hagree
          have hframe : ∀ v, (guardOf v, Mode.wr) ∉ heldAfter c.held a →
              (alone p.body ((serial calls lin m0).1, p.loc)).1 v = (serial calls lin m0).1 v := fun v hv => alone_frame hok' hv
          refine ⟨by simp [h.len], ?_, ?_, hex, ?_, ?_, ?_⟩
          · rw [List.nodup_append]
            refine ⟨h.nodup, by simp, ?_⟩
            intro x hx y hy
            simp at hy; subst hy
            rintro rfl
            exact hnl hx
          · intro i hi
            rcases List.mem_append.1 hi with hi | hi
            · exact h.range i hi
            · simp at hi; subst hi; rw [← h.len]; exact htl
          · intro i d q hd hq hne
            rcases set_cases hd with ⟨rfl, rfl⟩ | ⟨hit, hd2⟩
            · exact absurd rfl hne
            · obtain ⟨h1, h2⟩ := h.before i d q hd2 hq hne
              exact ⟨by simp [h1, hit], h2⟩
          · rw [hserial]
            dsimp only
            intro i d hd hn
            rcases set_cases hd with ⟨rfl, rfl⟩ | ⟨hit, hd2⟩
            · dsimp only
              rw [hloc, hbody]
              refine ⟨by simp, hok', ?_, fun v hv => hc2 v (Or.inr ⟨_, hv⟩)⟩
              rw [hc1]; simp
            · obtain ⟨h1, h2, h3, h4⟩ := h.within i d hd2 hn
              refine ⟨by simp [h1], h2, by simp [h3], fun v hv => ?_⟩
              rw [← h4 v hv]
              refine hframe v (fun hw => ?_)
              have ht' : (ths.set t ⟨heldAfter c.held a, [], c.body, c.loc⟩)[t]? = some ⟨heldAfter c.held a, [], c.body, c.loc⟩ := by
                rw [List.getElem?_set, if_pos rfl, if_pos htl]
              exact hex t i _ d ht' hd (Ne.symm hit) _ hw _ hv
          · rw [hserial]
            dsimp only
            intro v hv
            have ht' : (ths.set t ⟨heldAfter c.held a, [], c.body, c.loc⟩)[t]? = some ⟨heldAfter c.held a, [], c.body, c.loc⟩ := by
              rw [List.getElem?_set, if_pos rfl, if_pos htl]
            rw [hframe v (hv t _ ht' rfl)]
            refine h.rest v (fun i d hd hn => ?_)
            refine hv i d ?_ hn
            rw [List.getElem?_set, if_neg]
            · exact hd
            · rintro rfl
              rw [hc] at hd; cases hd
              rw [hpre] at hn; cases hn
      · cases e
    | nil =>
      rw [hpre] at e hpt
      rw [hpt, if_neg (by simp), List.append_nil]
      cases hbd : c.body with
      | nil => rw [hbd] at e; cases e
      | cons a body =>
        rw [hbd] at e
        dsimp only at e
        split at e
        · rename_i hcan
          cases e
          have hex := excl_set (c' := ⟨heldAfter c.held a, [], body, (a.eff (m, c.loc)).2⟩) hc hcan rfl h.excl
          obtain ⟨hin, hok, hres, hwr⟩ := h.within t c hc hpre
          rw [hbd] at hok hres hwr
          have hok' : Guarded (heldAfter c.held a) body := by
            cases a with
            | acq l md => exact hok.2
            | rel l => exact hok
            | peek v => exact hok
            | rd v f => exact hok.2
            | wr v f => exact hok.2
          -- the memory changes at most where this call has the write lock
          have hmem : ∀ v, (guardOf v, Mode.wr) ∉ c.held → (a.eff (m, c.loc)).1 v = m v := by
            intro v hv
            cases a with
            | wr w f =>
              by_cases hvw : v = w
              · subst hvw
                exact NoData.eq (hok.1.resolve_right hv) _ _
              · exact Mem.set_ne _ _ hvw
            | _ => rfl
          refine ⟨by simp [h.len], h.nodup, h.range, hex, ?_, ?_, ?_⟩
          · intro i d q hd hq hne
            rcases set_cases hd with ⟨rfl, rfl⟩ | ⟨_, hd2⟩
            · exact absurd rfl hne
            · exact h.before i d q hd2 hq hne
          · intro i d hd hn
            rcases set_cases hd with ⟨rfl, rfl⟩ | ⟨hit, hd2⟩
            · refine ⟨hin, hok', hres, fun v hv => ?_⟩
              by_cases hg : (guardOf v, Mode.wr) ∈ c.held
              · exact hwr v hg
              · cases a with
                | acq l md =>
                  rcases List.mem_cons.1 hv with hv | hv
                  · exact NoData.eq (hok.1 v (Prod.mk.inj hv).1) _ _
                  · exact absurd hv hg
                | rel l => exact absurd (List.mem_filter.1 hv).1 hg
                | peek v => exact absurd hv hg
                | rd v f => exact absurd hv hg
                | wr v f => exact absurd hv hg
            · obtain ⟨h1, h2, h3, h4⟩ := h.within i d hd2 hn
              have hag : ∀ v, Covers d.held v → m v = (a.eff (m, c.loc)).1 v := by
                rintro v (hv | ⟨md, hv⟩)
                · exact hv.eq _ _
                · exact (hmem v (fun hw => h.excl t i c d hc hd2 (Ne.symm hit) _ hw _ hv)).symm
              obtain ⟨hc1, hc2⟩ := alone_congr (l := d.loc) h2 hag
              dsimp only at h3 h4 ⊢
              rw [hc1] at h3
              exact ⟨h1, h2, h3, fun v hv => by rw [h4 v hv]; exact hc2 v (Or.inr ⟨_, hv⟩)⟩
          · intro v hv
            by_cases hg : (guardOf v, Mode.wr) ∈ c.held
            · -- the lock has just been given back
              rw [hwr v hg]
              have ht' : (ths.set t ⟨heldAfter c.held a, [], body, (a.eff (m, c.loc)).2⟩)[t]? = some ⟨heldAfter c.held a, [], body, (a.eff (m, c.loc)).2⟩ := by
                rw [List.getElem?_set, if_pos rfl, if_pos htl]
              rw [alone_cons]
              exact alone_frame hok' (hv t _ ht' rfl)
            · rw [hmem v hg]
              refine h.rest v (fun i d hd hn => ?_)
              by_cases hit : i = t
              · subst hit
                rw [hc] at hd; cases hd; exact hg
              · refine hv i d ?_ hn
                rw [List.getElem?_set, if_neg (Ne.symm hit)]
                exact hd
        · cases e

theorem CInv.run {calls : List (CProg L)} {m0 : Mem} (htp : ∀ p ∈ calls, TwoPhase p) : ∀ {sched : List Nat} {s s' : Mem × List (CT L)} {lin : List Nat},
    CInv calls m0 s lin → crun s sched = some s' → CInv calls m0 s' (lin ++ linOf s sched)
  | [], s, s', lin, h, e => by
    cases e
    rw [linOf, List.append_nil]; exact h
  | t :: sched, s, s', lin, h, e => by
    rw [crun] at e
    obtain ⟨s1, e1, e⟩ := Option.bind_eq_some_iff.1 e
    have := CInv.run htp (h.step htp e1) e
    rw [linOf, e1]
    dsimp only
    rw [← List.append_assoc]
    exact this

theorem linOf_mem : ∀ {sched : List Nat} {s : Mem × List (CT L)} {i : Nat}, i ∈ linOf s sched → i ∈ sched
  | [], s, i, h => (nomatch h)
  | t :: sched, s, i, h => by
    rw [linOf] at h
    split at h
    · cases h
    · rcases List.mem_append.1 h with h | h
      · split at h
        · simp at h; simp [h]
        · cases h
      · exact List.mem_cons_of_mem _ (linOf_mem h)

theorem linOf_precedes {sched : List Nat} {s s' : Mem × List (CT L)} (e : crun s sched = some s') {i j : Nat}
    (hi : i ∈ linOf s sched) (hj : j ∈ linOf s sched) (hb : Before sched i j) : Precedes (linOf s sched) i j := by
  obtain ⟨b, hbl, hbj, hfirst⟩ : ∃ b, b < sched.length ∧ sched[b]? = some j ∧ j ∉ sched.take b := by
    have hj := linOf_mem hj
    clear * - hj
    induction sched with
    | nil => cases hj
    | cons a sched ih =>
      by_cases h : a = j
      · exact ⟨0, by simp, by simp [h], by simp⟩
      · obtain ⟨b, h1, h2, h3⟩ := ih ((List.mem_cons.1 hj).resolve_left (fun e => h e.symm))
        exact ⟨b + 1, by simp [h1], by simp [h2], by simp [h3, Ne.symm h]⟩
  have hsplit : sched = sched.take b ++ sched.drop b := (List.take_append_drop b sched).symm
  have hni : i ∉ sched.drop b := by
    intro h
    obtain ⟨k, hk⟩ := List.getElem?_of_mem h
    rw [List.getElem?_drop] at hk
    have := hb.2 _ _ hk hbj
    omega
  rw [hsplit, crun_append] at e
  obtain ⟨s1, e1, e2⟩ := Option.bind_eq_some_iff.1 e
  rw [hsplit, linOf_append _ _ _ _ e1] at hi hj ⊢
  have hi1 := (List.mem_append.1 hi).resolve_right (fun h => hni (linOf_mem h))
  have hj1 := (List.mem_append.1 hj).resolve_left (fun h => hfirst (linOf_mem h))
  obtain ⟨x, y, hx⟩ := List.append_of_mem hi1
  obtain ⟨z, w, hz⟩ := List.append_of_mem hj1
  exact ⟨x, y ++ z, w, by rw [hx, hz]; simp⟩

/-- The locks behave as in Model/Locks.lean. -/
theorem cstep_lock {s s' : Mem × List (CT L)} {t : Nat} (e : cstep s t = some s') :
    lockStep false (s.2.map CT.thread) t = some (s'.2.map CT.thread) := by
  unfold cstep at e
  unfold lockStep
  rw [List.getElem?_map]
  cases hc : s.2[t]? with
  | none => rw [hc] at e; cases e
  | some c =>
    rw [hc] at e
    dsimp only [Option.map_some] at e ⊢
    have key : ∀ (a : SAct L) (pre body rest : List (SAct L)) (loc : L), c.pre ++ c.body = a :: rest → pre ++ body = rest → canStep s.2 a = true →
        (match c.thread.prog with
          | [] => none
          | .acq l m :: p => if lockFree false (s.2.map CT.thread) l m then some ((s.2.map CT.thread).set t ⟨(l, m) :: c.thread.held, p⟩) else none
          | .rel l :: p => some ((s.2.map CT.thread).set t ⟨c.thread.held.filter fun h => h.1 ≠ l, p⟩)
          | .rd _ :: p => some ((s.2.map CT.thread).set t ⟨c.thread.held, p⟩)
          | .wr _ :: p => some ((s.2.map CT.thread).set t ⟨c.thread.held, p⟩)) =
        some ((s.2.set t ⟨heldAfter c.held a, pre, body, loc⟩).map CT.thread) := by
      intro a pre body rest loc h1 h2 hcan
      have hprog : c.thread.prog = a.act :: rest.map SAct.act := by
        show (c.pre ++ c.body).map SAct.act = _
        rw [h1]; rfl
      rw [hprog, List.map_set]
      subst h2
      cases a with
      | acq l m =>
        dsimp only [SAct.act]
        rw [if_pos (show lockFree false (s.2.map CT.thread) l m = true from hcan)]
        rfl
      | _ => rfl
    cases hpre : c.pre with
    | cons a pre =>
      rw [hpre] at e
      dsimp only at e
      split at e
      · rename_i hcan
        cases e
        exact key a pre c.body _ _ (by rw [hpre]; rfl) rfl hcan
      · cases e
    | nil =>
      rw [hpre] at e
      cases hbd : c.body with
      | nil => rw [hbd] at e; cases e
      | cons a body =>
        rw [hbd] at e
        dsimp only at e
        split at e
        · rename_i hcan
          cases e
          exact key a [] body _ _ (by rw [hpre, hbd]; rfl) rfl hcan
        · cases e

end Urkel
