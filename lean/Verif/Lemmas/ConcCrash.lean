import Verif.Spec.ConcCrash
import Verif.Lemmas.ConcProg
/-
Where a concurrent run is between two calls of the serial one.
-/
namespace Urkel

variable {L : Type}

/-- Call `i` has all its locks, and all that it can see is as if it had run alone from `M`. -/
def Amidst (calls : List (CProg L)) (M : Mem) (i : Nat) (s : Mem × List (CT L)) : Prop :=
  ∃ c p q, s.2[i]? = some c ∧ calls[i]? = some p ∧ c.pre = [] ∧ p.body = q ++ c.body ∧ Guarded c.held c.body ∧
    (alone q (M, p.loc)).2 = c.loc ∧ ∀ v, Covers c.held v → s.1 v = (alone q (M, p.loc)).1 v

theorem cstep_cases {s s' : Mem × List (CT L)} {t : Nat} (e : cstep s t = some s') : ∃ c a, s.2[t]? = some c ∧ canStep s.2 a = true ∧
    ((∃ pre, c.pre = a :: pre ∧ s' = ((a.eff (s.1, c.loc)).1, s.2.set t ⟨heldAfter c.held a, pre, c.body, (a.eff (s.1, c.loc)).2⟩)) ∨
     (c.pre = [] ∧ ∃ body, c.body = a :: body ∧ s' = ((a.eff (s.1, c.loc)).1, s.2.set t ⟨heldAfter c.held a, [], body, (a.eff (s.1, c.loc)).2⟩))) := by
  unfold cstep at e
  cases hc : s.2[t]? with
  | none => rw [hc] at e; cases e
  | some c =>
    rw [hc] at e
    dsimp only at e
    obtain ⟨held, pre, body, loc⟩ := c
    cases pre with
    | cons a pre =>
      dsimp only at e
      split at e
      · next hcan => cases e; exact ⟨_, a, rfl, hcan, .inl ⟨pre, rfl, rfl⟩⟩
      · cases e
    | nil =>
      cases body with
      | nil => cases e
      | cons a body =>
        dsimp only at e
        split at e
        · next hcan => cases e; exact ⟨_, a, rfl, hcan, .inr ⟨rfl, body, rfl, rfl⟩⟩
        · cases e

theorem Amidst.step {calls : List (CProg L)} {m0 M : Mem} {s s' : Mem × List (CT L)} {lin : List Nat} {t i : Nat}
    (h : CInv calls m0 s lin) (ha : Amidst calls M i s) (e : cstep s t = some s') : Amidst calls M i s' := by
  obtain ⟨c, p, q, hc, hp, hpre, hq, hg, hl, hv⟩ := ha
  obtain ⟨d, a, hd, hcan, hs⟩ := cstep_cases e
  by_cases hti : t = i
  · subst hti
    rw [hc] at hd; cases hd
    rcases hs with ⟨pre, h1, _⟩ | ⟨_, body, h1, rfl⟩
    · rw [hpre] at h1; cases h1
    · have htl : t < s.2.length := (List.getElem?_eq_some_iff.1 hc).1
      rw [h1] at hg hq
      refine ⟨_, p, q ++ [a], by rw [List.getElem?_set, if_pos rfl, if_pos htl], hp, rfl, by rw [hq]; simp, ?_, ?_, ?_⟩
      · cases a with
        | acq l m => exact hg.2
        | rel l => exact hg
        | peek v => exact hg
        | rd v f => exact hg.2
        | wr v f => exact hg.2
      · rw [alone_append]
        show (a.eff (alone q (M, p.loc))).2 = (a.eff (s.1, c.loc)).2
        cases a with
        | acq l m => exact hl
        | rel l => exact hl
        | peek v => exact hl
        | rd v f =>
          show f _ _ = f _ _
          rw [hl, hv v hg.1]
        | wr v f =>
          show (f _ _).2 = (f _ _).2
          rw [hl, hv v (hg.1.imp_right fun h => ⟨_, h⟩)]
      · intro v hcov
        rw [alone_append]
        show (a.eff (s.1, c.loc)).1 v = (a.eff (alone q (M, p.loc))).1 v
        cases a with
        | acq l m =>
          rcases hcov with hn | ⟨md, hm⟩
          · exact hn.eq _ _
          · rcases List.mem_cons.1 hm with hm | hm
            · exact NoData.eq (hg.1 v (Prod.mk.inj hm).1) _ _
            · exact hv v (.inr ⟨_, hm⟩)
        | rel l => exact hv v (hcov.imp_right fun ⟨md, hm⟩ => ⟨md, (List.mem_filter.1 hm).1⟩)
        | peek w => exact hv v hcov
        | rd w f => exact hv v hcov
        | wr w f =>
          show s.1.set w _ v = Mem.set _ w _ v
          have hw := hv w (hg.1.imp_right fun h => ⟨_, h⟩)
          by_cases hvw : v = w
          · subst hvw; rw [Mem.set_same, Mem.set_same, hw, hl]
          · rw [Mem.set_ne _ _ hvw, Mem.set_ne _ _ hvw]; exact hv v hcov
  · have keep : (∀ v, Covers c.held v → (a.eff (s.1, d.loc)).1 v = s.1 v) ∧ ∃ d', s' = ((a.eff (s.1, d.loc)).1, s.2.set t d') := by
      rcases hs with ⟨pre, h1, rfl⟩ | ⟨h0, body, h1, rfl⟩
      · refine ⟨fun v _ => ?_, _, rfl⟩
        have htl : t < s.2.length := (List.getElem?_eq_some_iff.1 hd).1
        obtain ⟨p', hp'⟩ : ∃ p', calls[t]? = some p' := ⟨_, List.getElem?_eq_getElem (by rw [← h.len]; exact htl)⟩
        obtain ⟨_, _, _, _, hacts⟩ := h.before t d p' hd hp' (by rw [h1]; exact (fun h => nomatch h))
        rcases hacts a (by rw [h1]; simp) with ⟨l, md, rfl⟩ | ⟨l, rfl⟩ | ⟨w, rfl⟩ <;> rfl
      · refine ⟨fun v hcov => ?_, _, rfl⟩
        obtain ⟨_, hgd, _⟩ := h.within t d hd h0
        rw [h1] at hgd
        cases a with
        | acq l m => rfl
        | rel l => rfl
        | peek w => rfl
        | rd w f => rfl
        | wr w f =>
          show s.1.set w _ v = s.1 v
          by_cases hvw : v = w
          · subst hvw
            rcases hcov with hn | ⟨md, hm⟩
            · exact hn.eq _ _
            · rcases hgd.1 with hn | hw
              · exact hn.eq _ _
              · exact (h.excl t i d c hd hc hti _ hw _ hm).elim
          · exact Mem.set_ne _ _ hvw
    obtain ⟨k1, d', rfl⟩ := keep
    exact ⟨c, p, q, by rw [List.getElem?_set, if_neg hti]; exact hc, hp, hpre, hq, hg, hl, fun v hcov => (k1 v hcov).trans (hv v hcov)⟩

/-- A call that has just taken its last lock sees what the calls before it left. -/
theorem Amidst.enter {calls : List (CProg L)} {m0 : Mem} {s s' : Mem × List (CT L)} {lin : List Nat} {t : Nat}
    (h : CInv calls m0 s lin) (h' : CInv calls m0 s' (lin ++ [t])) (e : cstep s t = some s') (hpt : pointOf s t = true) :
    Amidst calls (serial calls lin m0).1 t s' := by
  obtain ⟨c, a, hc, hcan, hs⟩ := cstep_cases e
  have hlen : c.pre.length = 1 := by
    unfold pointOf at hpt
    rw [hc] at hpt
    exact of_decide_eq_true hpt
  have htl : t < s.2.length := (List.getElem?_eq_some_iff.1 hc).1
  obtain ⟨p, hp⟩ : ∃ p, calls[t]? = some p := ⟨_, List.getElem?_eq_getElem (by rw [← h.len]; exact htl)⟩
  rcases hs with ⟨pre, h1, rfl⟩ | ⟨h0, _⟩
  · have hpn : pre = [] := by rw [h1] at hlen; exact List.eq_nil_of_length_eq_zero (by simpa using hlen)
    subst hpn
    obtain ⟨_, hloc, hbody, hok, hacts⟩ := h.before t c p hc hp (by rw [h1]; exact (fun h => nomatch h))
    have heff : ∀ x : Mem × L, a.eff x = x := by
      intro x
      rcases hacts a (by rw [h1]; simp) with ⟨l, md, rfl⟩ | ⟨l, rfl⟩ | ⟨v, rfl⟩ <;> rfl
    rw [heff] at h' ⊢
    have hget : (s.2.set t ⟨heldAfter c.held a, [], c.body, c.loc⟩)[t]? = some ⟨heldAfter c.held a, [], c.body, c.loc⟩ := by
      rw [List.getElem?_set, if_pos rfl, if_pos htl]
    refine ⟨_, p, [], hget, hp, rfl, by rw [hbody]; rfl, by rw [h1] at hok; rw [hbody]; exact hok, hloc.symm, ?_⟩
    rintro v (hn | ⟨md, hm⟩)
    · exact hn.eq _ _
    · refine (h.rest v fun j d hd hn hw => ?_).symm
      have hjt : j ≠ t := by
        rintro rfl
        rw [hc] at hd; cases hd
        rw [h1] at hn; cases hn
      exact h'.excl j t d _ (by rw [List.getElem?_set, if_neg (Ne.symm hjt)]; exact hd) hget hjt _ hw _ hm
  · rw [h0] at hlen; cases hlen

/-- What holds in every state of a run beside `CInv`. -/
structure Track (calls : List (CProg L)) (m0 : Mem) (s : Mem × List (CT L)) (lin : List Nat) : Prop where
  pre : ∀ (i : Nat) (c : CT L) (p : CProg L), s.2[i]? = some c → calls[i]? = some p → c.pre ≠ [] → c.pre.foldl heldAfter c.held = p.pre.foldl heldAfter []
  body : ∀ (i : Nat) (c : CT L), s.2[i]? = some c → c.pre = [] → ∃ a rest, lin = a ++ i :: rest ∧ Amidst calls (serial calls a m0).1 i s ∧
    ((Lock.tree, Mode.wr) ∈ c.held → ∀ j ∈ rest, ∀ p, calls[j]? = some p → ∀ m, (Lock.tree, m) ∉ p.pre.foldl heldAfter [])

theorem Track.init (calls : List (CProg L)) (m0 : Mem) (h : ∀ p ∈ calls, TwoPhase p) : Track calls m0 (m0, calls.map CProg.start) [] where
  pre := by
    intro i c p hc hp _
    rw [List.getElem?_map, hp] at hc
    cases hc; rfl
  body := by
    intro i c hc hn
    rw [List.getElem?_map] at hc
    obtain ⟨p, hp, rfl⟩ := Option.map_eq_some_iff.1 hc
    exact absurd hn (h p (List.mem_of_getElem? hp)).1.1

theorem Track.step {calls : List (CProg L)} {m0 : Mem} {s s' : Mem × List (CT L)} {lin : List Nat} {t : Nat}
    (htp : ∀ p ∈ calls, TwoPhase p) (hi : CInv calls m0 s lin) (h : Track calls m0 s lin) (e : cstep s t = some s') :
    Track calls m0 s' (lin ++ if pointOf s t then [t] else []) := by
  have hi' := hi.step htp e
  obtain ⟨c, a, hc, hcan, hs⟩ := cstep_cases e
  have htl : t < s.2.length := (List.getElem?_eq_some_iff.1 hc).1
  obtain ⟨p, hp⟩ : ∃ p, calls[t]? = some p := ⟨_, List.getElem?_eq_getElem (by rw [← hi.len]; exact htl)⟩
  have hpt : pointOf s t = decide (c.pre.length = 1) := by unfold pointOf; rw [hc]
  -- calls that do not move
  have others : ∀ {c' : CT L}, s'.2 = s.2.set t c' → (pointOf s t = true → c'.held = p.pre.foldl heldAfter [] ∧ c'.pre = []) →
      ∀ (i : Nat) (d : CT L), i ≠ t → s'.2[i]? = some d → d.pre = [] → ∃ b rest, (lin ++ if pointOf s t then [t] else []) = b ++ i :: rest ∧
        Amidst calls (serial calls b m0).1 i s' ∧
        ((Lock.tree, Mode.wr) ∈ d.held → ∀ j ∈ rest, ∀ p, calls[j]? = some p → ∀ m, (Lock.tree, m) ∉ p.pre.foldl heldAfter []) := by
    intro c' hs' hen i d hit hd hn
    have hd0 := hd
    rw [hs', List.getElem?_set, if_neg (Ne.symm hit)] at hd
    obtain ⟨b, rest, hb, ham, ht⟩ := h.body i d hd hn
    refine ⟨b, rest ++ (if pointOf s t then [t] else []), by rw [hb]; simp, ham.step hi e, fun hw j hj q hq m hm => ?_⟩
    rcases List.mem_append.1 hj with hj | hj
    · exact ht hw j hj q hq m hm
    · split at hj
      · next hp1 =>
        cases List.mem_singleton.1 hj
        rw [hp] at hq; cases hq
        refine hi'.excl i t d c' hd0 (by rw [hs', List.getElem?_set, if_pos rfl, if_pos htl]) hit _ hw m ?_
        rw [(hen hp1).1]; exact hm
      · cases hj
  rcases hs with ⟨pre, h1, rfl⟩ | ⟨h0, body, h1, rfl⟩
  · have hfold : pre.foldl heldAfter (heldAfter c.held a) = p.pre.foldl heldAfter [] := by
      have := h.pre t c p hc hp (by rw [h1]; exact (fun h => nomatch h))
      rw [h1] at this; exact this
    constructor
    · intro i d q hd hq hne
      rcases set_cases hd with ⟨rfl, rfl⟩ | ⟨_, hd2⟩
      · rw [hp] at hq; cases hq; exact hfold
      · exact h.pre i d q hd2 hq hne
    · intro i d hd hn
      by_cases hit : i = t
      · subst hit
        rcases set_cases hd with ⟨_, rfl⟩ | ⟨hne, _⟩
        · have hpn : pre = [] := hn
          subst hpn
          have hpo : pointOf s i = true := by rw [hpt, h1]; rfl
          rw [hpo, if_pos rfl] at hi' ⊢
          exact ⟨lin, [], rfl, Amidst.enter hi hi' e hpo, fun _ j hj => nomatch hj⟩
        · exact absurd rfl hne
      · refine others rfl (fun hpo => ?_) i d hit hd hn
        rw [hpt, h1] at hpo
        have hpn : pre = [] := List.eq_nil_of_length_eq_zero (by simpa using hpo)
        subst hpn
        exact ⟨hfold, rfl⟩
  · have hpo : pointOf s t = false := by rw [hpt, h0]; rfl
    constructor
    · intro i d q hd hq hne
      rcases set_cases hd with ⟨rfl, rfl⟩ | ⟨_, hd2⟩
      · exact absurd rfl hne
      · exact h.pre i d q hd2 hq hne
    · intro i d hd hn
      by_cases hit : i = t
      · subst hit
        rcases set_cases hd with ⟨_, rfl⟩ | ⟨hne, _⟩
        · rw [hpo, if_neg (by decide), List.append_nil]
          obtain ⟨b, rest, hb, ham, ht⟩ := h.body i c hc h0
          refine ⟨b, rest, hb, ham.step hi e, fun hw => ht ?_⟩
          have hg := (hi.within i c hc h0).2.1
          rw [h1] at hg
          cases a with
          | acq l m =>
            rcases List.mem_cons.1 hw with hw | hw
            · exact (hg.1 .head (Prod.mk.inj hw).1).elim
            · exact hw
          | rel l => exact (List.mem_filter.1 hw).1
          | peek v => exact hw
          | rd v f => exact hw
          | wr v f => exact hw
        · exact absurd rfl hne
      · exact others rfl (fun hpo' => by rw [hpo] at hpo'; cases hpo') i d hit hd hn

theorem Track.run {calls : List (CProg L)} {m0 : Mem} (htp : ∀ p ∈ calls, TwoPhase p) : ∀ {sched : List Nat} {s s' : Mem × List (CT L)} {lin : List Nat},
    CInv calls m0 s lin → Track calls m0 s lin → crun s sched = some s' → Track calls m0 s' (lin ++ linOf s sched)
  | [], s, s', lin, _, h, e => by
    cases e
    rw [linOf, List.append_nil]; exact h
  | t :: sched, s, s', lin, hi, h, e => by
    rw [crun] at e
    obtain ⟨s1, e1, e⟩ := Option.bind_eq_some_iff.1 e
    have := Track.run htp (hi.step htp e1) (h.step htp hi e1) e
    rw [linOf, e1]
    dsimp only
    rw [← List.append_assoc]
    exact this

end Urkel
