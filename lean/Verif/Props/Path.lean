import Verif.Model.Path
import Verif.Spec.Path
import Verif.Props.Io
/-
C54: the path computed from the prefix is the normal form of the absolute path it
names, and computing it stays within its buffer.
-/
namespace Urkel
open Path (split push resolve join normal)

theorem nil_or_snoc {α : Type} (l : List α) : (∃ i x, l = i ++ [x]) ∨ l = [] := by
  induction l with
  | nil => exact .inr rfl
  | cons a l ih =>
    rcases ih with ⟨i, x, h⟩ | h
    · exact .inl ⟨a :: i, x, by rw [h]; rfl⟩
    · exact .inl ⟨[], a, by rw [h]; rfl⟩

theorem split_ne (p : Bytes) : split p ≠ [] := by
  cases p with
  | nil => simp [split]
  | cons c cs =>
    simp only [split]
    split
    · simp
    · split <;> simp

theorem split_word {w : Bytes} (h : 47 ∉ w) : split w = [w] := by
  induction w with
  | nil => rfl
  | cons c w ih =>
    simp only [List.mem_cons, not_or] at h
    simp only [split, if_neg (Ne.symm h.1), ih h.2]

theorem split_word_slash {w : Bytes} (h : 47 ∉ w) (r : Bytes) : split (w ++ 47 :: r) = w :: split r := by
  induction w with
  | nil => simp [split]
  | cons c w ih =>
    simp only [List.mem_cons, not_or] at h
    rw [List.cons_append, split]
    rw [if_neg (Ne.symm h.1), ih h.2]

/-- The components after those in `st`. -/
def runPath (st : List Bytes) (p : Bytes) : List Bytes := (split p).foldl push st

theorem run_word {w : Bytes} (h : 47 ∉ w) (st : List Bytes) : runPath st w = push st w := by
  rw [runPath, split_word h]; rfl

theorem run_word_slash {w : Bytes} (h : 47 ∉ w) (st : List Bytes) (r : Bytes) : runPath st (w ++ 47 :: r) = runPath (push st w) r := by
  rw [runPath, split_word_slash h]; rfl

theorem push_nil (st : List Bytes) : push st [] = st := by simp [push]
theorem push_dot (st : List Bytes) : push st [46] = st := by simp [push]
theorem push_up (st : List Bytes) : push st [46, 46] = st.dropLast := by simp [push]

theorem run_slash (st : List Bytes) (r : Bytes) : runPath st (47 :: r) = runPath st r := by
  have := run_word_slash (w := []) (by simp) st r
  rw [push_nil] at this; exact this

/-- `.` and `..`. -/
def Special (c : Bytes) : Prop := c = [46] ∨ c = [46, 46]

theorem push_comp {st : List Bytes} {c : Bytes} (h1 : c ≠ []) (h2 : ¬ Special c) : push st c = st ++ [c] := by
  unfold push Special at *
  rw [not_or] at h2
  rw [if_neg (by simp [h1, h2.1]), if_neg h2.2]

/-- The components written so far, each followed by a slash. -/
def enc (st : List Bytes) : Bytes := st.flatMap (fun c => 47 :: c) ++ [47]

theorem enc_snoc (st : List Bytes) (c : Bytes) : enc (st ++ [c]) = enc st ++ c ++ [47] := by
  simp [enc]

theorem enc_pos (st : List Bytes) : 0 < (enc st).length := by simp [enc]

theorem pathAt_ok (a : Bytes) (c : UInt8) (r : Bytes) : pathAt (a ++ c :: r) a.length = .ok c := by
  unfold pathAt
  rw [List.getElem?_append_right (Nat.le_refl _)]; simp

theorem pathAt_at {buf : Bytes} {i : Nat} {c : UInt8} (a r : Bytes) (h : buf = a ++ c :: r) (hi : i = a.length) : pathAt buf i = .ok c := by
  subst h; subst hi; exact pathAt_ok a c r

theorem atStart_enc (st : List Bytes) (X : Bytes) : atStart (enc st ++ X) (enc st).length = .ok true := by
  unfold atStart
  rw [if_neg (by have := enc_pos st; omega), pathAt_at (c := 47) (st.flatMap (fun c => 47 :: c)) X (by simp [enc]) (by simp [enc])]
  rfl

theorem atStart_word (st : List Bytes) (cur X : Bytes) (h1 : cur ≠ []) (h2 : 47 ∉ cur) : atStart (enc st ++ cur ++ X) (enc st ++ cur).length = .ok false := by
  obtain ⟨i, x, rfl⟩ := (nil_or_snoc cur).resolve_right h1
  unfold atStart
  rw [if_neg (by simp), pathAt_at (c := x) (enc st ++ i) X (by simp) (by simp)]
  have : x ≠ 47 := fun e => h2 (by simp [e])
  simp [this]

theorem skip_ok (a : Bytes) (k : Nat) (c : UInt8) (r : Bytes) (hc : c ≠ 47) :
    skipSlashes (a ++ (List.replicate k 47 ++ c :: r)) a.length = .ok (a.length + k) := by
  induction k generalizing a with
  | zero =>
    unfold skipSlashes
    have : (a ++ (List.replicate 0 47 ++ c :: r))[a.length]? = some c := by rw [List.getElem?_append_right (Nat.le_refl _)]; simp
    split
    · rename_i c' h'
      rw [this] at h'; cases h'
      rw [if_neg hc]; rfl
    · rename_i h'; rw [this] at h'; cases h'
  | succ k ih =>
    unfold skipSlashes
    have : (a ++ (List.replicate (k + 1) 47 ++ c :: r))[a.length]? = some 47 := by
      rw [List.getElem?_append_right (Nat.le_refl _)]; simp [List.replicate_succ]
    split
    · rename_i c' h'
      rw [this] at h'; cases h'
      rw [if_pos rfl]
      have := ih (a ++ [47])
      rw [List.length_append] at this
      have e : a ++ [47] ++ (List.replicate k 47 ++ c :: r) = a ++ (List.replicate (k + 1) 47 ++ c :: r) := by simp [List.replicate_succ]
      rw [e] at this
      rw [show a.length + (k + 1) = a.length + [47].length + k by simp; omega]
      exact this
    · rename_i h'; rw [this] at h'; cases h'

theorem windBack_ok (B c X : Bytes) (hc : 47 ∉ c) : windBack (B ++ [47] ++ c ++ X) (B.length + 1 + c.length) = .ok (B.length + 1) := by
  generalize hn : c.length = n
  induction n generalizing c X with
  | zero =>
    have : c = [] := List.eq_nil_of_length_eq_zero hn
    subst this
    rw [Nat.add_zero, windBack]
    have : (B ++ [47] ++ [] ++ X)[B.length]? = some 47 := by simp
    rw [this]; simp
  | succ n ih =>
    obtain ⟨i, x, rfl⟩ : ∃ i x, c = i ++ [x] := by
      rcases nil_or_snoc c with h | h
      · exact h
      · subst h; simp at hn
    rw [← Nat.add_assoc, windBack]
    have hi : i.length = n := by simpa using hn
    have : (B ++ [47] ++ (i ++ [x]) ++ X)[B.length + 1 + n]? = some x := by
      rw [List.getElem?_append_left (by simp [hi]; omega), List.getElem?_append_right (by simp)]
      simp [← hi]
    rw [this]
    have hx : x ≠ 47 := fun e => hc (by simp [e])
    simp only [ne_eq, hx, not_false_eq_true, if_true]
    have := ih i (x :: X) (fun h => hc (by simp [h])) hi
    rw [show B ++ [47] ++ (i ++ [x]) ++ X = B ++ [47] ++ i ++ x :: X by simp]
    exact this

theorem normCopy_ok (A gap R : Bytes) (c : UInt8) : ∃ gap', gap'.length = gap.length ∧
    normCopy (A ++ gap ++ c :: R) (A ++ gap).length A.length = .ok (A ++ [c] ++ gap' ++ R, (A ++ gap).length + 1, A.length + 1) := by
  unfold normCopy
  rw [pathAt_ok]
  simp only [Res.bind_ok, pathSet]
  rw [if_pos (by simp; omega)]
  cases gap with
  | nil => exact ⟨[], rfl, by simp⟩
  | cons g gs => exact ⟨gs ++ [c], by simp, by simp⟩

theorem normLoop_step {buf buf' : Bytes} {l w l' w' : Nat} {c : UInt8} (h1 : pathAt buf l = .ok c) (h2 : c ≠ 0)
    (h3 : normStep buf l w c = .ok (buf', l', w')) (h4 : buf'.length - l' < buf.length - l) : normLoop buf l w = normLoop buf' l' w' := by
  rw [normLoop, h1]
  simp only [if_neg h2]
  rw [h3]
  simp only
  rw [dif_pos h4]

/-- The rest of the component the scan is in. -/
def wordOf (r : Bytes) : Bytes := r.takeWhile (· ≠ 47)

theorem wordOf_slash (r : Bytes) : wordOf (47 :: r) = [] := by simp [wordOf]
theorem wordOf_cons {c : UInt8} (h : c ≠ 47) (r : Bytes) : wordOf (c :: r) = c :: wordOf r := by simp [wordOf, h]

theorem leading_slashes (r : Bytes) : ∃ k r', r = List.replicate k 47 ++ r' ∧ r'.head? ≠ some 47 ∧ ∀ st, runPath st r = runPath st r' := by
  induction r with
  | nil => exact ⟨0, [], rfl, by simp, fun _ => rfl⟩
  | cons c r ih =>
    by_cases hc : c = 47
    · subst hc
      obtain ⟨k, r', a, b, d⟩ := ih
      exact ⟨k + 1, r', by rw [a]; simp [List.replicate_succ], b, fun st => by rw [run_slash, d]⟩
    · exact ⟨0, c :: r, rfl, by simpa using hc, fun _ => rfl⟩

/-- Components are not empty and contain no slash. -/
def GoodComps (st : List Bytes) : Prop := ∀ c ∈ st, c ≠ [] ∧ 47 ∉ c

/-- The main loop. -/
theorem normLoop_ok (tail : Bytes) (n : Nat) : ∀ (rest : Bytes) (st : List Bytes) (cur gap : Bytes), rest.length ≤ n → GoodComps st → 47 ∉ cur → 0 ∉ rest →
    (cur ≠ [] → ¬ Special (cur ++ wordOf rest)) →
    ∃ st' cur' gap', normLoop (enc st ++ cur ++ gap ++ (rest ++ 0 :: tail)) (enc st ++ cur ++ gap).length (enc st ++ cur).length =
        .ok (enc st' ++ cur' ++ gap' ++ 0 :: tail, (enc st' ++ cur').length) ∧
      GoodComps st' ∧ 47 ∉ cur' ∧ (cur' ≠ [] → ¬ Special cur') ∧ runPath st (cur ++ rest) = push st' cur' := by
  induction n with
  | zero =>
    intro rest st cur gap hn hg hc h0 hs
    have : rest = [] := List.eq_nil_of_length_eq_zero (by omega)
    subst this
    refine ⟨st, cur, gap, ?_, hg, hc, fun h => by simpa [wordOf] using hs h, ?_⟩
    · rw [normLoop, List.nil_append, pathAt_ok]; rfl
    · rw [List.append_nil, run_word hc]
  | succ n ih =>
    intro rest st cur gap hn hg hc h0 hs
    cases rest with
    | nil =>
      refine ⟨st, cur, gap, ?_, hg, hc, fun h => by simpa [wordOf] using hs h, ?_⟩
      · rw [normLoop, List.nil_append, pathAt_ok]; rfl
      · rw [List.append_nil, run_word hc]
    | cons c r =>
      simp only [List.mem_cons, not_or] at h0
      simp only [List.length_cons] at hn
      have hrd : pathAt (enc st ++ cur ++ gap ++ (c :: r ++ 0 :: tail)) (enc st ++ cur ++ gap).length = .ok c := pathAt_ok _ _ _
      have hc0 : c ≠ 0 := fun e => h0.1 e.symm
      obtain ⟨gap1, hg1, hcopy⟩ := normCopy_ok (enc st ++ cur) gap (r ++ 0 :: tail) c
      -- a copied character
      have docopy : normStep (enc st ++ cur ++ gap ++ (c :: r ++ 0 :: tail)) (enc st ++ cur ++ gap).length (enc st ++ cur).length c =
            normCopy (enc st ++ cur ++ gap ++ (c :: r ++ 0 :: tail)) (enc st ++ cur ++ gap).length (enc st ++ cur).length →
          c ≠ 47 → ¬ Special (cur ++ c :: wordOf r) →
          ∃ st' cur' gap', normLoop (enc st ++ cur ++ gap ++ (c :: r ++ 0 :: tail)) (enc st ++ cur ++ gap).length (enc st ++ cur).length =
            .ok (enc st' ++ cur' ++ gap' ++ 0 :: tail, (enc st' ++ cur').length) ∧
          GoodComps st' ∧ 47 ∉ cur' ∧ (cur' ≠ [] → ¬ Special cur') ∧ runPath st (cur ++ c :: r) = push st' cur' := by
        intro hstep h47 hsp
        obtain ⟨st', cur', gap', e, a, b, d, f⟩ := ih r st (cur ++ [c]) gap1 (by omega) hg (by simp [hc, Ne.symm h47]) h0.2
          (fun _ => by simpa using hsp)
        refine ⟨st', cur', gap', ?_, a, b, d, by simpa using f⟩
        rw [← e]
        have hlen : (enc st ++ (cur ++ [c]) ++ gap1).length = (enc st ++ cur ++ gap).length + 1 := by simp [hg1]; omega
        have hlw : (enc st ++ (cur ++ [c])).length = (enc st ++ cur).length + 1 := by simp; omega
        rw [hlen, hlw]
        refine normLoop_step hrd hc0 (hstep.trans (hcopy.trans (by simp))) ?_
        simp [hg1]; omega
      by_cases hcur : cur = []
      · subst hcur
        simp only [List.append_nil] at *
        have hst : atStart (enc st ++ gap ++ (c :: r ++ 0 :: tail)) (enc st).length = .ok true := by
          rw [List.append_assoc]; exact atStart_enc st _
        -- skipping `k + 1` characters and keeping the components `st1`
        have skip : ∀ (st1 : List Bytes) (sk r1 gapx : Bytes), c :: r = sk ++ r1 → sk ≠ [] → enc st ++ gap ++ sk = enc st1 ++ gapx → GoodComps st1 →
            normStep (enc st ++ gap ++ (c :: r ++ 0 :: tail)) (enc st ++ gap).length (enc st).length c =
              .ok (enc st ++ gap ++ (c :: r ++ 0 :: tail), (enc st ++ gap).length + sk.length, (enc st1).length) →
            runPath st (c :: r) = runPath st1 r1 →
            ∃ st' cur' gap', normLoop (enc st ++ gap ++ (c :: r ++ 0 :: tail)) (enc st ++ gap).length (enc st).length =
              .ok (enc st' ++ cur' ++ gap' ++ 0 :: tail, (enc st' ++ cur').length) ∧
            GoodComps st' ∧ 47 ∉ cur' ∧ (cur' ≠ [] → ¬ Special cur') ∧ runPath st (c :: r) = push st' cur' := by
          intro st1 sk r1 gapx hsk hne hbuf hg1 hstep hrun
          have hl := congrArg List.length hsk
          have hskl : 0 < sk.length := List.length_pos_iff.2 hne
          simp only [List.length_cons, List.length_append] at hl
          have h01 : 0 ∉ r1 := fun h => by
            have : (0 : UInt8) ∈ c :: r := by rw [hsk]; simp [h]
            simp only [List.mem_cons] at this
            rcases this with h | h
            · exact h0.1 h
            · exact h0.2 h
          obtain ⟨st', cur', gap', e, a, b, d, f⟩ := ih r1 st1 [] gapx (by omega) hg1 (by simp) h01 (fun h => absurd rfl h)
          refine ⟨st', cur', gap', ?_, a, b, d, by rw [hrun]; simpa using f⟩
          rw [← e]
          have hb : enc st ++ gap ++ (c :: r ++ 0 :: tail) = enc st1 ++ [] ++ gapx ++ (r1 ++ 0 :: tail) := by
            rw [List.append_nil, ← hbuf, hsk]; simp
          have hbl : (enc st1 ++ [] ++ gapx).length = (enc st ++ gap).length + sk.length := by
            rw [List.append_nil, ← hbuf, List.length_append (bs := sk)]
          rw [hbl, List.append_nil]
          refine (normLoop_step hrd hc0 hstep ?_).trans ?_
          · simp only [List.length_append, List.length_cons]; omega
          · rw [hb, List.append_nil]
        by_cases h47 : c = 47
        · subst h47
          obtain ⟨k, r', e1, e2, e3⟩ := leading_slashes r
          refine skip st (47 :: List.replicate k 47) r' (gap ++ 47 :: List.replicate k 47) (by rw [e1]; simp) (by simp) (by simp) hg ?_ ?_
          · unfold normStep
            rw [hst]
            simp only [Res.bind_ok, if_true]
            -- the character after the slashes
            obtain ⟨c1, r1, hr1, hc1⟩ : ∃ c1 r1, r' ++ 0 :: tail = c1 :: r1 ∧ c1 ≠ 47 := by
              cases r' with
              | nil => exact ⟨0, tail, rfl, by decide⟩
              | cons x y => exact ⟨x, y ++ 0 :: tail, rfl, by simpa using e2⟩
            have := skip_ok (enc st ++ gap ++ [47]) k c1 r1 hc1
            have hb : enc st ++ gap ++ (47 :: r ++ 0 :: tail) = enc st ++ gap ++ [47] ++ (List.replicate k 47 ++ c1 :: r1) := by
              rw [e1, ← hr1]; simp
            rw [List.length_append (as := enc st ++ gap), List.length_singleton, ← hb] at this
            rw [this]
            simp only [Res.bind_ok, Res.pure_eq, List.length_cons, List.length_replicate]
            congr 3; omega
          · rw [run_slash, e3]
        · by_cases h46 : c = 46
          · subst h46
            have hdot : normStep (enc st ++ gap ++ (46 :: r ++ 0 :: tail)) (enc st ++ gap).length (enc st).length 46 =
                normDot (enc st ++ gap ++ (46 :: r ++ 0 :: tail)) (enc st ++ gap).length (enc st).length := by
              unfold normStep
              rw [hst]
              simp
            have h1 : ∀ c1 R, r ++ 0 :: tail = c1 :: R → pathAt (enc st ++ gap ++ (46 :: r ++ 0 :: tail)) ((enc st ++ gap).length + 1) = .ok c1 := by
              intro c1 R hR
              exact pathAt_at (enc st ++ gap ++ [46]) R (by rw [List.cons_append, hR]; simp) (by simp; omega)
            have h2 : ∀ c1 c2 R, r ++ 0 :: tail = c1 :: c2 :: R → pathAt (enc st ++ gap ++ (46 :: r ++ 0 :: tail)) ((enc st ++ gap).length + 2) = .ok c2 := by
              intro c1 c2 R hR
              exact pathAt_at (enc st ++ gap ++ [46, c1]) R (by rw [List.cons_append, hR]; simp) (by simp; omega)
            -- going up
            have up : ∀ (c2 : UInt8), ∃ st1 gapx, GoodComps st1 ∧ st1 = st.dropLast ∧ enc st ++ gap = enc st1 ++ gapx ∧
                ∀ X, normUp (enc st ++ gap ++ X) (enc st ++ gap).length (enc st).length c2 =
                .ok (enc st ++ gap ++ X, (if c2 ≠ 0 then (enc st ++ gap).length + 2 + 1 else (enc st ++ gap).length + 2), (enc st1).length) := by
              intro c2
              rcases nil_or_snoc st with ⟨s0, c0, h⟩ | h
              · have hst0 : st = s0 ++ [c0] := h
                have hc0' := hg c0 (by simp [hst0])
                refine ⟨s0, c0 ++ [47] ++ gap, fun x hx => hg x (by simp [hst0, hx]), by simp [hst0], by rw [hst0, enc_snoc]; simp, fun X => ?_⟩
                unfold normUp
                have hw : (enc st).length = (s0.flatMap fun c => 47 :: c).length + 1 + c0.length + 1 := by rw [hst0, enc_snoc]; simp [enc]; omega
                rw [if_pos (by rw [hw]; have := List.length_pos_iff.2 hc0'.1; omega)]
                have hwb := windBack_ok (s0.flatMap fun c => 47 :: c) c0 ([47] ++ gap ++ X) hc0'.2
                have hb : enc st ++ gap ++ X = (s0.flatMap fun c => 47 :: c) ++ [47] ++ c0 ++ ([47] ++ gap ++ X) := by
                  rw [hst0, enc_snoc]; simp [enc]
                rw [hb, hw, Nat.add_sub_cancel, hwb]
                simp only [Res.bind_ok, Res.pure_eq]
                rw [show (enc s0).length = (s0.flatMap fun c => 47 :: c).length + 1 by simp [enc]]
              · refine ⟨[], gap, by intro x hx; simp at hx, by simp [h], by rw [h], fun X => ?_⟩
                unfold normUp
                rw [h, if_neg (by simp [enc])]
                rfl
            cases r with
            | nil =>
              refine skip st [46] [] (gap ++ [46]) rfl (by simp) (by simp) hg ?_ ?_
              · rw [hdot]; unfold normDot
                rw [h1 0 tail rfl]; rfl
              · rw [run_word (by decide), push_dot, run_word (by simp), push_nil]
            | cons c1 r1 =>
              by_cases h147 : c1 = 47
              · subst h147
                refine skip st [46, 47] r1 (gap ++ [46, 47]) rfl (by simp) (by simp) hg ?_ ?_
                · rw [hdot]; unfold normDot
                  rw [h1 47 (r1 ++ 0 :: tail) rfl]; rfl
                · have := run_word_slash (w := [46]) (by decide) st r1
                  rw [push_dot] at this; exact this
              · have h10 : c1 ≠ 0 := fun e => h0.2 (by simp [e])
                by_cases h146 : c1 = 46
                · subst h146
                  have hd2 : ∀ c2 R, (46 :: r1) ++ 0 :: tail = 46 :: c2 :: R → normDot (enc st ++ gap ++ (46 :: 46 :: r1 ++ 0 :: tail)) (enc st ++ gap).length (enc st).length =
                      if c2 = 47 ∨ c2 = 0 then normUp (enc st ++ gap ++ (46 :: 46 :: r1 ++ 0 :: tail)) (enc st ++ gap).length (enc st).length c2
                      else normCopy (enc st ++ gap ++ (46 :: 46 :: r1 ++ 0 :: tail)) (enc st ++ gap).length (enc st).length := by
                    intro c2 R hR
                    unfold normDot
                    rw [h1 46 (c2 :: R) hR]
                    simp only [Res.bind_ok]
                    rw [if_neg (by decide), if_pos trivial, h2 46 c2 R hR]
                    rfl
                  cases r1 with
                  | nil =>
                    obtain ⟨st1, gapx, a, b, d, e⟩ := up 0
                    refine skip st1 [46, 46] [] (gapx ++ [46, 46]) rfl (by simp) (by rw [d]; simp) a ?_ ?_
                    · rw [hdot, hd2 0 tail rfl, if_pos (.inr rfl), e]; rfl
                    · rw [run_word (by decide), push_up, run_word (by simp), push_nil, b]
                  | cons c2 r2 =>
                    by_cases h247 : c2 = 47
                    · subst h247
                      obtain ⟨st1, gapx, a, b, d, e⟩ := up 47
                      refine skip st1 [46, 46, 47] r2 (gapx ++ [46, 46, 47]) rfl (by simp) (by rw [d]; simp) a ?_ ?_
                      · rw [hdot, hd2 47 (r2 ++ 0 :: tail) rfl, if_pos (.inl rfl), e]; rfl
                      · have := run_word_slash (w := [46, 46]) (by decide) st r2
                        rw [push_up, ← b] at this; exact this
                    · have h20 : c2 ≠ 0 := fun e => h0.2 (by simp [e])
                      refine docopy (by rw [hdot, hd2 c2 (r2 ++ 0 :: tail) rfl, if_neg (by simp [h247, h20])]) (by decide) ?_
                      rw [wordOf_cons (by decide), wordOf_cons h247]
                      simp [Special]
                · refine docopy ?_ (by decide) ?_
                  · rw [hdot]; unfold normDot
                    rw [h1 c1 (r1 ++ 0 :: tail) rfl]
                    simp only [Res.bind_ok]
                    rw [if_neg (by simp [h147, h10]), if_neg h146]
                  · rw [wordOf_cons h147]
                    simp [Special, h146]
          · refine docopy ?_ h47 ?_
            · unfold normStep
              rw [hst]
              simp [h47, h46]
            · simp [Special, h46]
      · have hst : atStart (enc st ++ cur ++ gap ++ (c :: r ++ 0 :: tail)) (enc st ++ cur).length = .ok false := by
          rw [List.append_assoc (enc st ++ cur)]; exact atStart_word st cur _ hcur hc
        have hstep : normStep (enc st ++ cur ++ gap ++ (c :: r ++ 0 :: tail)) (enc st ++ cur ++ gap).length (enc st ++ cur).length c =
            normCopy (enc st ++ cur ++ gap ++ (c :: r ++ 0 :: tail)) (enc st ++ cur ++ gap).length (enc st ++ cur).length := by
          unfold normStep
          rw [hst]; rfl
        have hs' := hs hcur
        by_cases h47 : c = 47
        · subst h47
          rw [wordOf_slash, List.append_nil] at hs'
          obtain ⟨st', cur', gap', e, a, b, d, f⟩ := ih r (st ++ [cur]) [] gap1 (by omega)
            (by intro x hx
                rcases List.mem_append.1 hx with h | h
                · exact hg x h
                · rw [List.mem_singleton.1 h]; exact ⟨hcur, hc⟩) (by simp) h0.2 (fun h => absurd rfl h)
          refine ⟨st', cur', gap', ?_, a, b, d, ?_⟩
          · rw [← e]
            have hlen : (enc (st ++ [cur]) ++ [] ++ gap1).length = (enc st ++ cur ++ gap).length + 1 := by rw [enc_snoc]; simp [hg1]; omega
            have hlw : (enc (st ++ [cur]) ++ []).length = (enc st ++ cur).length + 1 := by rw [enc_snoc]; simp; omega
            rw [hlen, hlw]
            refine normLoop_step hrd hc0 (hstep.trans (hcopy.trans (by rw [enc_snoc]; simp))) ?_
            rw [enc_snoc]; simp [hg1]; omega
          · rw [run_word_slash hc, push_comp hcur hs']; simpa using f
        · rw [wordOf_cons h47] at hs'
          exact docopy hstep h47 hs'

theorem flat_snoc (st : List Bytes) (c : Bytes) : (st ++ [c]).flatMap (fun c => 47 :: c) = st.flatMap (fun c => 47 :: c) ++ 47 :: c := by simp

theorem join_ne {st : List Bytes} (h : st ≠ []) : join st = st.flatMap fun c => 47 :: c := by
  cases st with
  | nil => exact absurd rfl h
  | cons a l => rfl

/-- The end of the path: a trailing slash is dropped unless it is the root. -/
theorem stripSlash_ok (st : List Bytes) (cur X : Bytes) (hg : GoodComps st) (hc : 47 ∉ cur) (hs : cur ≠ [] → ¬ Special cur) :
    stripSlash (enc st ++ cur ++ X) (enc st ++ cur).length = .ok (join (push st cur)).length ∧
    ∃ Y, enc st ++ cur ++ X = join (push st cur) ++ Y ∧ (X ≠ [] → Y ≠ []) := by
  have stop : ∀ (B : Bytes) (c : Bytes) (x : UInt8) (Z : Bytes), x ≠ 47 → B ≠ [] → stripSlash (B ++ c ++ [x] ++ Z) (B ++ c ++ [x]).length = .ok (B ++ c ++ [x]).length := by
    intro B c x Z hx hB
    have hl : (B ++ c ++ [x]).length = (B ++ c).length + 1 := by simp; omega
    have hB' := List.length_pos_iff.2 hB
    rw [hl, stripSlash, if_pos (by simp; omega)]
    have : (B ++ c ++ [x] ++ Z)[(B ++ c).length]? = some x := by
      rw [List.append_assoc, List.getElem?_append_right (Nat.le_refl _)]; simp
    rw [this]
    simp [hx]
  rcases nil_or_snoc cur with ⟨i, x, rfl⟩ | rfl
  · have hx : x ≠ 47 := fun e => hc (by simp [e])
    have hne : i ++ [x] ≠ [] := by simp
    rw [push_comp hne (hs hne)]
    have hj : join (st ++ [i ++ [x]]) = enc st ++ (i ++ [x]) := by
      rw [join_ne (by simp), flat_snoc]; simp [enc]
    rw [hj]
    refine ⟨?_, X, rfl, id⟩
    have := stop (enc st) i x X hx (by simp [enc])
    simpa using this
  · rw [push_nil]
    simp only [List.append_nil]
    rcases nil_or_snoc st with ⟨s0, c0, rfl⟩ | rfl
    · obtain ⟨h1, h2⟩ := hg c0 (by simp)
      obtain ⟨i, x, rfl⟩ := (nil_or_snoc c0).resolve_right h1
      have hx : x ≠ 47 := fun e => h2 (by simp [e])
      have hj : join (s0 ++ [i ++ [x]]) = enc s0 ++ i ++ [x] := by
        rw [join_ne (by simp), flat_snoc]; simp [enc]
      have he : enc (s0 ++ [i ++ [x]]) = enc s0 ++ i ++ [x] ++ [47] := by rw [enc_snoc]; simp
      rw [hj, he]
      refine ⟨?_, 47 :: X, by simp, by simp⟩
      have hl : (enc s0 ++ i ++ [x] ++ [47]).length = (enc s0 ++ i ++ [x]).length + 1 := by simp; omega
      rw [hl, stripSlash, if_pos (by simp; omega)]
      have : (enc s0 ++ i ++ [x] ++ [47] ++ X)[(enc s0 ++ i ++ [x]).length]? = some 47 := by
        rw [List.append_assoc, List.getElem?_append_right (Nat.le_refl _)]; simp
      rw [this]
      simp only [if_true]
      have := stop (enc s0) i x (47 :: X) hx (by simp [enc])
      rw [show enc s0 ++ i ++ [x] ++ [47] ++ X = enc s0 ++ i ++ [x] ++ 47 :: X by simp]
      exact this
    · refine ⟨rfl, X, rfl, id⟩

/-- C54: normalising an absolute path (ended by a zero byte, in a buffer that may go on)
writes its normal form, ended by a zero byte, at the start of the same buffer. -/
theorem C54_normalize (r tail : Bytes) (h0 : 0 ∉ r) :
    ∃ buf, pathNormalize (47 :: r ++ 0 :: tail) = .ok (buf, (normal (47 :: r)).length) ∧
      buf.take ((normal (47 :: r)).length + 1) = normal (47 :: r) ++ [0] := by
  obtain ⟨st, cur, gap, e, hg, hc, hs, hrun⟩ := normLoop_ok tail r.length r [] [] [] (Nat.le_refl _) (by intro x hx; simp at hx) (by simp) h0 (fun h => absurd rfl h)
  have hn : normal (47 :: r) = join (push st cur) := by
    unfold normal resolve
    have : (split (47 :: r)).foldl push [] = runPath [] (47 :: r) := rfl
    rw [this, run_slash]
    rw [List.nil_append] at hrun
    rw [hrun]
  have e' : normLoop (47 :: r ++ 0 :: tail) 1 1 = .ok (enc st ++ cur ++ gap ++ 0 :: tail, (enc st ++ cur).length) := e
  obtain ⟨h1, Y, hY, hYne⟩ := stripSlash_ok st cur (gap ++ 0 :: tail) hg hc hs
  rw [hn]
  have hb : enc st ++ cur ++ gap ++ 0 :: tail = join (push st cur) ++ Y := by rw [← hY]; simp
  obtain ⟨y, Y', rfl⟩ := List.exists_cons_of_ne_nil (hYne (by simp))
  refine ⟨join (push st cur) ++ 0 :: Y', ?_, ?_⟩
  · unfold pathNormalize
    have hp : pathAt (47 :: r ++ 0 :: tail) 0 = .ok 47 := rfl
    rw [hp]
    simp only [Res.bind_ok]
    rw [if_neg (by decide), if_neg (by decide), e']
    simp only [Res.bind_ok]
    rw [List.append_assoc (enc st ++ cur), h1]
    simp only [Res.bind_ok]
    rw [← List.append_assoc (enc st ++ cur), hb, pathSet, if_pos (by simp)]
    simp
  · rw [List.take_append, List.take_of_length_le (by omega)]
    simp

/-- The absolute path that a prefix names from the working directory `cwd`. -/
def absolute (cwd p : Bytes) : Bytes := if p.head? = some 47 then p else if p = [] then cwd else cwd ++ 47 :: p

/-- C54: resolving a prefix. The result is the normal form of the absolute path with its
terminator, in a block of exactly that size; or NULL, if the working directory is unknown
or the two are too long together. `junk` is any uninitialised memory. -/
theorem C54_resolve (path cwd : Option Bytes) (junk : Bytes) (hp : 0 ∉ path.getD []) (hd : ∀ d, cwd = some d → d.head? = some 47 ∧ 0 ∉ d)
    (hj : 8193 ≤ junk.length) :
    pathResolve path cwd junk =
      if (path.getD []).head? = some 47 then .ok (some (normal (path.getD []) ++ [0]))
      else match cwd with
        | none => .ok none
        | some d => if d.length + 1 + (path.getD []).length > 8192 then .ok none else .ok (some (normal (absolute d (path.getD [])) ++ [0])) := by
  generalize hpp : path.getD [] = p at hp
  have fin : ∀ (q tail : Bytes), q.head? = some 47 → 0 ∉ q → (do
      let (buf, w) ← pathNormalize (q ++ 0 :: tail)
      pure (some (buf.take (w + 1)))) = (Res.ok (some (normal q ++ [0])) : Res (Option Bytes)) := by
    intro q tail h1 h2
    cases q with
    | nil => simp at h1
    | cons c r =>
      simp only [List.head?_cons, Option.some.injEq] at h1
      subst h1
      obtain ⟨buf, e1, e2⟩ := C54_normalize r tail (fun h => h2 (by simp [h]))
      rw [e1]
      simp only [Res.bind_ok, Res.pure_eq, e2]
  unfold pathResolve
  simp only [hpp]
  by_cases habs : p.head? = some 47
  · rw [if_pos habs, if_pos ⟨by cases p <;> simp at habs ⊢, habs⟩]
    exact fin p [] habs hp
  · rw [if_neg habs, if_neg (fun h => habs h.2)]
    cases cwd with
    | none => rfl
    | some d =>
      obtain ⟨d1, d2⟩ := hd d rfl
      simp only
      by_cases h1 : d.length + 1 + p.length > 8192
      · rw [if_pos h1]
        split
        · rfl
        · rfl
      · rw [if_neg h1, if_neg (by omega)]
        have hjl : (junk.take 8193).length = 8193 := by rw [List.length_take]; omega
        have hcp : bufCopy (junk.take (8192 + 1)) 0 (d ++ [0]) = .ok (d ++ 0 :: (junk.take 8193).drop (d.length + 1)) := by
          unfold bufCopy
          rw [if_pos (by rw [hjl]; simp; omega)]
          simp
        rw [if_neg h1, hcp]
        simp only [Res.bind_ok]
        by_cases hp0 : p = []
        · subst hp0
          simp only [List.length_nil, ne_eq, not_true_eq_false, if_false, Res.pure_eq, Res.bind_ok]
          have ha : absolute d [] = d := by simp [absolute]
          rw [ha]
          exact fin d _ d1 d2
        · have hpl : p.length ≠ 0 := fun h => hp0 (List.eq_nil_of_length_eq_zero h)
          rw [if_pos hpl]
          have ha : absolute d p = d ++ 47 :: p := by simp [absolute, habs, hp0]
          rw [ha]
          generalize hr : (junk.take 8193).drop (d.length + 1) = rest
          have hrl : rest.length = 8193 - (d.length + 1) := by rw [← hr, List.length_drop, hjl]
          have hset : pathSet (d ++ 0 :: rest) d.length 47 = .ok (d ++ 47 :: rest) := by
            unfold pathSet
            rw [if_pos (by simp)]
            simp
          have hc2 : bufCopy (d ++ 47 :: rest) (d.length + 1) (p ++ [0]) = .ok (d ++ 47 :: p ++ 0 :: rest.drop (p.length + 1)) := by
            unfold bufCopy
            rw [if_pos (by simp; omega)]
            congr 1
            have t : (d ++ 47 :: rest).take (d.length + 1) = d ++ [47] := by
              rw [List.take_append, List.take_of_length_le (by omega)]; simp
            have u : (d ++ 47 :: rest).drop (d.length + 1 + (p ++ [0]).length) = rest.drop (p.length + 1) := by
              rw [show d ++ 47 :: rest = (d ++ [47]) ++ rest by simp, ← List.drop_drop, List.drop_left' (by simp)]
              simp
            rw [t, u]; simp
          rw [hset]
          simp only [Res.bind_ok]
          rw [hc2]
          simp only [Res.bind_ok]
          exact fin (d ++ 47 :: p) _ (by cases d <;> simp at d1 ⊢; exact d1) (by simp [d2, hp])

theorem split_noslash (p : Bytes) : ∀ c ∈ split p, 47 ∉ c := by
  induction p with
  | nil => simp [split]
  | cons x p ih =>
    simp only [split]
    split
    · intro c hc
      rcases List.mem_cons.1 hc with h | h
      · simp [h]
      · exact ih c h
    · rename_i hx
      split
      · intro c hc
        rw [List.mem_singleton.1 hc]; simp [Ne.symm hx]
      · rename_i h t e
        intro c hc
        rcases List.mem_cons.1 hc with rfl | hc
        · have := ih h (by rw [e]; simp)
          simp [Ne.symm hx, this]
        · exact ih c (by rw [e]; simp [hc])

/-- C54: no component of the result is empty, `.` or `..`, or contains a slash. -/
theorem C54_components (p : Bytes) : ∀ c ∈ resolve p, c ≠ [] ∧ c ≠ [46] ∧ c ≠ [46, 46] ∧ 47 ∉ c := by
  have : ∀ (cs st : List Bytes), (∀ c ∈ cs, 47 ∉ c) → (∀ c ∈ st, c ≠ [] ∧ c ≠ [46] ∧ c ≠ [46, 46] ∧ 47 ∉ c) →
      ∀ c ∈ cs.foldl push st, c ≠ [] ∧ c ≠ [46] ∧ c ≠ [46, 46] ∧ 47 ∉ c := by
    intro cs
    induction cs with
    | nil => intro st _ h; exact h
    | cons x cs ih =>
      intro st h1 h2
      refine ih (push st x) (fun c hc => h1 c (by simp [hc])) ?_
      unfold push
      split
      · exact h2
      · rename_i a
        split
        · intro c hc; exact h2 c ((List.dropLast_subset st hc))
        · rename_i b
          intro c hc
          rcases List.mem_append.1 hc with h | h
          · exact h2 c h
          · rw [List.mem_singleton.1 h]
            rw [not_or] at a
            exact ⟨a.1, a.2, b, h1 x (by simp)⟩
  exact this (split p) [] (split_noslash p) (by simp)

theorem run_join (cs : List Bytes) (hc : ∀ c ∈ cs, c ≠ [] ∧ c ≠ [46] ∧ c ≠ [46, 46] ∧ 47 ∉ c) (st : List Bytes) :
    runPath st (cs.flatMap fun c => 47 :: c) = st ++ cs := by
  induction cs generalizing st with
  | nil => rw [List.flatMap_nil, run_word (by simp), push_nil, List.append_nil]
  | cons c cs ih =>
    obtain ⟨h1, h2, h3, h4⟩ := hc c (by simp)
    have hp : push st c = st ++ [c] := push_comp h1 (by simp [Special, h2, h3])
    rw [List.flatMap_cons, List.cons_append, run_slash]
    cases cs with
    | nil => rw [List.flatMap_nil, List.append_nil, run_word h4, hp]
    | cons c' cs =>
      have := ih (fun x hx => hc x (by simp [hx])) (st ++ [c])
      rw [List.flatMap_cons, List.cons_append, run_slash] at this
      rw [List.flatMap_cons, List.cons_append, run_word_slash h4, hp, this]
      simp

/-- C54: the result names what the given path names, and is its own normal form. -/
theorem C54_same (p : Bytes) : resolve (normal p) = resolve p ∧ normal (normal p) = normal p := by
  have h : resolve (normal p) = resolve p := by
    unfold normal
    cases hr : resolve p with
    | nil => rfl
    | cons c cs =>
      have := run_join (c :: cs) (by rw [← hr]; exact C54_components p) []
      rw [List.nil_append] at this
      exact this
  exact ⟨h, by unfold normal at h ⊢; rw [h]⟩

/-- C54: the result is absolute and ends in a slash only if it is the root. -/
theorem C54_shape (p : Bytes) : (normal p).head? = some 47 ∧ ((normal p).getLast? = some 47 → normal p = [47]) := by
  unfold normal
  rcases nil_or_snoc (resolve p) with ⟨i, c, h⟩ | h
  · rw [h]
    have hc := C54_components p c (by rw [h]; simp)
    obtain ⟨j, x, rfl⟩ := (nil_or_snoc c).resolve_right hc.1
    rw [join_ne (by simp), flat_snoc]
    constructor
    · cases i <;> simp
    · intro hl
      exfalso
      have hx : x = 47 := by
        rw [← List.cons_append, ← List.append_assoc, List.getLast?_append] at hl
        simpa using hl
      exact hc.2.2.2 (by simp [hx])
  · rw [h]
    exact ⟨rfl, fun _ => rfl⟩

/-- "/a//./b/../c/" is "/a/c"; "x" from "/tmp" is "/tmp/x"; ".." at the root. -/
example : ∃ b, pathNormalize [47, 97, 47, 47, 46, 47, 98, 47, 46, 46, 47, 99, 47, 0] = .ok (b, 4) ∧ b.take 5 = [47, 97, 47, 99, 0] := by
  obtain ⟨b, h, e⟩ := C54_normalize [97, 47, 47, 46, 47, 98, 47, 46, 46, 47, 99, 47] [] (by decide)
  exact ⟨b, h, e⟩
example : normal [47, 97, 47, 47, 46, 47, 98, 47, 46, 46, 47, 99, 47] = [47, 97, 47, 99] := by decide
example : normal (absolute [47, 116] [46, 46, 47, 46, 46, 47, 120]) = [47, 120] := by decide

end Urkel
