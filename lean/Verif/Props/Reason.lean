import Verif.Spec.Reason
import Verif.Props.ProofFormat
/-
C90: what the error numbers of `urkel_verify` mean.
-/
namespace Urkel
open PTree

theorem takes_cons (s : Stretch × B32) (b : List (Stretch × B32)) : takes (s :: b) = s.1.count + 1 + takes b := by
  simp [takes]

theorem takes_append (a b : List (Stretch × B32)) : takes (a ++ b) = takes a + takes b := by
  simp [takes, List.sum_append]

theorem takes_snoc (i : List (Stretch × B32)) (s : Stretch × B32) : takes (i ++ [s]) = takes i + (s.1.count + 1) := by
  rw [takes_append]; simp [takes]

theorem agrees_snoc {key : B32} {depth : Nat} {i : List (Stretch × B32)} {s : Stretch × B32} (h1 : s.1.count + 1 ≤ depth)
    (h2 : s.1.bits <+: key.bits.drop (depth - (s.1.count + 1))) (h : Agrees key (depth - (s.1.count + 1)) i) : Agrees key depth (i ++ [s]) := by
  intro a x b e
  rcases List.eq_nil_or_concat b with rfl | ⟨b', y, rfl⟩
  · have e' : i ++ [s] = a ++ [x] := e
    obtain ⟨_, e2⟩ := List.append_inj' e' rfl
    cases e2
    have : takes [s] = s.1.count + 1 := by simp [takes]
    rw [this]
    exact ⟨h1, h2⟩
  · rw [List.concat_eq_append] at e ⊢
    have e' : i ++ [s] = (a ++ x :: b') ++ [y] := by rw [e]; simp
    obtain ⟨e1, e2⟩ := List.append_inj' e' rfl
    cases e2
    obtain ⟨g1, g2⟩ := h a x b' e1
    have ht : takes (x :: (b' ++ [s])) = takes (x :: b') + (s.1.count + 1) := takes_snoc (x :: b') s
    rw [ht]
    refine ⟨by omega, ?_⟩
    rw [show depth - (takes (x :: b') + (s.1.count + 1)) = depth - (s.1.count + 1) - takes (x :: b') by omega]
    exact g2

/-- The three ways in which the loop of the verifier ends. -/
theorem verifyLoop_why {H : HashFn} {key : B32} : ∀ (n : Nat) {steps : List (Stretch × B32)}, steps.length = n → (∀ s ∈ steps, s.1.ok) →
    ∀ {depth : Nat}, depth ≤ 256 → ∀ next : B32,
    (verifyLoop H key (steps.map stepNode).reverse depth next = .err .ENEGDEPTH ∧ ∃ a s b, steps = a ++ s :: b ∧ Agrees key depth b ∧ depth < takes (s :: b)) ∨
    (verifyLoop H key (steps.map stepNode).reverse depth next = .err .EPATHMISMATCH ∧ ∃ a s b, steps = a ++ s :: b ∧ Agrees key depth b ∧
      takes (s :: b) ≤ depth ∧ ¬ s.1.bits <+: key.bits.drop (depth - takes (s :: b))) ∨
    (∃ x, verifyLoop H key (steps.map stepNode).reverse depth next = .ok (depth - takes steps, x) ∧ takes steps ≤ depth ∧ Agrees key depth steps)
  | 0, steps, hn, _, depth, _, next => by
    have : steps = [] := List.length_eq_zero_iff.1 hn
    subst this
    exact .inr (.inr ⟨next, rfl, Nat.zero_le _, fun a s b e => by simp at e⟩)
  | n + 1, steps, hn, hs, depth, hd, next => by
    rcases List.eq_nil_or_concat steps with rfl | ⟨i, s, rfl⟩
    · simp at hn
    · rw [List.concat_eq_append] at *
      have hi : i.length = n := by simpa using hn
      have hok := hs s (by simp)
      have hsn : takes [s] = s.1.count + 1 := by simp [takes]
      have nilA : Agrees key depth [] := fun a s b e => by simp at e
      have hrev : ((i ++ [s]).map stepNode).reverse = stepNode s :: (i.map stepNode).reverse := by simp
      rw [hrev, verifyLoop]
      have hsz : (stepNode s).pre.size = s.1.count := rfl
      have hpre : (stepNode s).pre = s.1.toBits := rfl
      rw [hsz]
      by_cases hlt : depth < s.1.count + 1
      · rw [if_pos hlt]
        exact .inl ⟨rfl, i, s, [], rfl, nilA, by rw [hsn]; exact hlt⟩
      · rw [if_neg hlt]
        obtain ⟨bit, hbit⟩ : ∃ bit, getBit key.bytes (depth - 1) = .ok bit := ⟨_, getBit_kbit (by omega)⟩
        dsimp only
        rw [hbit, Res.bind_ok, hpre, Stretch.bitsHas hok key (by omega), Res.bind_ok]
        have hsub : depth - 1 - s.1.count = depth - (s.1.count + 1) := by omega
        rw [hsub]
        by_cases hp : s.1.bits <+: key.bits.drop (depth - (s.1.count + 1))
        · rw [decide_eq_true hp]
          simp only [Bool.not_true, Bool.false_eq_true, if_false]
          have lift : ∀ {a b : List (Stretch × B32)} {x : Stretch × B32}, takes (x :: (b ++ [s])) = takes (x :: b) + (s.1.count + 1) :=
            fun {a b x} => takes_snoc (x :: b) s
          rcases verifyLoop_why n hi (fun x hx => hs x (by simp [hx])) (depth := depth - (s.1.count + 1)) (by omega)
            (if bit then hashInternal H s.1.toBits (stepNode s).hash next else hashInternal H s.1.toBits next (stepNode s).hash)
            with ⟨e, a, x, b, h1, h2, h3⟩ | ⟨e, a, x, b, h1, h2, h3, h4⟩ | ⟨y, e, h1, h2⟩
          · refine .inl ⟨e, a, x, b ++ [s], by rw [h1]; simp, agrees_snoc (by omega) hp h2, ?_⟩
            rw [lift (a := a)]; omega
          · refine .inr (.inl ⟨e, a, x, b ++ [s], by rw [h1]; simp, agrees_snoc (by omega) hp h2, ?_, ?_⟩)
            · rw [lift (a := a)]; omega
            · rw [lift (a := a), show depth - (takes (x :: b) + (s.1.count + 1)) = depth - (s.1.count + 1) - takes (x :: b) by omega]
              exact h4
          · refine .inr (.inr ⟨y, ?_, ?_, agrees_snoc (by omega) hp h2⟩)
            · rw [takes_snoc, show depth - (takes i + (s.1.count + 1)) = depth - (s.1.count + 1) - takes i by omega]
              exact e
            · rw [takes_snoc]; omega
        · rw [decide_eq_false hp]
          simp only [Bool.not_false, if_true]
          exact .inr (.inl ⟨trivial, i, s, [], rfl, nilA, by rw [hsn]; omega, by rw [hsn]; exact hp⟩)

theorem agrees_leads {key : B32} : ∀ {steps : List (Stretch × B32)} {d e : Nat}, Agrees key e steps → d + takes steps = e → LeadsTo key steps d e
  | [], d, e, _, h => by
    have h : d + 0 = e := h
    exact h
  | s :: more, d, e, ha, h => by
    obtain ⟨h1, h2⟩ := ha [] s more rfl
    have ht := takes_cons s more
    refine ⟨?_, agrees_leads (fun a x b hx => ha (s :: a) x b (by rw [hx]; rfl)) (by omega)⟩
    rw [show e - takes (s :: more) = d by omega] at h2
    exact h2

theorem leads_agrees {key : B32} : ∀ {steps : List (Stretch × B32)} {d e : Nat}, LeadsTo key steps d e → Agrees key e steps ∧ d + takes steps = e
  | [], d, e, h => ⟨(fun a s b x => by simp at x), by
    have h : d = e := h
    exact h⟩
  | s :: more, d, e, h => by
    obtain ⟨i1, i2⟩ := leads_agrees h.2
    have ht := takes_cons s more
    refine ⟨fun a x b hx => ?_, by omega⟩
    cases a with
    | nil =>
      cases hx
      refine ⟨by omega, ?_⟩
      rw [show e - takes (s :: more) = d by omega]
      exact h.1
    | cons y a =>
      cases hx
      exact i1 a x b rfl

/-- Only one branch can be the faulty one that is farthest from the root. -/
theorem fault_unique {key : B32} {depth : Nat} {steps a b a' b' : List (Stretch × B32)} {s s' : Stretch × B32} (h : steps = a ++ s :: b) (h' : steps = a' ++ s' :: b')
    (hb : Agrees key depth b) (hb' : Agrees key depth b')
    (hs : ¬ (takes (s :: b) ≤ depth ∧ s.1.bits <+: key.bits.drop (depth - takes (s :: b))))
    (hs' : ¬ (takes (s' :: b') ≤ depth ∧ s'.1.bits <+: key.bits.drop (depth - takes (s' :: b')))) : s = s' ∧ b = b' := by
  rw [h] at h'
  rcases List.append_eq_append_iff.1 h' with ⟨c, _, e⟩ | ⟨c, _, e⟩
  · cases c with
    | nil => cases e; exact ⟨rfl, rfl⟩
    | cons x c => exact absurd (hb c s' b' (List.cons.inj e).2) hs'
  · cases c with
    | nil => cases e; exact ⟨rfl, rfl⟩
    | cons x c => exact absurd (hb' c s b (List.cons.inj e).2) hs

/-- One proof has one fault at most. -/
theorem Wrong.unique {H : HashFn} {key root : B32} {p : Paper} {e e' : Err} (h : Wrong H key root p e) (h' : Wrong H key root p e') : e = e' := by
  have nofit : ∀ {e}, Wrong H key root p e → ¬ p.ending.fits key p.depth → e = .ESAMEKEY ∨ e = .ESAMEPATH := by
    intro e h hn
    cases h <;> first | exact .inl rfl | exact .inr rfl | exact absurd ‹p.ending.fits key p.depth› hn
  by_cases hf : p.ending.fits key p.depth
  · have key1 : ∀ {e}, Wrong H key root p e → e ≠ .ESAMEKEY ∧ e ≠ .ESAMEPATH := by
      intro e h
      cases h with
      | sameKey he => rw [he] at hf; exact absurd rfl hf
      | samePath he hb => rw [he] at hf; exact absurd hb hf
      | _ => exact ⟨(fun h => nomatch h), (fun h => nomatch h)⟩
    have hk := key1 h
    have hk' := key1 h'
    cases h with
    | sameKey he => exact absurd rfl hk.1
    | samePath he hb => exact absurd rfl hk.2
    | negDepth _ h1 h2 h3 =>
      cases h' with
      | sameKey he => exact absurd rfl hk'.1
      | samePath he hb => exact absurd rfl hk'.2
      | negDepth => rfl
      | pathMismatch _ g1 g2 g3 g4 =>
        obtain ⟨rfl, rfl⟩ := fault_unique h1 g1 h2 g2 (fun x => by omega) (fun x => g4 x.2)
        omega
      | tooDeep _ g1 g2 => exact absurd (g1 _ _ _ h1).1 (by omega)
      | hashMismatch _ g1 _ => exact absurd ((leads_agrees g1).1 _ _ _ h1).1 (by omega)
    | pathMismatch _ h1 h2 h3 h4 =>
      cases h' with
      | sameKey he => exact absurd rfl hk'.1
      | samePath he hb => exact absurd rfl hk'.2
      | negDepth _ g1 g2 g3 =>
        obtain ⟨rfl, rfl⟩ := fault_unique h1 g1 h2 g2 (fun x => h4 x.2) (fun x => by omega)
        omega
      | pathMismatch => rfl
      | tooDeep _ g1 g2 => exact absurd (g1 _ _ _ h1).2 h4
      | hashMismatch _ g1 _ => exact absurd ((leads_agrees g1).1 _ _ _ h1).2 h4
    | tooDeep _ h1 h2 =>
      cases h' with
      | sameKey he => exact absurd rfl hk'.1
      | samePath he hb => exact absurd rfl hk'.2
      | negDepth _ g1 g2 g3 => exact absurd (h1 _ _ _ g1).1 (by omega)
      | pathMismatch _ g1 g2 g3 g4 => exact absurd (h1 _ _ _ g1).2 g4
      | tooDeep => rfl
      | hashMismatch _ g1 _ => have := (leads_agrees g1).2; omega
    | hashMismatch _ h1 h2 =>
      cases h' with
      | sameKey he => exact absurd rfl hk'.1
      | samePath he hb => exact absurd rfl hk'.2
      | negDepth _ g1 g2 g3 => exact absurd ((leads_agrees h1).1 _ _ _ g1).1 (by omega)
      | pathMismatch _ g1 g2 g3 g4 => exact absurd ((leads_agrees h1).1 _ _ _ g1).2 g4
      | tooDeep _ g1 g2 => have := (leads_agrees h1).2; omega
      | hashMismatch => rfl
  · rcases nofit h hf with rfl | rfl <;> rcases nofit h' hf with rfl | rfl
    · rfl
    · cases h with
      | sameKey a => cases h' with
        | samePath b _ => rw [a] at b; cases b
    · cases h with
      | samePath b _ => cases h' with
        | sameKey a => rw [a] at b; cases b
    · rfl

/-- A proof that is wrong proves nothing. -/
theorem Wrong.not_proves {H : HashFn} {key root : B32} {p : Paper} {e : Err} (h : Wrong H key root p e) : ¬ p.Proves H key root := by
  rintro ⟨h1, h2, h3⟩
  have hl := leads_agrees h2
  cases h with
  | sameKey he => rw [he] at h1; exact h1 rfl
  | samePath he hb => rw [he] at h1; exact h1 hb
  | negDepth _ g1 g2 g3 => exact absurd (hl.1 _ _ _ g1).1 (by omega)
  | pathMismatch _ g1 g2 g3 g4 => exact g4 (hl.1 _ _ _ g1).2
  | tooDeep _ g1 g2 => omega
  | hashMismatch _ g1 g2 => exact g2 h3

/-- What the verifier answers. -/
theorem proofVerify_why {H : HashFn} {p : Paper} (h : p.ok) (key root : B32) :
    (proofVerify H p.toProof key root = .ok () ∧ p.Proves H key root) ∨ ∃ e, proofVerify H p.toProof key root = .err e ∧ Wrong H key root p e := by
  have hok := Paper.proofOk h
  obtain ⟨h1, h2, h3, h4⟩ := h
  by_cases hf : p.ending.fits key p.depth
  · rw [proofVerify_eq hok.sane ((Ending.fits_iff h4 h1).2 hf)]
    show ((verifyLoop H key (p.steps.map stepNode).reverse p.depth (bodyHash H key p.ending.toBody) >>= _) = _ ∧ _) ∨ ∃ e,
      (verifyLoop H key (p.steps.map stepNode).reverse p.depth (bodyHash H key p.ending.toBody) >>= _) = _ ∧ _
    rcases verifyLoop_why (H := H) (key := key) _ rfl h3 h1 (bodyHash H key p.ending.toBody) with ⟨e, a, s, b, g1, g2, g3⟩ | ⟨e, a, s, b, g1, g2, g3, g4⟩ | ⟨x, e, g1, g2⟩
    · rw [e]; exact .inr ⟨_, rfl, .negDepth hf g1 g2 g3⟩
    · rw [e]; exact .inr ⟨_, rfl, .pathMismatch hf g1 g2 g3 g4⟩
    · by_cases h0 : takes p.steps = p.depth
      · have hl : LeadsTo key p.steps 0 p.depth := agrees_leads g2 (by omega)
        rw [verifyLoop_up h3 h1 _ hl, Ending.hash_eq h4]
        by_cases hr : hashUp H key p.steps 0 (p.ending.hash H key) = root
        · left
          refine ⟨?_, hf, hl, hr⟩
          simp [hr]
        · right
          refine ⟨.EHASHMISMATCH, ?_, .hashMismatch hf hl hr⟩
          simp [hr]
      · rw [e]
        right
        refine ⟨.ETOODEEP, ?_, .tooDeep hf g2 (by omega)⟩
        have : p.depth - takes p.steps ≠ 0 := by omega
        simp [this]
  · right
    unfold proofVerify
    rw [hok.sane]
    simp only [Bool.not_true, Bool.false_eq_true, if_false]
    have hb : p.toProof.body = p.ending.toBody := rfl
    have hdp : p.toProof.depth = p.depth := rfl
    rw [hb, hdp]
    cases he : p.ending with
    | nothing => rw [he] at hf; exact absurd trivial hf
    | value v => rw [he] at hf; exact absurd trivial hf
    | other k vh =>
      rw [he] at hf
      have : k = key := Decidable.not_not.1 hf
      subst this
      refine ⟨.ESAMEKEY, ?_, .sameKey he⟩
      simp [Ending.toBody]
    | branch w l r =>
      rw [he] at hf h4
      have hw : w.bits <+: key.bits.drop p.depth := Decidable.not_not.1 hf
      refine ⟨.ESAMEPATH, ?_, .samePath he hw⟩
      simp only [Ending.toBody, Stretch.bitsHas h4.1 key h1, Res.bind_ok, decide_eq_true hw, if_true]
      rfl

/-- C90. `urkel_verify` fails with an error other than EINVAL exactly if the bytes are a proof that has this fault. -/
theorem C90_error (H : HashFn) (raw : Bytes) (key root : B32) {e : Err} (he : e ≠ .EINVAL) :
    urkelVerify H raw key root = .ok ⟨.error e, false, []⟩ ↔ ∃ p : Paper, p.Reads raw ∧ Wrong H key root p e := by
  constructor
  · intro h
    unfold urkelVerify at h
    obtain ⟨o, e1, h⟩ := Res.bind_eq_ok.1 h
    cases o with
    | none => cases h; exact absurd rfl he
    | some q =>
      obtain ⟨p, hp, rfl⟩ := (proofRead_iff raw q).1 e1
      refine ⟨p, hp, ?_⟩
      rcases proofVerify_why (H := H) hp.1 key root with ⟨e2, _⟩ | ⟨x, e2, hx⟩
      · dsimp only at h
        rw [e2] at h
        dsimp only at h
        split at h <;> cases h
      · dsimp only at h
        rw [e2] at h
        cases h
        exact hx
  · rintro ⟨p, hp, hw⟩
    unfold urkelVerify
    rw [(proofRead_iff raw p.toProof).2 ⟨p, hp, rfl⟩, Res.bind_ok]
    rcases proofVerify_why (H := H) hp.1 key root with ⟨_, h⟩ | ⟨x, e2, hx⟩
    · exact absurd h hw.not_proves
    · dsimp only
      rw [e2, hx.unique hw]
      rfl

/-- C90. Every answer of `urkel_verify` has its reason: success (C88), bytes that are no proof, or exactly one fault. -/
theorem C90_complete (H : HashFn) (raw : Bytes) (key root : B32) :
    ((∀ p : Paper, ¬ p.Reads raw) ∧ urkelVerify H raw key root = .ok ⟨.error .EINVAL, false, []⟩) ∨
    ∃ p : Paper, p.Reads raw ∧
      ((p.Proves H key root ∧ (∀ e, ¬ Wrong H key root p e) ∧ urkelVerify H raw key root = .ok ⟨.ok (), p.ending.answer.isSome, p.ending.answer.getD []⟩) ∨
        ∃ e, Wrong H key root p e ∧ (∀ e', Wrong H key root p e' → e' = e) ∧ ¬ p.Proves H key root ∧
          urkelVerify H raw key root = .ok ⟨.error e, false, []⟩) := by
  by_cases hx : ∃ p : Paper, p.Reads raw
  · obtain ⟨p, hp⟩ := hx
    refine .inr ⟨p, hp, ?_⟩
    rcases proofVerify_why (H := H) hp.1 key root with ⟨_, h⟩ | ⟨e, e2, hx⟩
    · refine .inl ⟨h, fun e he => he.not_proves h, ?_⟩
      refine (C88_verify H raw key root _ _).2 ⟨p, hp, h, ?_⟩
      cases p.ending.answer <;> exact ⟨rfl, rfl⟩
    · refine .inr ⟨e, hx, fun e' h => h.unique hx, hx.not_proves, ?_⟩
      refine (C90_error H raw key root ?_).2 ⟨p, hp, hx⟩
      rintro rfl
      cases hx
  · exact .inl ⟨fun p hp => hx ⟨p, hp⟩, (C88_malformed H raw key root).2 fun p hp => hx ⟨p, hp⟩⟩

/-- C90. The same proof shown with any other root than its own is refused with EHASHMISMATCH, and with no other error. -/
theorem C90_other_root (H : HashFn) (raw : Bytes) (key root root' : B32) (hr : root' ≠ root) {ex : Bool} {v : Bytes}
    (h : urkelVerify H raw key root = .ok ⟨.ok (), ex, v⟩) : urkelVerify H raw key root' = .ok ⟨.error .EHASHMISMATCH, false, []⟩ := by
  obtain ⟨p, hp, ⟨h1, h2, h3⟩, _⟩ := (C88_verify H raw key root ex v).1 h
  refine (C90_error H raw key root' (e := .EHASHMISMATCH) (fun h => nomatch h)).2 ⟨p, hp, .hashMismatch h1 h2 ?_⟩
  rw [h3]
  exact Ne.symm hr

/-- Each fault occurs: for every hash function there are bytes that are refused with each of the errors. -/
theorem C90_each (H : HashFn) : ∀ e ∈ [Err.ESAMEKEY, .ESAMEPATH, .ENEGDEPTH, .EPATHMISMATCH, .ETOODEEP, .EHASHMISMATCH],
    ∃ raw root, urkelVerify H raw (keyOf 1) root = .ok ⟨.error e, false, []⟩ := by
  have reads : ∀ (p : Paper) (map : Bytes), p.ok → map.length = (p.steps.length + 7) / 8 → (bitsOf map).take p.steps.length = p.flags → p.Reads (p.encode map) :=
    fun p map h1 h2 h3 => ⟨h1, map, h2, h3, rfl⟩
  have use : ∀ {e : Err} (p : Paper) (map : Bytes) (root : B32), e ≠ .EINVAL → p.ok → map.length = (p.steps.length + 7) / 8 →
      (bitsOf map).take p.steps.length = p.flags → Wrong H (keyOf 1) root p e → ∃ raw root, urkelVerify H raw (keyOf 1) root = .ok ⟨.error e, false, []⟩ :=
    fun p map root he h1 h2 h3 hw => ⟨_, root, (C90_error H _ _ _ he).2 ⟨p, reads p map h1 h2 h3, hw⟩⟩
  have nostep : ∀ (d : Nat) (x : Ending), d ≤ 256 → x.ok → (Paper.mk d [] x).ok := fun d x h1 h2 => ⟨h1, Nat.zero_le _, by simp, h2⟩
  intro e he
  simp only [List.mem_cons, List.not_mem_nil, or_false] at he
  rcases he with rfl | rfl | rfl | rfl | rfl | rfl
  · exact use ⟨0, [], .other (keyOf 1) B32.zero⟩ [] B32.zero (fun h => nomatch h) (nostep _ _ (by decide) trivial) rfl rfl (.sameKey rfl)
  · exact use ⟨0, [], .branch ⟨8, (keyOf 1).bytes.take 1⟩ B32.zero B32.zero⟩ [] B32.zero (fun h => nomatch h)
      (nostep _ _ (by decide) ⟨⟨by decide, by decide⟩, by decide⟩) rfl rfl (.samePath rfl (by decide))
  · exact use ⟨0, [(⟨0, []⟩, B32.zero)], .nothing⟩ [0] B32.zero (fun h => nomatch h)
      ⟨by decide, by decide, by intro s hs; simp at hs; subst hs; exact ⟨by decide, by decide⟩, trivial⟩ rfl (by decide)
      (.negDepth (a := []) (b := []) trivial rfl (fun a s b e => by simp at e) (by decide))
  · exact use ⟨9, [(⟨8, (keyOf 1).bytes.take 1 |>.map (· + 1)⟩, B32.zero)], .nothing⟩ [128] B32.zero (fun h => nomatch h)
      ⟨by decide, by decide, by intro s hs; simp only [List.mem_cons, List.not_mem_nil, or_false] at hs; subst hs; exact ⟨by decide, by decide⟩, trivial⟩ rfl (by decide)
      (.pathMismatch (a := []) (b := []) trivial rfl (fun a s b e => by simp at e) (by decide) (by decide))
  · exact use ⟨3, [], .nothing⟩ [] B32.zero (fun h => nomatch h) (nostep _ _ (by decide) trivial) rfl rfl
      (.tooDeep trivial (fun a s b e => by simp at e) (by decide))
  · exact use ⟨0, [], .nothing⟩ [] (keyOf 1) (fun h => nomatch h) (nostep _ _ (by decide) trivial) rfl rfl
      (.hashMismatch trivial rfl (by show B32.mk (List.replicate 32 0) _ ≠ _; decide))

end Urkel
