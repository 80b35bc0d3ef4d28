import Verif.Lemmas.KhashGrow
/-
`kh_resize`, `kh_put` and the cache.
-/
namespace Urkel

variable {K V : Type} [DecidableEq K]

theorem khResize_gen {hash : K → Nat} {m : Nat} {C : K → V → Prop} {T : Kh K V} {want : Nat} (hw : bucketsFor want = 2 ^ m) (hm : 2 ≤ m)
    (hsz : T.size < upperBound (2 ^ m)) (hnb : T.nb < 2 ^ m)
    (h : KRInv hash m C T.size { T with cap := 2 ^ m } (.fresh (2 ^ m)) []) :
    ∃ T', khResize hash T want = .ok T' ∧ KInv hash T' m ∧ (∀ k v, T'.Has k v ↔ C k v) ∧ T'.size = T.size := by
  unfold khResize
  simp only [hw]
  rw [if_neg (by omega), if_pos hnb]
  obtain ⟨T1, nf, e1, h1, e2, e3, e4, e5⟩ := rehashLoop_ok T.nb 0 h (by simp) (fun _ _ => Nat.zero_le _)
  have e1' : rehashLoop hash (2 ^ m - 1) T.nb 0 { T with cap := 2 ^ m } (.fresh (2 ^ m)) = .ok (T1, nf) := e1
  rw [e1', Res.bind_ok]
  have e2' : T1.nb = T.nb := e2
  have e3' : T1.cap = 2 ^ m := e3
  have e4' : T1.size = T.size := e4
  have hn : ¬ T1.nb > 2 ^ m := by omega
  dsimp only
  rw [if_neg hn]
  have hcz : cnt T1.nb (fun i => !T1.flags.isEmpty i && !T1.flags.isDel i) = 0 := cnt_false fun i hi => by
    cases hc : (!T1.flags.isEmpty i && !T1.flags.isDel i) with
    | false => rfl
    | true => exact (e5 i ⟨hi, hc⟩).elim
  refine ⟨_, rfl, ⟨hm, h.hi, rfl, h1.nflen, e3', h1.nfdel, ?_, ?_, ?_, rfl, rfl, ?_⟩, ?_, e4'⟩
  · intro i hi hf
    obtain ⟨k, v, a, b, _, c⟩ := h1.placed i ⟨hi, hf⟩
    exact ⟨k, v, a, b, c⟩
  · intro i hi j hj hfi hfj hk
    exact h1.dist i j (Or.inl ⟨hi, hfi⟩) (Or.inl ⟨hj, hfj⟩) hk
  · have := h1.count
    rw [hcz] at this
    show T1.size = cnt (2 ^ m) (fun i => !nf.isEmpty i)
    simp only [List.length_nil] at this
    omega
  · show T1.size ≤ upperBound (2 ^ m)
    omega
  · intro k v
    constructor
    · rintro ⟨i, hi, hf, hk, hv⟩
      obtain ⟨k', v', a, b, c, _⟩ := h1.placed i ⟨hi, hf⟩
      have hk' : T1.keys i = some k := hk
      have hv' : T1.vals i = some v := hv
      rw [a] at hk'; rw [b] at hv'
      cases hk'; cases hv'; exact c
    · intro hc
      rcases h1.all k v hc with ⟨i, hp | hp, a, b⟩ | hmem
      · exact ⟨i, hp.1, hp.2, a, b⟩
      · exact (e5 i hp).elim
      · cases hmem

theorem buckets_double : ∀ m < 31, 2 ≤ m → bucketsFor (u32 (2 ^ m + 1)) = 2 ^ (m + 1) := by decide +kernel

theorem KInv.grow {hash : K → Nat} {T : Kh K V} {m : Nat} (h : KInv hash T m) (hm : m < 31) :
    ∃ T', khResize hash T (u32 (T.nb + 1)) = .ok T' ∧ KInv hash T' (m + 1) ∧ (∀ k v, T'.Has k v ↔ T.Has k v) ∧ T'.size = T.size := by
  have hp : 2 ^ (m + 1) = 2 * 2 ^ m := by rw [Nat.pow_succ]; omega
  have hpos := Nat.two_pow_pos m
  have hub : T.size < upperBound (2 ^ (m + 1)) := by
    have h1 := h.le; have h2 := h.ub
    rw [h.nb] at h2
    have h3 : 2 ^ 2 ≤ 2 ^ m := Nat.pow_le_pow_right (by omega) h.lo
    rw [h2] at h1
    unfold upperBound at h1 ⊢
    rw [hp]; omega
  have pend : ∀ i, Pending ({ T with cap := 2 ^ (m + 1) } : Kh K V) i ↔ i < T.nb ∧ T.flags.isEmpty i = false := by
    intro i
    unfold Pending
    dsimp only
    rw [h.nodel]; simp
  have npl : ∀ i, ¬ Placed (.fresh (2 ^ (m + 1))) (2 ^ (m + 1)) i := fun i hc => by
    have := hc.2; rw [(fresh_empty _ i).1] at this; cases this
  refine khResize_gen (C := T.Has) (m := m + 1) (by rw [h.nb]; exact buckets_double m hm h.lo) (by have := h.lo; omega) hub (by rw [h.nb]; omega)
    ⟨by omega, rfl, fun i => (fresh_empty _ i).2, fun _ => h.flen, by show T.nb < 16 ∨ _; rw [h.nb]; exact pow16, Nat.le_refl _, by show T.nb ≤ 2 ^ (m + 1); rw [h.nb]; omega,
      fun i hc => (npl i hc).elim, fun i hc => (npl i hc).elim, ?_, (fun _ _ h => nomatch h), ?_, ?_, (fun _ _ h => nomatch h), ?_, by simp, ?_⟩
  · intro i hi
    obtain ⟨hi, hf⟩ := (pend i).1 hi
    obtain ⟨k, v, a, b, _⟩ := h.full i hi hf
    exact ⟨k, v, a, b, i, hi, hf, a, b⟩
  · rintro k v ⟨i, hi, hf, a, b⟩
    exact Or.inl ⟨i, Or.inr ((pend i).2 ⟨hi, hf⟩), a, b⟩
  · intro i j hi hj hk
    have hi' := (pend i).1 (hi.resolve_left (npl i))
    have hj' := (pend j).1 (hj.resolve_left (npl j))
    exact h.dist i hi'.1 j hj'.1 hi'.2 hj'.2 hk
  · have h1 : cnt (2 ^ (m + 1)) (fun i => !(KFlags.fresh (2 ^ (m + 1))).isEmpty i) = 0 := cnt_false fun i _ => by
      rw [(fresh_empty _ i).1]; rfl
    have h2 : cnt T.nb (fun i => !T.flags.isEmpty i && !T.flags.isDel i) = T.size := by
      rw [h.size]
      exact cnt_congr fun i _ => by rw [h.nodel]; simp
    rw [h1]
    show 0 + cnt T.nb (fun i => !T.flags.isEmpty i && !T.flags.isDel i) + 0 = _
    omega
  · have := (upper_lt (m := m + 1) (by have := h.lo; omega)).1
    omega

/-- The table at any time. -/
inductive KOk (hash : K → Nat) (T : Kh K V) : Prop
  | init (h : T = Kh.init K V)
  | full (m : Nat) (h : KInv hash T m)

theorem not_has_init (k : K) (v : V) : ¬ (Kh.init K V).Has k v := by
  rintro ⟨i, hi, _⟩
  exact absurd hi (Nat.not_lt_zero i)

theorem khRoom_ok {hash : K → Nat} {T : Kh K V} (h : KOk hash T) (hs : T.size < 1653562409) :
    ∃ T' m, khRoom hash T = .ok T' ∧ KInv hash T' m ∧ (∀ k v, T'.Has k v ↔ T.Has k v) ∧ T'.size = T.size ∧ T'.occ < T'.ub := by
  rcases h with rfl | ⟨m, h⟩
  · have npl : ∀ i, ¬ Placed (.fresh (2 ^ 2)) (2 ^ 2) i := fun i hc => by
      have := hc.2; rw [(fresh_empty _ i).1] at this; cases this
    have npe : ∀ i, ¬ Pending ({ Kh.init K V with cap := 2 ^ 2 } : Kh K V) i := fun i hc => absurd hc.1 (Nat.not_lt_zero i)
    have hri : KRInv hash 2 (fun (_ : K) (_ : V) => False) (Kh.init K V).size { Kh.init K V with cap := 2 ^ 2 } (.fresh (2 ^ 2)) [] := by
      refine ⟨by omega, rfl, fun i => (fresh_empty _ i).2, (fun h0 => absurd h0 (Nat.not_lt_zero 0)), Or.inl (show 0 < 16 by omega), Nat.le_refl _, Nat.zero_le _,
        fun i hc => (npl i hc).elim, fun i hc => (npl i hc).elim, fun i hc => (npe i hc).elim, (fun _ _ h => nomatch h), (fun _ _ h => h.elim),
        fun i j hi => (hi.elim (npl i) (npe i)).elim, (fun _ _ h => nomatch h), ?_, by simp, show 0 < 4 by omega⟩
      rw [cnt_false fun i _ => by rw [(fresh_empty _ i).1]; rfl]; rfl
    obtain ⟨T', e, h1, h2, h3⟩ := khResize_gen (want := 1) (by decide) (by omega) (show 0 < upperBound (2 ^ 2) by decide) (show 0 < 2 ^ 2 by decide) hri
    refine ⟨T', 2, ?_, h1, fun k v => ⟨fun hh => ((h2 k v).1 hh).elim, fun hh => (not_has_init k v hh).elim⟩, h3, ?_⟩
    · unfold khRoom
      have h0 : (Kh.init K V).occ ≥ (Kh.init K V).ub := Nat.le_refl 0
      rw [if_pos h0]
      have : ¬ (Kh.init K V).nb > u32 ((Kh.init K V).size <<< 1) := Nat.not_lt_zero _
      rw [if_neg this]
      exact e
    · rw [h1.occ, h3, h1.ub, h1.nb]
      show 0 < upperBound (2 ^ 2)
      decide
  · unfold khRoom
    by_cases ho : T.occ ≥ T.ub
    · rw [if_pos ho]
      have h1 := h.occ; have h2 := h.ub; have h3 := h.le
      have h4 := (upper_lt h.lo).2
      rw [← h.nb, ← h2] at h4
      have hsm : u32 (T.size <<< 1) = 2 * T.size := by
        unfold u32
        rw [Nat.shiftLeft_eq]
        omega
      rw [hsm, if_neg (by omega)]
      have hm : m < 31 := by
        rcases Nat.lt_or_ge m 31 with h' | h'
        · exact h'
        · have : m = 31 := by have := h.hi; omega
          rw [h.nb, this] at h2
          have : upperBound (2 ^ 31) = 1653562409 := by decide
          omega
      obtain ⟨T', e, g1, g2, g3⟩ := h.grow hm
      refine ⟨T', m + 1, e, g1, g2, g3, ?_⟩
      rw [g1.occ, g3, g1.ub, g1.nb]
      have h5 : 2 ^ 2 ≤ 2 ^ m := Nat.pow_le_pow_right (by omega) h.lo
      have : 2 ^ (m + 1) = 2 * 2 ^ m := by rw [Nat.pow_succ]; omega
      rw [h.nb] at h2
      rw [this]
      unfold upperBound at *
      omega
    · rw [if_neg ho]
      exact ⟨T, m, rfl, h, fun _ _ => Iff.rfl, rfl, by omega⟩

theorem tableInsert_ok {hash : K → Nat} {T : Kh K V} (h : KOk hash T) (hs : T.size < 1653562409) (key : K) (v : V) :
    ∃ T' b, tableInsert hash T key v = .ok (T', b) ∧ KOk hash T' ∧
      ((b = false ∧ (∃ w, T.Has key w) ∧ (∀ k w, T'.Has k w ↔ T.Has k w) ∧ T'.size = T.size) ∨
       (b = true ∧ (∀ w, ¬ T.Has key w) ∧ (∀ k w, T'.Has k w ↔ T.Has k w ∨ (k = key ∧ w = v)) ∧ T'.size = T.size + 1)) := by
  obtain ⟨T1, m, e1, h1, hh, hsz, hro⟩ := khRoom_ok h hs
  obtain ⟨e, g1, g2, g3⟩ := first_empty (hash key) h1.free
  rw [← h1.nb] at g1 g2 g3
  have hz : hash key &&& (T1.nb - 1) = probe T1.nb (hash key) 0 := by rw [h1.nb]; exact probe_zero m _
  obtain ⟨x, e2, hx⟩ := h1.putScan_ok key g2 g1 g3 (T1.nb + 1) 0 (by omega) (by omega) (fun t ht => by omega)
  rcases hx with ⟨rfl, ha⟩ | ⟨hx, hf, hk⟩
  · have hb := probe_lt h1.pos (hash key) e
    have hc : probe T1.nb (hash key) e < T1.cap := h1.cap ▸ hb
    obtain ⟨k1, k2⟩ := h1.fill (v := v) hb g2 ⟨e, g1, rfl, g3⟩ ha hro
    refine ⟨_, true, ?_, .full m k1, Or.inr ⟨rfl, ?_, ?_, ?_⟩⟩
    · unfold tableInsert khPut
      rw [e1, Res.bind_ok, hz, e2, Res.bind_ok, h1.flag _ hb, Res.bind_ok, g2]
      simp only [if_true, Kh.setKey, Kh.setVal, if_pos hc, Res.bind_ok, Res.pure_eq]
      rfl
    · rintro w hw
      obtain ⟨i, hi, hf, hk, _⟩ := (hh key w).2 hw
      exact ha i hi hf hk
    · intro k w
      rw [k2, hh]
    · show T1.size + 1 = T.size + 1
      rw [hsz]
  · refine ⟨T1, false, ?_, .full m h1, Or.inl ⟨rfl, ?_, hh, hsz⟩⟩
    · unfold tableInsert khPut
      rw [e1, Res.bind_ok, hz, e2, Res.bind_ok, h1.flag _ hx, Res.bind_ok, hf]
      simp only [Bool.false_eq_true, if_false]
      rw [h1.flag _ hx, Res.bind_ok, h1.nodel]
      simp only [Bool.false_eq_true, if_false]
      rfl
    · obtain ⟨k, w, a, b, _⟩ := h1.full x hx hf
      rw [hk] at a; cases a
      exact ⟨w, (hh key w).1 ⟨x, hx, hf, hk, b⟩⟩

theorem tableLookup_ok {hash : K → Nat} {T : Kh K V} (h : KOk hash T) (key : K) :
    ∃ o, tableLookup hash T key = .ok o ∧ ∀ v, T.Has key v ↔ o = some v := by
  rcases h with rfl | ⟨m, h⟩
  · exact ⟨none, rfl, fun v => ⟨fun h => (not_has_init key v h).elim, fun h => nomatch h⟩⟩
  · exact h.lookup_ok key

/-- What `urkel_cache_clear` frees from bucket `i` on. -/
theorem KInv.clear_ok {hash : K → Nat} {T : Kh K V} {m : Nat} (h : KInv hash T m) : ∀ (n i : Nat), i + n = T.nb →
    ∃ P : List (K × V), tableClear T n i = .ok (P.map Prod.snd) ∧ (P.map Prod.fst).Nodup ∧
      ∀ k v, (k, v) ∈ P ↔ ∃ j, i ≤ j ∧ j < T.nb ∧ T.flags.isEmpty j = false ∧ T.keys j = some k ∧ T.vals j = some v := by
  intro n
  induction n with
  | zero =>
    intro i hi
    refine ⟨[], rfl, by simp, fun k v => ⟨(fun h => nomatch h), ?_⟩⟩
    rintro ⟨j, h1, h2, _⟩
    omega
  | succ n ih =>
    intro i hi
    have hlt : i < T.nb := by omega
    obtain ⟨P, e, hnd, hP⟩ := ih (i + 1) (by omega)
    have hl : T.live? i = .ok (!T.flags.isEmpty i) := by
      unfold Kh.live?
      rw [h.flag _ hlt, h.nodel]; simp
    unfold tableClear
    rw [hl, Res.bind_ok]
    cases hf : T.flags.isEmpty i with
    | true =>
      refine ⟨P, e, hnd, fun k v => (hP k v).trans ⟨?_, ?_⟩⟩
      · rintro ⟨j, h1, h2⟩; exact ⟨j, by omega, h2⟩
      · rintro ⟨j, h1, h2, h3, h4⟩
        refine ⟨j, ?_, h2, h3, h4⟩
        by_cases hj : j = i
        · subst hj; rw [hf] at h3; cases h3
        · omega
    | false =>
      obtain ⟨k, v, hk, hv, _⟩ := h.full i hlt hf
      have hval : T.val i = .ok v := by unfold Kh.val; rw [if_pos (h.cap ▸ hlt), hv]
      simp only [Bool.not_false, if_true]
      rw [hval, Res.bind_ok, e, Res.bind_ok]
      refine ⟨(k, v) :: P, rfl, ?_, fun a b => ?_⟩
      · rw [List.map_cons, List.nodup_cons]
        refine ⟨fun hm => ?_, hnd⟩
        obtain ⟨⟨k', w⟩, hm', hkk⟩ := List.mem_map.1 hm
        have hkk' : k' = k := hkk
        subst hkk'
        obtain ⟨j, h1, h2, h3, h4, _⟩ := (hP _ _).1 hm'
        have := h.dist i hlt j h2 hf h3 (hk.trans h4.symm)
        omega
      · rw [List.mem_cons, hP]
        constructor
        · rintro (h1 | ⟨j, h1, h2⟩)
          · cases h1; exact ⟨i, Nat.le_refl _, hlt, hf, hk, hv⟩
          · exact ⟨j, by omega, h2⟩
        · rintro ⟨j, h1, h2, h3, h4, h5⟩
          by_cases hj : j = i
          · subst hj
            rw [hk] at h4; rw [hv] at h5; cases h4; cases h5
            exact Or.inl rfl
          · exact Or.inr ⟨j, by omega, h2, h3, h4, h5⟩

theorem tableClear_ok {hash : K → Nat} {T : Kh K V} (h : KOk hash T) :
    ∃ P : List (K × V), tableClear T T.nb 0 = .ok (P.map Prod.snd) ∧ (P.map Prod.fst).Nodup ∧ ∀ k v, (k, v) ∈ P ↔ T.Has k v := by
  rcases h with rfl | ⟨m, h⟩
  · exact ⟨[], rfl, by simp, fun k v => ⟨(fun h => nomatch h), fun h => (not_has_init k v h).elim⟩⟩
  · obtain ⟨P, e, h1, h2⟩ := h.clear_ok T.nb 0 (by omega)
    refine ⟨P, e, h1, fun k v => (h2 k v).trans ⟨?_, ?_⟩⟩
    · rintro ⟨j, _, h⟩; exact ⟨j, h⟩
    · rintro ⟨j, h⟩; exact ⟨j, Nat.zero_le _, h⟩

end Urkel
