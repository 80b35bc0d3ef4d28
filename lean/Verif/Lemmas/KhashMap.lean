import Verif.Lemmas.Khash
/-
Searching, inserting and growing.
-/
namespace Urkel

/-! ### Counting -/

def cnt (n : Nat) (p : Nat → Bool) : Nat := (List.range n).countP p

theorem cnt_succ (n : Nat) (p : Nat → Bool) : cnt (n + 1) p = cnt n p + if p n then 1 else 0 := by
  unfold cnt
  rw [List.range_succ, List.countP_append]
  simp [List.countP_cons]

theorem cnt_congr {n : Nat} {p q : Nat → Bool} (h : ∀ i < n, p i = q i) : cnt n p = cnt n q := by
  induction n with
  | zero => rfl
  | succ n ih => rw [cnt_succ, cnt_succ, ih (fun i hi => h i (by omega)), h n (by omega)]

theorem cnt_set {n : Nat} {p q : Nat → Bool} {i : Nat} (hi : i < n) (hp : p i = false) (hq : q i = true) (h : ∀ j, j ≠ i → q j = p j) :
    cnt n q = cnt n p + 1 := by
  induction n with
  | zero => omega
  | succ n ih =>
    rw [cnt_succ, cnt_succ]
    by_cases e : i = n
    · subst e
      rw [hp, hq, cnt_congr (fun j hj => h j (by omega))]; simp
    · rw [ih (by omega), h n (by omega)]; omega

theorem cnt_le (n : Nat) (p : Nat → Bool) : cnt n p ≤ n := by
  induction n with
  | zero => exact Nat.le_refl _
  | succ n ih => rw [cnt_succ]; split <;> omega

theorem cnt_lt {n : Nat} {p : Nat → Bool} (h : cnt n p < n) : ∃ i < n, p i = false := by
  induction n with
  | zero => omega
  | succ n ih =>
    rw [cnt_succ] at h
    cases hp : p n with
    | false => exact ⟨n, by omega, hp⟩
    | true =>
      rw [hp] at h
      obtain ⟨i, hi, h'⟩ := ih (by simp at h; omega)
      exact ⟨i, by omega, h'⟩

theorem cnt_false {n : Nat} {p : Nat → Bool} (h : ∀ i < n, p i = false) : cnt n p = 0 := by
  induction n with
  | zero => rfl
  | succ n ih => rw [cnt_succ, ih (fun i hi => h i (by omega)), h n (by omega)]; rfl

theorem cnt_zero {n : Nat} {p : Nat → Bool} (h : cnt n p = 0) : ∀ i < n, p i = false := by
  induction n with
  | zero => intro i hi; omega
  | succ n ih =>
    rw [cnt_succ] at h
    intro i hi
    by_cases e : i = n
    · subst e
      cases hp : p i with
      | false => rfl
      | true => rw [hp] at h; simp at h
    · exact ih (by omega) i (by omega)

/-! ### A table in use -/

/-- Searching for a key with this hash comes to bucket `i`. -/
def Reached (E : Nat → Bool) (n h i : Nat) : Prop := ∃ s < n, probe n h s = i ∧ ∀ t < s, E (probe n h t) = false

theorem Reached.mono {E E' : Nat → Bool} {n h i : Nat} (hr : Reached E n h i) (hE : ∀ j, E j = false → E' j = false) : Reached E' n h i := by
  obtain ⟨s, h1, h2, h3⟩ := hr
  exact ⟨s, h1, h2, fun t ht => hE _ (h3 t ht)⟩

variable {K V : Type} [DecidableEq K]

/-- The table has this key with this value. -/
def Kh.Has (T : Kh K V) (k : K) (v : V) : Prop :=
  ∃ i < T.nb, T.flags.isEmpty i = false ∧ T.keys i = some k ∧ T.vals i = some v

/-- A table with buckets. -/
structure KInv (hash : K → Nat) (T : Kh K V) (m : Nat) : Prop where
  lo : 2 ≤ m
  hi : m ≤ 31
  nb : T.nb = 2 ^ m
  flen : T.flags.len = fsize T.nb
  cap : T.cap = T.nb
  nodel : ∀ i, T.flags.isDel i = false
  full : ∀ i < T.nb, T.flags.isEmpty i = false → ∃ k v, T.keys i = some k ∧ T.vals i = some v ∧ Reached T.flags.isEmpty T.nb (hash k) i
  dist : ∀ i < T.nb, ∀ j < T.nb, T.flags.isEmpty i = false → T.flags.isEmpty j = false → T.keys i = T.keys j → i = j
  size : T.size = cnt T.nb (fun i => !T.flags.isEmpty i)
  occ : T.occ = T.size
  ub : T.ub = upperBound T.nb
  le : T.size ≤ T.ub

theorem pow16 {m : Nat} : 2 ^ m < 16 ∨ 2 ^ m % 16 = 0 := by
  rcases Nat.lt_or_ge m 4 with h | h
  · left
    calc 2 ^ m < 2 ^ 4 := Nat.pow_lt_pow_right (by omega) h
      _ = 16 := rfl
  · right
    obtain ⟨a, rfl⟩ := Nat.exists_eq_add_of_le h
    rw [Nat.pow_add]; omega

theorem upper_lt {m : Nat} (h : 2 ≤ m) : upperBound (2 ^ m) < 2 ^ m ∧ 2 ^ m ≤ 2 * upperBound (2 ^ m) := by
  have : 2 ^ 2 ≤ 2 ^ m := Nat.pow_le_pow_right (by omega) h
  unfold upperBound
  generalize 2 ^ m = n at *
  omega

namespace KInv
variable {hash : K → Nat} {T : Kh K V} {m : Nat}

theorem pos (h : KInv hash T m) : 0 < T.nb := by rw [h.nb]; exact Nat.two_pow_pos m

theorem flag (h : KInv hash T m) {α : Type} (x : α) {i : Nat} (hi : i < T.nb) : T.flags.at i x = .ok x := by
  refine at_ok x h.flen ?_ hi
  rw [h.nb]; exact pow16

theorem lt (h : KInv hash T m) : T.size < T.nb := by
  have := h.le; have := h.ub; have := (upper_lt h.lo).1
  rw [← h.nb] at this; omega

theorem free (h : KInv hash T m) : ∃ i < 2 ^ m, T.flags.isEmpty i = true := by
  have := h.lt
  rw [h.size] at this
  obtain ⟨i, hi, he⟩ := cnt_lt this
  exact ⟨i, h.nb ▸ hi, by simpa using he⟩

/-- What a search finds. -/
theorem absent (h : KInv hash T m) {key : K} {s : Nat} (he : T.flags.isEmpty (probe T.nb (hash key) s) = true)
    (hp : ∀ t < s, T.keys (probe T.nb (hash key) t) ≠ some key) : ∀ i < T.nb, T.flags.isEmpty i = false → T.keys i ≠ some key := by
  intro i hi hf hk
  obtain ⟨k, v, e1, _, t, ht, e2, hall⟩ := h.full i hi hf
  rw [hk] at e1; cases e1
  rcases Nat.lt_trichotomy t s with hlt | rfl | hgt
  · exact hp t hlt (e2 ▸ hk)
  · rw [e2, hf] at he; cases he
  · rw [hall s hgt] at he; cases he

theorem key_ok (h : KInv hash T m) {i : Nat} (hi : i < T.nb) {k : K} (hk : T.keys i = some k) : T.key i = .ok k := by
  unfold Kh.key
  rw [if_pos (h.cap ▸ hi), hk]

theorem getLoop_ok (h : KInv hash T m) (key : K) {e : Nat} (he : T.flags.isEmpty (probe T.nb (hash key) e) = true) (hlt : e < T.nb)
    (hpre : ∀ t < e, T.flags.isEmpty (probe T.nb (hash key) t) = false) :
    ∀ (fuel s : Nat), s ≤ e → e < s + fuel → (∀ t < s, T.keys (probe T.nb (hash key) t) ≠ some key) →
    ∃ r, getLoop T key (probe T.nb (hash key) 0) fuel (probe T.nb (hash key) s) s = .ok r ∧
      ((r = T.nb ∧ ∀ i < T.nb, T.flags.isEmpty i = false → T.keys i ≠ some key) ∨
        (r < T.nb ∧ T.flags.isEmpty r = false ∧ T.keys r = some key)) := by
  intro fuel
  induction fuel with
  | zero => intro s h1 h2; omega
  | succ fuel ih =>
    intro s h1 h2 hp
    have hb := probe_lt h.pos (hash key) s
    unfold getLoop
    rw [h.flag _ hb, Res.bind_ok]
    by_cases hs : s = e
    · subst hs
      rw [he]
      exact ⟨T.nb, rfl, Or.inl ⟨rfl, h.absent he hp⟩⟩
    · have hf := hpre s (by omega)
      rw [hf]
      simp only [Bool.false_eq_true, if_false]
      rw [h.flag _ hb, Res.bind_ok, h.nodel]
      obtain ⟨k, v, e1, _⟩ := h.full _ hb hf
      simp only [Bool.false_eq_true, if_false]
      rw [h.key_ok hb e1, Res.bind_ok, Res.pure_eq, Res.bind_ok]
      by_cases hk : k = key
      · subst hk
        simp only [decide_true, if_true]
        exact ⟨_, rfl, Or.inr ⟨hb, hf, e1⟩⟩
      · simp only [hk, decide_false, Bool.false_eq_true, if_false]
        have hn : nextBucket (T.nb - 1) (probe T.nb (hash key) s) (s + 1) = probe T.nb (hash key) (s + 1) := by
          rw [h.nb]; exact probe_succ (Nat.le_trans h.hi (by omega)) _ _
        rw [hn]
        have hl : probe T.nb (hash key) (s + 1) ≠ probe T.nb (hash key) 0 := by
          rw [h.nb] at hlt ⊢
          intro hc
          have := probe_inj (by omega) (Nat.two_pow_pos m) hc
          omega
        rw [if_neg hl]
        refine ih (s + 1) (by omega) (by omega) fun t ht => ?_
        by_cases ht' : t = s
        · subst ht'; rw [e1]; intro hc; cases hc; exact hk rfl
        · exact hp t (by omega)

theorem putScan_ok (h : KInv hash T m) (key : K) {e : Nat} (he : T.flags.isEmpty (probe T.nb (hash key) e) = true) (hlt : e < T.nb)
    (hpre : ∀ t < e, T.flags.isEmpty (probe T.nb (hash key) t) = false) :
    ∀ (fuel s : Nat), s ≤ e → e < s + fuel → (∀ t < s, T.keys (probe T.nb (hash key) t) ≠ some key) →
    ∃ r, putScan T key (probe T.nb (hash key) 0) fuel (probe T.nb (hash key) s) s T.nb = .ok r ∧
      ((r = probe T.nb (hash key) e ∧ ∀ i < T.nb, T.flags.isEmpty i = false → T.keys i ≠ some key) ∨
        (r < T.nb ∧ T.flags.isEmpty r = false ∧ T.keys r = some key)) := by
  intro fuel
  induction fuel with
  | zero => intro s h1 h2; omega
  | succ fuel ih =>
    intro s h1 h2 hp
    have hb := probe_lt h.pos (hash key) s
    unfold putScan
    rw [h.flag _ hb, Res.bind_ok]
    by_cases hs : s = e
    · subst hs
      rw [he]
      exact ⟨_, by simp, Or.inl ⟨rfl, h.absent he hp⟩⟩
    · have hf := hpre s (by omega)
      rw [hf]
      simp only [Bool.false_eq_true, if_false]
      rw [h.flag _ hb, Res.bind_ok, h.nodel]
      obtain ⟨k, v, e1, _⟩ := h.full _ hb hf
      simp only [Bool.false_eq_true, if_false]
      rw [h.key_ok hb e1, Res.bind_ok, Res.pure_eq, Res.bind_ok]
      by_cases hk : k = key
      · subst hk
        simp only [decide_true, if_true]
        exact ⟨_, rfl, Or.inr ⟨hb, hf, e1⟩⟩
      · simp only [hk, decide_false, Bool.false_eq_true, if_false]
        have hn : nextBucket (T.nb - 1) (probe T.nb (hash key) s) (s + 1) = probe T.nb (hash key) (s + 1) := by
          rw [h.nb]; exact probe_succ (Nat.le_trans h.hi (by omega)) _ _
        rw [hn]
        have hl : probe T.nb (hash key) (s + 1) ≠ probe T.nb (hash key) 0 := by
          rw [h.nb] at hlt ⊢
          intro hc
          have := probe_inj (by omega) (Nat.two_pow_pos m) hc
          omega
        rw [if_neg hl]
        refine ih (s + 1) (by omega) (by omega) fun t ht => ?_
        by_cases ht' : t = s
        · subst ht'; rw [e1]; intro hc; cases hc; exact hk rfl
        · exact hp t (by omega)

theorem khGet_ok (h : KInv hash T m) (key : K) :
    ∃ r, khGet hash T key = .ok r ∧
      ((r = T.nb ∧ ∀ i < T.nb, T.flags.isEmpty i = false → T.keys i ≠ some key) ∨
        (r < T.nb ∧ T.flags.isEmpty r = false ∧ T.keys r = some key)) := by
  obtain ⟨e, h1, h2, h3⟩ := first_empty (hash key) h.free
  rw [← h.nb] at h1 h2 h3
  unfold khGet
  have := h.pos
  rw [if_neg (by omega)]
  have hz : hash key &&& (T.nb - 1) = probe T.nb (hash key) 0 := by rw [h.nb]; exact probe_zero m _
  rw [hz]
  exact h.getLoop_ok key h2 h1 h3 (T.nb + 1) 0 (by omega) (by omega) (fun t ht => by omega)

theorem lookup_ok (h : KInv hash T m) (key : K) :
    ∃ o, tableLookup hash T key = .ok o ∧ ∀ v, T.Has key v ↔ o = some v := by
  obtain ⟨r, e, hr⟩ := h.khGet_ok key
  unfold tableLookup
  rw [e, Res.bind_ok]
  rcases hr with ⟨rfl, ha⟩ | ⟨h1, h2, h3⟩
  · rw [if_pos rfl]
    refine ⟨none, rfl, fun v => ⟨?_, fun h => nomatch h⟩⟩
    rintro ⟨i, hi, hf, hk, _⟩
    exact (ha i hi hf hk).elim
  · rw [if_neg (by omega)]
    obtain ⟨k, v, e1, e2, _⟩ := h.full r h1 h2
    rw [h3] at e1; cases e1
    have hv : T.val r = .ok v := by unfold Kh.val; rw [if_pos (h.cap ▸ h1), e2]
    rw [hv, Res.bind_ok]
    refine ⟨some v, rfl, fun w => ⟨?_, ?_⟩⟩
    · rintro ⟨i, hi, hf, hk, hw⟩
      have := h.dist i hi r h1 hf h2 (hk.trans h3.symm)
      subst this
      rw [e2] at hw; exact hw
    · intro hw; cases hw
      exact ⟨r, h1, h2, h3, e2⟩

end KInv

end Urkel
