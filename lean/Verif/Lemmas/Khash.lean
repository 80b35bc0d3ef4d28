import Verif.Model.Khash
import Mathlib.Tactic.Ring
import Mathlib.Tactic.ByContra
import Mathlib.Data.Nat.ModEq
import Mathlib.Data.Fintype.EquivFin
import Mathlib.Algebra.Order.Ring.Nat
import Mathlib.Data.Nat.Prime.Basic
import Mathlib.Algebra.Ring.Parity
/-
The hash table is a map.
-/
namespace Urkel

/-! ### Flags -/

theorem flagShift_eq (i : Nat) : flagShift i = 2 * (i % 16) := by
  unfold flagShift
  rw [show (15 : Nat) = 2 ^ 4 - 1 from rfl, Nat.and_two_pow_sub_one_eq_mod, Nat.shiftLeft_eq]
  omega

theorem flagShift_le (i : Nat) : flagShift i ≤ 30 := by rw [flagShift_eq]; omega

theorem bit_ne_zero (w : BitVec 32) (b : Nat) (hb : b < 32) : (w &&& (1#32 <<< b) != 0#32) = w.getLsbD b := by
  cases h : w.getLsbD b with
  | true =>
    rw [bne_iff_ne]
    intro h0
    have := congrArg (fun x => x.getLsbD b) h0
    have h1 : (1#32 <<< b).getLsbD b = true := by simp [hb]
    rw [BitVec.getLsbD_and, h, h1] at this
    simp at this
  | false =>
    rw [bne_eq_false_iff_eq]
    ext j hj
    simp only [BitVec.getElem_and, BitVec.getElem_zero]
    rw [← BitVec.getLsbD_eq_getElem, ← BitVec.getLsbD_eq_getElem]
    by_cases e : j = b
    · subst e; simp [h]
    · have : (1#32 <<< b).getLsbD j = false := by
        simp only [BitVec.getLsbD_shiftLeft, BitVec.getLsbD_one]
        by_cases hlt : j < b
        · simp [hlt]
        · have : j - b ≠ 0 := by omega
          simp [this]
      simp [this]

theorem isEmpty_eq (f : KFlags) (i : Nat) : f.isEmpty i = (f.word (i >>> 4)).getLsbD (flagShift i + 1) := by
  unfold KFlags.isEmpty
  rw [show (2#32) = 1#32 <<< 1 from rfl, bit_ne_zero _ 1 (by omega), BitVec.getLsbD_ushiftRight]

theorem isDel_eq (f : KFlags) (i : Nat) : f.isDel i = (f.word (i >>> 4)).getLsbD (flagShift i) := by
  unfold KFlags.isDel
  rw [show (1#32) = 1#32 <<< 0 from rfl, bit_ne_zero _ 0 (by omega), BitVec.getLsbD_ushiftRight]
  rfl

/-- Different buckets with the same word have different bits. -/
theorem bucket_inj {i j : Nat} (h : i >>> 4 = j >>> 4) (hs : i % 16 = j % 16) : i = j := by
  rw [Nat.shiftRight_eq_div_pow, Nat.shiftRight_eq_div_pow] at h
  omega

theorem shl_lsb (m : BitVec 32) (hm : m.toNat < 4) (s b : Nat) (hb : b < 32) (h : b < s ∨ s + 2 ≤ b) : (m <<< s).getLsbD b = false := by
  rw [BitVec.getLsbD_shiftLeft]
  rcases h with h | h
  · simp [h]
  · have : m.getLsbD (b - s) = false := by
      apply Nat.testBit_lt_two_pow
      calc m.toNat < 2 ^ 2 := hm
        _ ≤ 2 ^ (b - s) := Nat.pow_le_pow_right (by omega) (by omega)
    simp [this]

theorem shl_lsb_in (m : BitVec 32) (s t : Nat) (hb : s + t < 32) : (m <<< s).getLsbD (s + t) = m.getLsbD t := by
  rw [BitVec.getLsbD_shiftLeft]
  simp [hb]

theorem clearBits_empty (f : KFlags) (m : BitVec 32) (hm : m.toNat < 4) (h2 : m.getLsbD 1 = true) (i j : Nat) :
    (f.clearBits m i).isEmpty j = if j = i then false else f.isEmpty j := by
  rw [isEmpty_eq, isEmpty_eq]
  have hs := flagShift_eq i; have hs' := flagShift_eq j
  by_cases e : j = i
  · subst e
    have := shl_lsb_in m (flagShift j) 1 (by omega)
    simp [KFlags.clearBits, this, h2]
  · rw [if_neg e]
    unfold KFlags.clearBits
    dsimp only
    split
    · next hw =>
      have : i % 16 ≠ j % 16 := fun h => e (bucket_inj hw.symm h).symm
      have := shl_lsb m hm (flagShift i) (flagShift j + 1) (by omega) (by omega)
      have hj : flagShift j + 1 < 32 := by omega
      rw [BitVec.getLsbD_and, BitVec.getLsbD_not, this]; simp [hj]
    · rfl

theorem clearBits_del (f : KFlags) (m : BitVec 32) (hm : m.toNat < 4) (i j : Nat) :
    (f.clearBits m i).isDel j = if j = i then f.isDel j && !m.getLsbD 0 else f.isDel j := by
  rw [isDel_eq, isDel_eq]
  have hs := flagShift_eq i; have hs' := flagShift_eq j
  by_cases e : j = i
  · subst e
    have := shl_lsb_in m (flagShift j) 0 (by omega)
    have hj : flagShift j < 32 := by omega
    simp only [Nat.add_zero] at this
    simp [KFlags.clearBits, this, hj]
  · rw [if_neg e]
    unfold KFlags.clearBits
    dsimp only
    split
    · next hw =>
      have : i % 16 ≠ j % 16 := fun h => e (bucket_inj hw.symm h).symm
      have := shl_lsb m hm (flagShift i) (flagShift j) (by omega) (by omega)
      have hj : flagShift j < 32 := by omega
      rw [BitVec.getLsbD_and, BitVec.getLsbD_not, this]; simp [hj]
    · rfl

theorem setDel_empty (f : KFlags) (i j : Nat) : (f.setBits 1#32 i).isEmpty j = f.isEmpty j := by
  rw [isEmpty_eq, isEmpty_eq]
  have hs := flagShift_eq i; have hs' := flagShift_eq j
  unfold KFlags.setBits
  dsimp only
  split
  · next hw =>
    have : (1#32 <<< flagShift i).getLsbD (flagShift j + 1) = false := by
      by_cases e : j = i
      · subst e; rw [shl_lsb_in _ _ 1 (by omega)]; decide
      · have : i % 16 ≠ j % 16 := fun h => e (bucket_inj hw.symm h).symm
        exact shl_lsb _ (by decide) _ _ (by omega) (by omega)
    rw [BitVec.getLsbD_or, this, Bool.or_false]
  · rfl

theorem setDel_del (f : KFlags) (i j : Nat) : (f.setBits 1#32 i).isDel j = if j = i then true else f.isDel j := by
  rw [isDel_eq, isDel_eq]
  have hs := flagShift_eq i; have hs' := flagShift_eq j
  by_cases e : j = i
  · subst e
    have := shl_lsb_in 1#32 (flagShift j) 0 (by omega)
    rw [if_pos rfl]
    unfold KFlags.setBits
    dsimp only
    rw [if_pos rfl, BitVec.getLsbD_or]
    rw [Nat.add_zero] at this
    rw [this]
    simp
  · rw [if_neg e]
    unfold KFlags.setBits
    dsimp only
    split
    · next hw =>
      have : i % 16 ≠ j % 16 := fun h => e (bucket_inj hw.symm h).symm
      have := shl_lsb 1#32 (by decide) (flagShift i) (flagShift j) (by omega) (by omega)
      rw [BitVec.getLsbD_or, this, Bool.or_false]
    · rfl

theorem fresh_empty (n i : Nat) : (KFlags.fresh n).isEmpty i = true ∧ (KFlags.fresh n).isDel i = false := by
  rw [isEmpty_eq, isDel_eq]
  have hs := flagShift_eq i
  have : i % 16 < 16 := Nat.mod_lt _ (by omega)
  rw [hs]
  clear hs
  generalize i % 16 = r at *
  constructor
  · show (0xaaaaaaaa#32).getLsbD (2 * r + 1) = true
    revert this; revert r; decide
  · show (0xaaaaaaaa#32).getLsbD (2 * r) = false
    revert this; revert r; decide

theorem at_ok {f : KFlags} {n i : Nat} {α : Type} (x : α) (hl : f.len = fsize n) (hn : n < 16 ∨ n % 16 = 0) (hi : i < n) : f.at i x = .ok x := by
  unfold KFlags.at
  refine if_pos ?_
  rw [hl]
  unfold fsize
  rw [Nat.shiftRight_eq_div_pow, Nat.shiftRight_eq_div_pow]
  split <;> omega

/-! ### The sequence of buckets tried for a key -/

/-- The bucket tried after `s` steps. -/
def probe (n h s : Nat) : Nat := (h + s * (s + 1) / 2) % n

theorem tri_succ (s : Nat) : (s + 1) * (s + 2) / 2 = s * (s + 1) / 2 + (s + 1) := by
  have : (s + 1) * (s + 2) = s * (s + 1) + (s + 1) * 2 := by ring
  rw [this, Nat.add_mul_div_right _ _ (by omega)]

theorem tri_two (s : Nat) : s * (s + 1) / 2 * 2 = s * (s + 1) := by
  have : s * (s + 1) % 2 = 0 := by
    rcases Nat.mod_two_eq_zero_or_one s with h | h
    · rw [Nat.mul_mod, h]; simp
    · rw [Nat.mul_mod, Nat.add_mod, h]
  omega

theorem mask_eq {m : Nat} (hm : m ≤ 32) (x : Nat) : u32 x &&& (2 ^ m - 1) = x % 2 ^ m := by
  rw [Nat.and_two_pow_sub_one_eq_mod]
  exact Nat.mod_mod_of_dvd x (Nat.pow_dvd_pow 2 hm)

theorem probe_succ {m : Nat} (hm : m ≤ 32) (h s : Nat) :
    nextBucket (2 ^ m - 1) (probe (2 ^ m) h s) (s + 1) = probe (2 ^ m) h (s + 1) := by
  unfold nextBucket probe
  rw [mask_eq hm, Nat.mod_add_mod, tri_succ, Nat.add_assoc]

theorem probe_zero (m h : Nat) : h &&& (2 ^ m - 1) = probe (2 ^ m) h 0 := by
  rw [Nat.and_two_pow_sub_one_eq_mod]; simp [probe]

theorem probe_lt {n : Nat} (hn : 0 < n) (h s : Nat) : probe n h s < n := Nat.mod_lt _ hn

theorem probe_inj_le {m h s t : Nat} (hst : s ≤ t) (ht : t < 2 ^ m) (e : probe (2 ^ m) h s = probe (2 ^ m) h t) : s = t := by
  unfold probe at e
  have h1 : 2 ^ m ∣ (h + t * (t + 1) / 2) - (h + s * (s + 1) / 2) := (Nat.modEq_iff_dvd' ?_).1 e
  swap
  · have : s * (s + 1) ≤ t * (t + 1) := Nat.mul_le_mul hst (by omega)
    have := tri_two s; have := tri_two t
    omega
  obtain ⟨a, rfl⟩ := Nat.exists_eq_add_of_le hst
  have h2 : ((h + (s + a) * (s + a + 1) / 2) - (h + s * (s + 1) / 2)) * 2 = a * (2 * s + a + 1) := by
    have e1 := tri_two s; have e2 := tri_two (s + a)
    have e3 : (s + a) * (s + a + 1) = s * (s + 1) + a * (2 * s + a + 1) := by ring
    omega
  have h3 : 2 ^ (m + 1) ∣ a * (2 * s + a + 1) := by
    rw [← h2, Nat.pow_succ]
    exact Nat.mul_dvd_mul_right h1 2
  rcases Nat.mod_two_eq_zero_or_one a with ha | ha
  · -- the second factor is odd
    have hc : Nat.Coprime (2 ^ (m + 1)) (2 * s + a + 1) := by
      apply Nat.Coprime.pow_left
      rw [Nat.coprime_two_left, Nat.odd_iff]
      omega
    have hd := hc.dvd_of_dvd_mul_right h3
    rcases Nat.eq_zero_or_pos a with h0 | h0
    · omega
    · have := Nat.le_of_dvd h0 hd
      rw [Nat.pow_succ] at this
      omega
  · have hc : Nat.Coprime (2 ^ (m + 1)) a := by
      apply Nat.Coprime.pow_left
      rw [Nat.coprime_two_left, Nat.odd_iff]
      exact ha
    have hd := hc.dvd_of_dvd_mul_left h3
    have := Nat.le_of_dvd (by omega) hd
    rw [Nat.pow_succ] at this
    omega

theorem probe_inj {m h s t : Nat} (hs : s < 2 ^ m) (ht : t < 2 ^ m) (e : probe (2 ^ m) h s = probe (2 ^ m) h t) : s = t := by
  rcases Nat.le_total s t with h' | h'
  · exact probe_inj_le h' ht e
  · exact (probe_inj_le h' hs e.symm).symm

/-- Every bucket is tried. -/
theorem probe_surj (m h : Nat) {i : Nat} (hi : i < 2 ^ m) : ∃ s < 2 ^ m, probe (2 ^ m) h s = i := by
  have hinj : Function.Injective (fun s : Fin (2 ^ m) => (⟨probe (2 ^ m) h s, probe_lt (Nat.two_pow_pos m) h s⟩ : Fin (2 ^ m))) := by
    intro a b e
    exact Fin.ext (probe_inj a.2 b.2 (congrArg Fin.val e))
  obtain ⟨s, hs⟩ := Finite.surjective_of_injective hinj ⟨i, hi⟩
  exact ⟨s, s.2, congrArg Fin.val hs⟩

/-- The first free bucket. -/
theorem first_empty {m : Nat} (h : Nat) {E : Nat → Bool} (he : ∃ i < 2 ^ m, E i = true) :
    ∃ s < 2 ^ m, E (probe (2 ^ m) h s) = true ∧ ∀ t < s, E (probe (2 ^ m) h t) = false := by
  have hex : ∃ s, s < 2 ^ m ∧ E (probe (2 ^ m) h s) = true := by
    obtain ⟨i, hi, hE⟩ := he
    obtain ⟨s, hs, e⟩ := probe_surj m h hi
    exact ⟨s, hs, e ▸ hE⟩
  refine ⟨Nat.find hex, (Nat.find_spec hex).1, (Nat.find_spec hex).2, fun t ht => ?_⟩
  have := Nat.find_min hex ht
  have hlt := (Nat.find_spec hex).1
  by_contra hc
  exact this ⟨by omega, by simpa using hc⟩

end Urkel
