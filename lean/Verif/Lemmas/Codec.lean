import Verif.Model.Node
import Verif.Lemmas.Bits
namespace Urkel

@[simp] theorem length_leBytes (n v : Nat) : (leBytes n v).length = n := by
  induction n generalizing v with
  | zero => rfl
  | succ n ih => simp [leBytes, ih]

theorem leNat_leBytes (n v : Nat) : leNat (leBytes n v) = v % 256 ^ n := by
  induction n generalizing v with
  | zero => simp [leBytes, leNat, Nat.mod_one]
  | succ n ih =>
    simp only [leBytes, leNat, ih, UInt8.toNat_ofNat']
    rw [show (256:Nat) ^ (n + 1) = 256 * 256 ^ n from by rw [Nat.pow_succ, Nat.mul_comm], Nat.mod_mul]

theorem leNat_lt (d : Bytes) : leNat d < 256 ^ d.length := by
  induction d with
  | nil => simp [leNat]
  | cons b d ih =>
    have := b.toNat_lt
    simp only [leNat, List.length_cons, Nat.pow_succ]
    omega

theorem leBytes_leNat (d : Bytes) : leBytes d.length (leNat d) = d := by
  induction d with
  | nil => rfl
  | cons b d ih =>
    have hb := b.toNat_lt
    simp only [List.length_cons, leBytes, leNat]
    have h1 : (b.toNat + 256 * leNat d) / 256 = leNat d := by omega
    have h2 : UInt8.ofNat (b.toNat + 256 * leNat d) = b := by
      apply UInt8.toNat_inj.1
      simp only [UInt8.toNat_ofNat']
      omega
    rw [h1, h2, ih]

theorem leNat_inj {a b : Bytes} (hl : a.length = b.length) (h : leNat a = leNat b) : a = b := by
  rw [← leBytes_leNat a, ← leBytes_leNat b, hl, h]

theorem takeN_append (a b : Bytes) {n : Nat} (h : a.length = n) : takeN n (a ++ b) = .ok (a, b) := by
  subst h
  unfold takeN
  rw [if_neg (by simp), List.take_left', List.drop_left']
  all_goals rfl

theorem takeN_leBytes (n v : Nat) (b : Bytes) : takeN n (leBytes n v ++ b) = .ok (leBytes n v, b) :=
  takeN_append _ _ (by simp)

theorem take32_append (h : B32) (b : Bytes) : take32 (h.bytes ++ b) = .ok (h, b) := by
  unfold take32
  rw [dif_neg (by simp [h.len])]
  have e1 : (h.bytes ++ b).take 32 = h.bytes := by
    rw [List.take_append_of_le_length (by simp [h.len]), List.take_of_length_le (by simp [h.len])]
  have e2 : (h.bytes ++ b).drop 32 = b := by
    rw [← h.len]; simp
  rw [e2]
  congr 2
  exact B32.ext e1

theorem takeN_ok {n : Nat} {d : Bytes} (h : n ≤ d.length) : takeN n d = .ok (d.take n, d.drop n) := by
  unfold takeN; rw [if_neg (by omega)]

/-- Pointers that fit the 7-byte encoding. -/
structure PtrOk (p : Ptr) : Prop where
  index : p.index < 2 ^ 15
  pos : p.pos < 2 ^ 31
  size : p.size < 2 ^ 10

@[simp] theorem length_ptrWrite (p : Ptr) : (ptrWrite p).length = 7 := by simp [ptrWrite]

theorem shl1_or {a b : Nat} (h : b < 2) : a <<< 1 ||| b = 2 * a + b := by
  rw [Nat.shiftLeft_eq, Nat.mul_comm, ← Nat.two_pow_add_eq_or_of_lt (i := 1) (by simpa using h)]

theorem ptrRead_write {p : Ptr} (h : PtrOk p) (rest : Bytes) :
    ptrRead (ptrWrite p ++ rest) = .ok (p, rest) := by
  obtain ⟨h1, h2, h3⟩ := h
  have ehi : p.size >>> 8 >>> 1 = p.size / 512 := by
    rw [← Nat.shiftRight_add, Nat.shiftRight_eq_div_pow]
  have elo : p.size >>> 8 &&& 1 = p.size / 256 % 2 := by
    rw [Nat.and_one_is_mod, Nat.shiftRight_eq_div_pow]
  unfold ptrRead ptrWrite
  simp only [List.append_assoc, takeN_leBytes, Res.bind_ok, Res.pure_eq, ehi, elo]
  rw [shl1_or (by omega), shl1_or (by omega)]
  simp only [leNat_leBytes, Nat.and_one_is_mod, Nat.shiftRight_eq_div_pow]
  cases p with
  | mk i ps sz =>
    simp only at *
    have e1 : (2 * i + sz / 512) % 256 ^ 2 = 2 * i + sz / 512 := by
      apply Nat.mod_eq_of_lt; omega
    have e2 : (2 * ps + sz / 256 % 2) % 256 ^ 4 = 2 * ps + sz / 256 % 2 := by
      apply Nat.mod_eq_of_lt; omega
    rw [e1, e2]
    have e3 : (2 * i + sz / 512) % 2 = sz / 512 := by omega
    have e4 : (2 * ps + sz / 256 % 2) % 2 = sz / 256 % 2 := by omega
    rw [e3, e4]
    have e5 : (sz / 512) <<< 9 ||| (sz / 256 % 2) <<< 8 = 512 * (sz / 512) + 256 * (sz / 256 % 2) := by
      have : (sz / 256 % 2) <<< 8 < 2 ^ 9 := by rw [Nat.shiftLeft_eq]; omega
      rw [Nat.shiftLeft_eq, Nat.mul_comm, ← Nat.two_pow_add_eq_or_of_lt this, Nat.shiftLeft_eq]
      omega
    have e6 : (512 * (sz / 512) + 256 * (sz / 256 % 2)) ||| sz % 256 ^ 1 = sz := by
      have hlt : sz % 256 ^ 1 < 2 ^ 8 := by omega
      have e : 512 * (sz / 512) + 256 * (sz / 256 % 2) = 2 ^ 8 * (sz / 256) := by omega
      rw [e, ← Nat.two_pow_add_eq_or_of_lt hlt]
      omega
    rw [e5, e6]
    congr 3 <;> omega

theorem ptrRead_ok {d : Bytes} (h : 7 ≤ d.length) :
    ∃ p, ptrRead d = .ok (p, d.drop 7) ∧ PtrOk p := by
  unfold ptrRead
  rw [takeN_ok (by omega), Res.bind_ok]
  simp only
  rw [takeN_ok (by simp; omega), Res.bind_ok]
  simp only
  rw [takeN_ok (by simp; omega), Res.bind_ok]
  simp only [Res.pure_eq, List.drop_drop]
  refine ⟨_, rfl, ?_, ?_, ?_⟩
  · simp only [Nat.shiftRight_eq_div_pow]
    have := leNat_lt (d.take 2); simp at this
    have h2 : min 2 d.length = 2 := by omega
    rw [h2] at this; omega
  · simp only [Nat.shiftRight_eq_div_pow]
    have := leNat_lt ((d.drop 2).take 4); simp at this
    have h2 : min 4 (d.length - 2) = 4 := by omega
    rw [h2] at this; omega
  · simp only [Nat.and_one_is_mod]
    have := leNat_lt ((d.drop (2 + 4)).take 1)
    rw [List.length_take, List.length_drop, show min 1 (d.length - (2 + 4)) = 1 by omega] at this
    apply Nat.or_lt_two_pow
    · apply Nat.or_lt_two_pow
      · rw [Nat.shiftLeft_eq]; omega
      · rw [Nat.shiftLeft_eq]; omega
    · omega

theorem take32_ok {d : Bytes} (h : 32 ≤ d.length) : ∃ k, take32 d = .ok (k, d.drop 32) := by
  unfold take32; rw [dif_neg (by omega)]; exact ⟨_, rfl⟩

/-! ### Node records -/

/-- Serialized leaf. -/
def leafRec (vp : Ptr) (k : B32) : Bytes := leBytes 1 2 ++ ptrWrite vp ++ k.bytes

theorem length_leafRec (vp : Ptr) (k : B32) : (leafRec vp k).length = 40 := by
  simp [leafRec, k.len]

theorem nodeRead_leafRec {vp : Ptr} (h : PtrOk vp) (k : B32) :
    nodeRead (leafRec vp k) = .ok (some (.leaf none none k none (some vp))) := by
  unfold nodeRead
  rw [if_neg (by rw [length_leafRec]; omega)]
  unfold leafRec
  rw [List.append_assoc, takeN_leBytes, Res.bind_ok]
  simp only [leNat_leBytes]
  have e1 : ((2 % 256 ^ 1 : Nat) &&& 15 == 1) = false := by decide
  have e2 : ((2 % 256 ^ 1 : Nat) &&& 15 == 2) = true := by decide
  rw [e1, e2]
  have hl : ¬ (ptrWrite vp ++ k.bytes).length < 7 + 32 := by simp [k.len]
  simp only [Bool.false_eq_true, if_false, if_true, hl]
  rw [ptrRead_write h, Res.bind_ok]
  simp only
  have := take32_append k []
  rw [List.append_nil] at this
  rw [this]
  rfl

theorem nodeReadChildren_ok (b : Bits) {pl pr : Ptr} (hl hr : B32) (h1 : PtrOk pl) (h2 : PtrOk pr) :
    nodeReadChildren b (ptrWrite pl ++ hl.bytes ++ ptrWrite pr ++ hr.bytes) =
      .ok (some (.internal none none b (.hash hl pl) (.hash hr pr))) := by
  unfold nodeReadChildren
  rw [if_neg (by simp [hl.len, hr.len])]
  simp only [List.append_assoc]
  rw [ptrRead_write h1, Res.bind_ok]
  simp only
  rw [take32_append, Res.bind_ok]
  simp only
  rw [ptrRead_write h2, Res.bind_ok]
  simp only
  have := take32_append hr []
  rw [List.append_nil] at this
  rw [this]
  rfl

/-- Serialized internal node. -/
theorem nodeWrite_internal {b : Bits} {pre : List Bool} (hb : IsBits b pre) {l r : Node}
    {pl pr : Ptr} {hl hr : B32} (h o)
    (cl : childRef l = .ok (pl, hl)) (cr : childRef r = .ok (pr, hr))
    (okl : PtrOk pl) (okr : PtrOk pr) :
    ∃ d, nodeWrite (.internal h o b l r) = .ok d ∧
      d.length ≤ 113 ∧ 1 ≤ d.length ∧
      nodeSize (.internal h o b l r) = .ok d.length ∧
      nodeRead d = .ok (some (.internal none none b (.hash hl pl) (.hash hr pr))) := by
  have hle := hb.le
  have hsz := hb.size
  have htd := hb.take_data
  have hdata : b.data.take ((b.size + 7) / 8) ++ (List.replicate 32 (0 : UInt8)).drop ((b.size + 7) / 8)
      = b.data := by
    apply bitsOf_inj
    rw [bitsOf_append, bitsOf_take, hb.bits, List.drop_replicate, bitsOf_zeros,
      take_append_zeros _ (by omega) (by omega), List.append_assoc, List.replicate_append_replicate]
    congr 2; omega
  have hlenb : (b.data.take ((b.size + 7) / 8)).length = (b.size + 7) / 8 := by
    simp [hb.len]; omega
  simp only [nodeWrite, cl, cr, Res.bind_ok, Res.pure_eq, nodeSize]
  refine ⟨_, rfl, ?_⟩
  by_cases h0 : b.size > 255
  · have hs256 : b.size = 256 := by omega
    simp only [hs256] at hdata hlenb
    simp only [hs256]
    refine ⟨?_, ?_, ?_, ?_⟩
    · simp [hl.len, hr.len, hb.len]
    · simp [hl.len, hr.len, hb.len]
    · simp [hl.len, hr.len, hb.len]
    · unfold nodeRead
      rw [if_neg (by simp)]
      simp only [List.append_assoc]
      rw [takeN_leBytes, Res.bind_ok]
      simp only [leNat_leBytes]
      have e1 : ((((if 256 > 0 then 1 else 0) ||| if 256 > 255 then 2 else 0) <<< 4 ||| 1) % 256 ^ 1 : Nat) = 49 := by decide
      rw [e1]
      have e2 : ((49 &&& 15 : Nat) == 1) = true := by decide
      have e3 : ((49 >>> 4 &&& 1 : Nat) != 0) = true := by decide
      have e4 : ((49 >>> 4 &&& 2 : Nat) != 0) = true := by decide
      rw [e2]; simp only [if_true]; rw [e3, e4]; simp only [if_true]
      rw [if_neg (by simp)]
      rw [if_pos (by omega), List.append_assoc]
      rw [takeN_leBytes, Res.bind_ok]
      simp only [leNat_leBytes]
      have e5 : (256 % 256 ^ 2 : Nat) = 256 := by decide
      rw [e5, if_neg (by decide)]
      rw [if_neg (by simp [hb.len])]
      rw [bitsInit_ok (by omega), Res.bind_ok, takeN_append _ _ hlenb, Res.bind_ok]
      simp only
      rw [hdata]
      have hbe : b = { size := 256, data := b.data } := by cases b; simp at hs256; subst hs256; rfl
      have := nodeReadChildren_ok b hl hr okl okr
      simp only [List.append_assoc] at this
      rw [← hbe, this]
  · by_cases h1 : b.size > 0
    · simp only [h0, h1]
      refine ⟨?_, ?_, ?_, ?_⟩
      · simp [hl.len, hr.len, hb.len]; omega
      · simp [hl.len, hr.len, hb.len]
      · simp [hl.len, hr.len, hb.len]; omega
      · unfold nodeRead
        rw [if_neg (by simp)]
        simp only [List.append_assoc]
        rw [takeN_leBytes, Res.bind_ok]
        simp only [leNat_leBytes]
        have e1 : ((((if True then 1 else 0) ||| if False then 2 else 0) <<< 4 ||| 1) % 256 ^ 1 : Nat) = 17 := by decide
        rw [e1]
        have e2 : ((17 &&& 15 : Nat) == 1) = true := by decide
        have e3 : ((17 >>> 4 &&& 1 : Nat) != 0) = true := by decide
        have e4 : ((17 >>> 4 &&& 2 : Nat) != 0) = false := by decide
        rw [e2]; simp only [if_true]; rw [e3, e4]; simp only [if_true, if_false, Bool.false_eq_true]
        rw [if_neg (by simp [hl.len]; omega)]
        simp only [List.append_assoc]
        rw [takeN_leBytes, Res.bind_ok]
        simp only [leNat_leBytes]
        have e5 : (b.size % 256 ^ 1 : Nat) = b.size := by omega
        rw [e5, if_neg (by simp; omega)]
        rw [if_neg (by simp [hb.len]; omega)]
        rw [bitsInit_ok (by omega), Res.bind_ok, takeN_append _ _ hlenb, Res.bind_ok]
        simp only
        rw [hdata]
        have := nodeReadChildren_ok b hl hr okl okr
        simp only [List.append_assoc] at this
        rw [this]
    · have hs0 : b.size = 0 := by omega
      simp only [hs0] at hdata
      simp only [hs0]
      refine ⟨?_, ?_, ?_, ?_⟩
      · simp [hl.len, hr.len]
      · simp [hl.len, hr.len]
      · simp [hl.len, hr.len]
      · unfold nodeRead
        rw [if_neg (by simp)]
        simp only [List.append_assoc]
        rw [takeN_leBytes, Res.bind_ok]
        simp only [leNat_leBytes]
        have e1 : ((((if 0 > 0 then 1 else 0) ||| if 0 > 255 then 2 else 0) <<< 4 ||| 1) % 256 ^ 1 : Nat) = 1 := by decide
        rw [e1]
        have e2 : ((1 &&& 15 : Nat) == 1) = true := by decide
        have e3 : ((1 >>> 4 &&& 1 : Nat) != 0) = false := by decide
        rw [e2]; simp only [if_true]; rw [e3]; simp only [if_false, Bool.false_eq_true]
        rw [bitsInit_ok (by omega), Res.bind_ok]
        have hbe : b = { size := 0, data := List.replicate 32 0 } := by
          apply IsBits.ext hb
          have : pre = [] := List.eq_nil_of_length_eq_zero (by omega)
          subst this; exact isBits_empty
        have := nodeReadChildren_ok b hl hr okl okr
        simp only [List.append_assoc] at this
        simp only [show ¬ ((0:Nat) > 255) by omega, show ¬ ((0:Nat) > 0) by omega, if_false, List.nil_append]
        rw [← hbe, this]

end Urkel
