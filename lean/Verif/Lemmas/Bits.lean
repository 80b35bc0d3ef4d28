import Verif.Model.Bits
import Verif.Spec.BitSeq
namespace Urkel

theorem byteBit_eq (x : UInt8) (i : Nat) : byteBit x i = x.toNat.testBit (7 - i % 8) := by
  unfold byteBit
  rw [Nat.testBit_eq_decide_div_mod_eq, Nat.shiftRight_eq_div_pow, Nat.and_one_is_mod]
  exact Bool.eq_iff_iff.2 (by simp)

@[simp] theorem length_byteBits (x : UInt8) : (byteBits x).length = 8 := rfl

theorem byteBits_getElem? (x : UInt8) (i : Nat) (h : i < 8) :
    (byteBits x)[i]? = some (byteBit x i) := by
  rw [byteBit_eq]
  match i, h with
  | 0, _ => rfl
  | 1, _ => rfl
  | 2, _ => rfl
  | 3, _ => rfl
  | 4, _ => rfl
  | 5, _ => rfl
  | 6, _ => rfl
  | 7, _ => rfl

theorem bitsOf_cons (x : UInt8) (d : Bytes) : bitsOf (x :: d) = byteBits x ++ bitsOf d := by
  simp [bitsOf]

@[simp] theorem bitsOf_nil : bitsOf [] = [] := rfl

@[simp] theorem bitsOf_append (a b : Bytes) : bitsOf (a ++ b) = bitsOf a ++ bitsOf b := by
  simp [bitsOf]

@[simp] theorem length_bitsOf (d : Bytes) : (bitsOf d).length = 8 * d.length := by
  induction d with
  | nil => rfl
  | cons x d ih => rw [bitsOf_cons]; simp [ih]; omega

@[simp] theorem B32.length_bits (k : B32) : k.bits.length = 256 := by
  simp [B32.bits, k.len]

theorem byteBit_mod (x : UInt8) (i : Nat) : byteBit x (i % 8) = byteBit x i := by
  simp [byteBit]

theorem bitsOf_getElem? (d : Bytes) (i : Nat) :
    (bitsOf d)[i]? = (d[i / 8]?).map (byteBit · i) := by
  induction d generalizing i with
  | nil => simp
  | cons x d ih =>
    rw [bitsOf_cons]
    by_cases h : i < 8
    · rw [List.getElem?_append_left (by simpa using h), byteBits_getElem? x i h]
      have : i / 8 = 0 := by omega
      simp [this]
    · rw [List.getElem?_append_right (by simp; omega), ih]
      have h1 : i / 8 = (i - 8) / 8 + 1 := by omega
      simp only [length_byteBits, h1, List.getElem?_cons_succ]
      congr 1
      funext y
      rw [← byteBit_mod, ← byteBit_mod y i]
      congr 1; omega

theorem getBit_eq (d : Bytes) (i : Nat) :
    getBit d i = match (bitsOf d)[i]? with | some b => .ok b | none => .ub := by
  unfold getBit
  rw [bitsOf_getElem?]
  cases d[i / 8]? <;> rfl

theorem getBit_ok {d : Bytes} {i : Nat} (h : i < 8 * d.length) :
    getBit d i = .ok ((bitsOf d)[i]'(by simpa using h)) := by
  rw [getBit_eq, List.getElem?_eq_getElem (by simpa using h)]

theorem uint8_ext {x y : UInt8} (h : ∀ i, i < 8 → x.toNat.testBit i = y.toNat.testBit i) : x = y := by
  apply UInt8.toNat_inj.1
  apply Nat.eq_of_testBit_eq
  intro i
  by_cases hi : i < 8
  · exact h i hi
  · rw [Nat.testBit_lt_two_pow, Nat.testBit_lt_two_pow]
    · exact Nat.lt_of_lt_of_le y.toNat_lt (Nat.pow_le_pow_right (by omega) (by omega : 8 ≤ i))
    · exact Nat.lt_of_lt_of_le x.toNat_lt (Nat.pow_le_pow_right (by omega) (by omega : 8 ≤ i))

theorem byteBits_inj {x y : UInt8} (h : byteBits x = byteBits y) : x = y := by
  simp only [byteBits, List.cons.injEq, and_true] at h
  obtain ⟨h7, h6, h5, h4, h3, h2, h1, h0⟩ := h
  apply uint8_ext
  intro i hi
  match i, hi with
  | 0, _ => exact h0
  | 1, _ => exact h1
  | 2, _ => exact h2
  | 3, _ => exact h3
  | 4, _ => exact h4
  | 5, _ => exact h5
  | 6, _ => exact h6
  | 7, _ => exact h7

theorem bitsOf_inj {a b : Bytes} (h : bitsOf a = bitsOf b) : a = b := by
  induction a generalizing b with
  | nil =>
    cases b with
    | nil => rfl
    | cons y b => rw [bitsOf_cons] at h; simp [byteBits] at h
  | cons x a ih =>
    cases b with
    | nil => rw [bitsOf_cons] at h; simp [byteBits] at h
    | cons y b =>
      rw [bitsOf_cons, bitsOf_cons] at h
      obtain ⟨h1, h2⟩ := List.append_inj h (by simp)
      rw [byteBits_inj h1, ih h2]

theorem B32.bits_inj {a b : B32} (h : a.bits = b.bits) : a = b :=
  B32.ext (bitsOf_inj h)

/-! ### setBit -/

theorem setBit_ok {d : Bytes} {i : Nat} (v : Bool) (h : (bitsOf d)[i]? = some false) :
    ∃ d', setBit d i v = .ok d' ∧ d'.length = d.length ∧ bitsOf d' = (bitsOf d).set i v := by
  have hi : i < 8 * d.length := by
    have := (List.getElem?_eq_some_iff.1 h).1; simpa using this
  have hi8 : i / 8 < d.length := by omega
  unfold setBit
  rw [bitsOf_getElem?] at h
  rw [List.getElem?_eq_getElem hi8] at h ⊢
  refine ⟨_, rfl, by simp, ?_⟩
  apply List.ext_getElem?
  intro j
  rw [bitsOf_getElem?]
  simp only [Option.map_some, Option.some.injEq] at h
  rw [byteBit_eq] at h
  by_cases hji : i / 8 = j / 8
  · rw [← hji, List.getElem?_set_self hi8]
    simp only [Option.map_some]
    rw [byteBit_eq]
    have hlt : (7 - j % 8) < 8 := by omega
    simp only [UInt8.toNat_ofNat', Nat.testBit_mod_two_pow, hlt, decide_true, Bool.true_and,
      Nat.testBit_or, Nat.testBit_shiftLeft]
    by_cases hj : i = j
    · subst hj
      rw [List.getElem?_set_self (by simpa using hi), h]
      cases v <;> simp
    · rw [List.getElem?_set_ne hj, bitsOf_getElem?, ← hji, List.getElem?_eq_getElem hi8]
      simp only [Option.map_some, byteBit_eq]
      congr 1
      cases v with
      | false => simp
      | true =>
        simp only [if_true]
        have hne : 7 - i % 8 ≠ 7 - j % 8 := by omega
        by_cases hge : 7 - j % 8 ≥ 7 - i % 8
        · have : Nat.testBit 1 (7 - j % 8 - (7 - i % 8)) = false := 
            Bool.eq_false_iff.2 (fun hh => by
              have := Nat.testBit_one_eq_true_iff_self_eq_zero.1 hh; omega)
          simp [this]
        · simp [hge]
  · have hj : i ≠ j := fun e => hji (by rw [e])
    rw [List.getElem?_set_ne hji, List.getElem?_set_ne hj, bitsOf_getElem?]

/-! ### Representation of bit strings -/

/-- `b` holds the bit string `l`, zero padded to 256 bits. -/
structure IsBits (b : Bits) (l : List Bool) : Prop where
  size : b.size = l.length
  le : l.length ≤ 256
  len : b.data.length = 32
  bits : bitsOf b.data = l ++ List.replicate (256 - l.length) false

theorem IsBits.ext {b c : Bits} {l : List Bool} (hb : IsBits b l) (hc : IsBits c l) : b = c := by
  cases b; cases c
  have h1 := hb.size; have h2 := hc.size
  have h3 := bitsOf_inj (hb.bits.trans hc.bits.symm)
  simp at h1 h2 h3
  subst h1 h2 h3; rfl

theorem IsBits.inj {b : Bits} {l m : List Bool} (hb : IsBits b l) (hc : IsBits b m) : l = m := by
  have h := hb.bits.symm.trans hc.bits
  exact (List.append_inj h (hb.size.symm.trans hc.size)).1

theorem bitsOf_zeros (n : Nat) : bitsOf (List.replicate n 0) = List.replicate (8 * n) false := by
  induction n with
  | zero => rfl
  | succ n ih =>
    rw [List.replicate_succ, bitsOf_cons, ih]
    have : byteBits 0 = List.replicate 8 false := by decide
    rw [this, List.replicate_append_replicate]
    congr 1; omega

/-- The first `l.length` bits of `b` are `l` (no condition on the padding bits). -/
structure HasBits (b : Bits) (l : List Bool) : Prop where
  size : b.size = l.length
  le : l.length ≤ 256
  len : b.data.length = 32
  bits : l <+: bitsOf b.data

theorem IsBits.has {b : Bits} {l : List Bool} (h : IsBits b l) : HasBits b l :=
  ⟨h.size, h.le, h.len, by rw [h.bits]; exact List.prefix_append _ _⟩

theorem hasBits_of {b : Bits} (hs : b.size ≤ 256) (hl : b.data.length = 32) :
    HasBits b ((bitsOf b.data).take b.size) :=
  ⟨by simp [hl]; omega, by simp [hl]; omega, hl, List.take_prefix _ _⟩

theorem bitsGet_ok {b : Bits} {l : List Bool} (hb : HasBits b l) {i : Nat} (hi : i < l.length) :
    bitsGet b i = .ok l[i] := by
  have hle := hb.le
  have h256 : i < keyBits := by unfold keyBits; omega
  simp only [bitsGet, h256, decide_true, check_true, Res.bind_ok]
  obtain ⟨t, ht⟩ := hb.bits
  rw [getBit_eq, ← ht, List.getElem?_append_left hi, List.getElem?_eq_getElem hi]

theorem B32.getBit_ok (k : B32) {i : Nat} (hi : i < 256) :
    getBit k.bytes i = .ok (k.bits[i]'(by simpa using hi)) := by
  rw [getBit_eq]
  have : (bitsOf k.bytes)[i]? = some (k.bits[i]'(by simpa using hi)) :=
    List.getElem?_eq_getElem (by rw [length_bitsOf, k.len]; omega)
  rw [this]

theorem B32.isBits (k : B32) : IsBits ⟨256, k.bytes⟩ k.bits :=
  ⟨by simp, by simp, k.len, by simp [B32.bits, k.len]⟩

/-! ### count -/

@[simp] theorem lcp_nil_left (l : List Bool) : lcp [] l = 0 := by cases l <;> rfl
@[simp] theorem lcp_nil_right (l : List Bool) : lcp l [] = 0 := by cases l <;> rfl
theorem lcp_cons (a b : Bool) (l m : List Bool) :
    lcp (a :: l) (b :: m) = if a = b then lcp l m + 1 else 0 := rfl

theorem lcp_le_left (l m : List Bool) : lcp l m ≤ l.length := by
  induction l generalizing m with
  | nil => simp
  | cons a l ih => cases m with
    | nil => simp
    | cons b m => rw [lcp_cons]; have := ih m; split <;> simp <;> omega

theorem lcp_le_right (l m : List Bool) : lcp l m ≤ m.length := by
  induction l generalizing m with
  | nil => simp
  | cons a l ih => cases m with
    | nil => simp
    | cons b m => rw [lcp_cons]; have := ih m; split <;> simp <;> omega

theorem lcp_take (l m : List Bool) : l.take (lcp l m) = m.take (lcp l m) := by
  induction l generalizing m with
  | nil => simp
  | cons a l ih => cases m with
    | nil => simp
    | cons b m =>
      rw [lcp_cons]; split
      · next h => subst h; simp [ih m]
      · simp

theorem lcp_ne {l m : List Bool} (h1 : lcp l m < l.length) (h2 : lcp l m < m.length) :
    l[lcp l m] = !m[lcp l m] := by
  induction l generalizing m with
  | nil => simp at h1
  | cons a l ih => cases m with
    | nil => simp at h2
    | cons b m =>
      by_cases hab : a = b
      · have e : lcp (a :: l) (b :: m) = lcp l m + 1 := by rw [lcp_cons]; simp [hab]
        simp only [e, List.length_cons] at h1 h2 ⊢
        simpa using ih (by omega) (by omega)
      · have e : lcp (a :: l) (b :: m) = 0 := by rw [lcp_cons]; simp [hab]
        simp only [e]
        cases a <;> cases b <;> simp_all

theorem lcp_eq_left_iff {l m : List Bool} : lcp l m = l.length ↔ l <+: m := by
  constructor
  · intro h
    have := lcp_take l m
    rw [h, List.take_length] at this
    rw [this]; exact List.take_prefix _ _
  · rintro ⟨t, rfl⟩
    induction l with
    | nil => simp
    | cons a l ih => simp [lcp_cons, ih]

theorem bitsCountLoop_ok {b : Bits} {l : List Bool} (hb : HasBits b l) (k : B32)
    (len index depth count : Nat) (hidx : index ≤ l.length) (hd : depth ≤ 256)
    (hlen : len = min (l.length - index) (256 - depth)) :
    bitsCountLoop b k.bytes len index depth count =
      .ok (count + lcp (l.drop index) (k.bits.drop depth)) := by
  induction len generalizing index depth count with
  | zero =>
    have : lcp (l.drop index) (k.bits.drop depth) = 0 := by
      have h1 := lcp_le_left (l.drop index) (k.bits.drop depth)
      have h2 := lcp_le_right (l.drop index) (k.bits.drop depth)
      simp at h1 h2; omega
    simp [bitsCountLoop, this]
  | succ len ih =>
    have hi : index < l.length := by omega
    have hd' : depth < 256 := by omega
    unfold bitsCountLoop
    rw [bitsGet_ok hb hi, k.getBit_ok hd']
    simp only [Res.bind_ok]
    rw [List.drop_eq_getElem_cons hi, List.drop_eq_getElem_cons (show depth < k.bits.length by simpa using hd')]
    rw [lcp_cons]
    by_cases he : l[index] = k.bits[depth]'(by simpa using hd')
    · simp only [he, bne_self_eq_false, Bool.false_eq_true, if_false, if_true]
      rw [ih (index + 1) (depth + 1) (count + 1) (by omega) (by omega) (by omega)]
      congr 1; omega
    · simp [he]

theorem bitsCountAt_ok {b : Bits} {l : List Bool} (hb : HasBits b l) (k : B32)
    {index depth : Nat} (hidx : index ≤ l.length) (hd : depth ≤ 256) :
    bitsCountAt b index k.bytes depth = .ok (lcp (l.drop index) (k.bits.drop depth)) := by
  have hle := hb.le
  have hs := hb.size
  unfold bitsCountAt
  have c1 : b.size ≤ keyBits := by unfold keyBits; omega
  have c2 : index ≤ b.size := by omega
  have c3 : depth ≤ keyBits := hd
  simp only [c1, c2, c3, decide_true, check_true, Res.bind_ok]
  rw [bitsCountLoop_ok hb k _ _ _ _ hidx hd (by rw [hs]; rfl)]
  simp

theorem bitsCount_ok {b : Bits} {l : List Bool} (hb : HasBits b l) (k : B32)
    {depth : Nat} (hd : depth ≤ 256) :
    bitsCount b k.bytes depth = .ok (lcp l (k.bits.drop depth)) := by
  unfold bitsCount
  rw [bitsCountAt_ok hb k (by omega) hd]; simp

theorem bitsHas_ok {b : Bits} {l : List Bool} (hb : HasBits b l) (k : B32)
    {depth : Nat} (hd : depth ≤ 256) :
    bitsHas b k.bytes depth = .ok (l.isPrefixOf (k.bits.drop depth)) := by
  unfold bitsHas
  rw [bitsCount_ok hb k hd]
  simp only [Res.bind_ok, Res.pure_eq, hb.size]
  congr 1
  rw [Bool.eq_iff_iff]
  simp [lcp_eq_left_iff]

/-! ### init, slice, split, collide, join -/

theorem bitsInit_ok {n : Nat} (h : n ≤ 256) : bitsInit n = .ok ⟨n, List.replicate 32 0⟩ := by
  have c1 : n ≤ keyBits := h
  simp [bitsInit, c1]

theorem isBits_empty : IsBits ⟨0, List.replicate 32 0⟩ [] :=
  ⟨rfl, by simp, by simp, by rw [bitsOf_zeros]; rfl⟩

theorem set_append_zeros (pre : List Bool) (n : Nat) (v : Bool) (h : 0 < n) :
    (pre ++ List.replicate n false).set pre.length v = (pre ++ [v]) ++ List.replicate (n - 1) false := by
  obtain ⟨m, rfl⟩ : ∃ m, n = m + 1 := ⟨n - 1, by omega⟩
  rw [List.replicate_succ, List.set_append_right _ _ (by omega)]
  simp

theorem bitsSet_ok {o : Bits} {pre : List Bool} {n : Nat} (v : Bool)
    (hlen : o.data.length = 32) (hp : pre.length < 256) (hn : n = 256 - pre.length)
    (hbits : bitsOf o.data = pre ++ List.replicate n false) :
    ∃ o', bitsSet o pre.length v = .ok o' ∧ o'.size = o.size ∧ o'.data.length = 32 ∧
      bitsOf o'.data = (pre ++ [v]) ++ List.replicate (n - 1) false := by
  have hf : (bitsOf o.data)[pre.length]? = some false := by
    rw [hbits, List.getElem?_append_right (by omega)]
    simp only [Nat.sub_self, List.getElem?_replicate]
    rw [if_pos (by omega)]
  obtain ⟨d', h1, h2, h3⟩ := setBit_ok v hf
  refine ⟨{ o with data := d' }, ?_, rfl, by simpa [hlen] using h2, ?_⟩
  · have c1 : pre.length < keyBits := hp
    simp [bitsSet, c1, h1]
  · simp only [h3, hbits]
    rw [set_append_zeros _ _ _ (by omega)]

theorem bitsCopyLoop_ok {src : Bits} {l : List Bool} (hs : IsBits src l) (n j : Nat)
    (out : Bits) (pre : List Bool) (hj : j + n ≤ l.length) (hpn : pre.length + n ≤ 256)
    (hlen : out.data.length = 32)
    (hbits : bitsOf out.data = pre ++ List.replicate (256 - pre.length) false) :
    ∃ o', bitsCopyLoop src n pre.length j out = .ok o' ∧ o'.size = out.size ∧ o'.data.length = 32 ∧
      bitsOf o'.data = (pre ++ (l.drop j).take n) ++ List.replicate (256 - (pre.length + n)) false := by
  induction n generalizing j out pre with
  | zero => exact ⟨out, rfl, rfl, hlen, by simpa using hbits⟩
  | succ n ih =>
    have hjl : j < l.length := by omega
    obtain ⟨o1, h1, h2, h3, h4⟩ := bitsSet_ok (l[j]) hlen (by omega) rfl hbits
    obtain ⟨o', g1, g2, g3, g4⟩ := ih (j + 1) o1 (pre ++ [l[j]]) (by omega) (by simp; omega) h3
      (by simpa [Nat.sub_sub] using h4)
    refine ⟨o', ?_, by omega, g3, ?_⟩
    · unfold bitsCopyLoop
      rw [bitsGet_ok hs.has hjl]
      simp only [Res.bind_ok, h1]
      simpa using g1
    · rw [g4, List.drop_eq_getElem_cons hjl, List.take_succ_cons]
      simp [Nat.add_assoc, Nat.add_comm 1 n]

theorem bitsSlice_ok {b : Bits} {l : List Bool} (hb : IsBits b l) {s e : Nat}
    (hse : s ≤ e) (he : e ≤ l.length) :
    ∃ o, bitsSlice b s e = .ok o ∧ IsBits o ((l.drop s).take (e - s)) := by
  have hle := hb.le
  unfold bitsSlice
  rw [bitsInit_ok (by omega)]
  simp only [hse, decide_true, check_true, Res.bind_ok]
  obtain ⟨o', g1, g2, g3, g4⟩ := bitsCopyLoop_ok hb (e - s) s ⟨e - s, List.replicate 32 0⟩ []
    (by omega) (by simp; omega) (by simp) (by rw [bitsOf_zeros]; rfl)
  refine ⟨o', g1, ?_, ?_, g3, ?_⟩
  · rw [g2]; simp; omega
  · simp; omega
  · rw [g4]
    simp only [List.nil_append, List.length_nil, Nat.zero_add, List.length_take, List.length_drop]
    congr 2; omega

theorem bitsSplit_ok {b : Bits} {l : List Bool} (hb : IsBits b l) {i : Nat} (hi : i < l.length) :
    ∃ f k, bitsSplit b i = .ok (f, k) ∧ IsBits f (l.take i) ∧ IsBits k (l.drop (i + 1)) := by
  obtain ⟨f, h1, h2⟩ := bitsSlice_ok hb (Nat.zero_le i) (by omega)
  obtain ⟨k, h3, h4⟩ := bitsSlice_ok hb (s := i + 1) (e := l.length) (by omega) (by omega)
  refine ⟨f, k, ?_, by simpa using h2, ?_⟩
  · unfold bitsSplit; rw [h1, hb.size]; simp [h3]
  · rwa [List.take_of_length_le (by simp)] at h4

theorem bitsCollide_ok {b : Bits} {l : List Bool} (hb : IsBits b l) (k : B32) {d : Nat}
    (hd : d ≤ l.length) :
    ∃ o, bitsCollide b k.bytes d = .ok o ∧
      IsBits o ((l.drop d).take (lcp (l.drop d) (k.bits.drop d))) := by
  have hle := hb.le
  have h := lcp_le_left (l.drop d) (k.bits.drop d)
  simp at h
  obtain ⟨o, h1, h2⟩ := bitsSlice_ok hb (s := d) (e := d + lcp (l.drop d) (k.bits.drop d))
    (by omega) (by omega)
  refine ⟨o, ?_, by simpa using h2⟩
  unfold bitsCollide
  rw [bitsCountAt_ok hb.has k hd (by omega)]
  simpa using h1

theorem bitsOf_take (d : Bytes) (n : Nat) : bitsOf (d.take n) = (bitsOf d).take (8 * n) := by
  induction d generalizing n with
  | nil => simp
  | cons x d ih =>
    cases n with
    | zero => simp
    | succ n =>
      rw [List.take_succ_cons, bitsOf_cons, bitsOf_cons, ih, List.take_append]
      rw [List.take_of_length_le (l := byteBits x) (by simp; omega)]
      congr 2

theorem take_append_zeros (l : List Bool) {n m : Nat} (h1 : l.length ≤ n) (h2 : n ≤ l.length + m) :
    (l ++ List.replicate m false).take n = l ++ List.replicate (n - l.length) false := by
  rw [List.take_append, List.take_of_length_le h1, List.take_replicate]
  congr 2; omega

theorem bitsJoin_ok {a b : Bits} {l m : List Bool} (ha : IsBits a l) (hb : IsBits b m) (v : Bool)
    (h : l.length + m.length + 1 ≤ 256) :
    ∃ o, bitsJoin a b v = .ok o ∧ IsBits o (l ++ v :: m) := by
  have hsa := ha.size; have hsb := hb.size
  simp only [bitsJoin, bitsInit_ok (show a.size + b.size + 1 ≤ 256 by omega), Res.bind_ok]
  have hlen : (a.data.take ((a.size + 7) / 8) ++ (List.replicate 32 (0:UInt8)).drop ((a.size + 7) / 8)).length = 32 := by
    simp [ha.len]; omega
  have hbits : bitsOf (a.data.take ((a.size + 7) / 8) ++ (List.replicate 32 (0:UInt8)).drop ((a.size + 7) / 8))
      = l ++ List.replicate (256 - l.length) false := by
    rw [bitsOf_append, bitsOf_take, ha.bits, List.drop_replicate, bitsOf_zeros,
      take_append_zeros _ (by omega) (by omega), List.append_assoc, List.replicate_append_replicate]
    congr 2; omega
  obtain ⟨o1, h1, h2, h3, h4⟩ := bitsSet_ok (o := ⟨a.size + b.size + 1, _⟩) v hlen (by omega) rfl hbits
  rw [hsa] at h1 ⊢
  rw [h1]
  simp only [Res.bind_ok]
  obtain ⟨o', g1, g2, g3, g4⟩ := bitsCopyLoop_ok hb m.length 0 o1 (l ++ [v]) (by omega)
    (by simp; omega) h3 (by simpa [Nat.sub_sub] using h4)
  refine ⟨o', by simpa [hsb] using g1, ?_, by simp; omega, g3, ?_⟩
  · rw [g2, h2]; simp; omega
  · rw [g4]
    simp
    omega

/-! ### pack -/

theorem byteBits_byteOf (l : List Bool) :
    byteBits (byteOf l) = (l.take 8) ++ List.replicate (8 - l.length) false := by
  have key : ∀ a0 a1 a2 a3 a4 a5 a6 a7 : Bool,
      byteBits (byteOf [a0,a1,a2,a3,a4,a5,a6,a7]) = [a0,a1,a2,a3,a4,a5,a6,a7] := by decide +kernel
  match l with
  | [] => decide
  | [a0] => revert a0; decide +kernel
  | [a0,a1] => revert a0 a1; decide +kernel
  | [a0,a1,a2] => revert a0 a1 a2; decide +kernel
  | [a0,a1,a2,a3] => revert a0 a1 a2 a3; decide +kernel
  | [a0,a1,a2,a3,a4] => revert a0 a1 a2 a3 a4; decide +kernel
  | [a0,a1,a2,a3,a4,a5] => revert a0 a1 a2 a3 a4 a5; decide +kernel
  | [a0,a1,a2,a3,a4,a5,a6] => revert a0 a1 a2 a3 a4 a5 a6; decide +kernel
  | a0::a1::a2::a3::a4::a5::a6::a7::t =>
    have : byteOf (a0::a1::a2::a3::a4::a5::a6::a7::t) = byteOf [a0,a1,a2,a3,a4,a5,a6,a7] := rfl
    rw [this, key]
    simp

@[simp] theorem pack_nil : pack [] = [] := by rw [pack]
theorem pack_cons (a : Bool) (l : List Bool) : pack (a :: l) = byteOf (a :: l) :: pack (l.drop 7) := by
  rw [pack]

theorem length_pack (l : List Bool) : (pack l).length = (l.length + 7) / 8 := by
  match l with
  | [] => simp
  | a :: t =>
    rw [pack_cons, List.length_cons, length_pack (t.drop 7)]
    simp; omega
termination_by l.length
decreasing_by simp; omega

theorem bitsOf_pack (l : List Bool) :
    bitsOf (pack l) = l ++ List.replicate (8 * ((l.length + 7) / 8) - l.length) false := by
  match l with
  | [] => simp
  | a :: t =>
    rw [pack_cons, bitsOf_cons, bitsOf_pack (t.drop 7), byteBits_byteOf]
    by_cases h : t.length ≤ 7
    · rw [List.take_of_length_le (by simp; omega), List.drop_eq_nil_of_le h]
      simp only [List.length_cons, List.length_nil, List.nil_append]
      rw [List.append_assoc, List.replicate_append_replicate]
      congr 2; omega
    · have h8 : 8 - (a :: t).length = 0 := by simp; omega
      rw [h8, List.replicate_zero, List.append_nil, ← List.append_assoc, List.take_succ_cons,
        List.cons_append, List.take_append_drop]
      congr 2
      simp; omega
termination_by l.length
decreasing_by simp; omega

theorem IsBits.take_data {b : Bits} {l : List Bool} (h : IsBits b l) :
    b.data.take ((b.size + 7) / 8) = pack l := by
  apply bitsOf_inj
  have hle := h.le
  rw [bitsOf_take, h.bits, bitsOf_pack, h.size, take_append_zeros _ (by omega) (by omega)]

theorem isBits_pack {l : List Bool} (h : l.length ≤ 256) :
    IsBits ⟨l.length, pack l ++ List.replicate (32 - (l.length + 7) / 8) 0⟩ l := by
  refine ⟨rfl, h, by simp [length_pack]; omega, ?_⟩
  rw [bitsOf_append, bitsOf_pack, bitsOf_zeros, List.append_assoc, List.replicate_append_replicate]
  congr 2; omega

theorem pack_inj {l m : List Bool} (hl : l.length = m.length) (h : pack l = pack m) : l = m := by
  have := congrArg bitsOf h
  rw [bitsOf_pack, bitsOf_pack] at this
  exact (List.append_inj this hl).1

end Urkel
