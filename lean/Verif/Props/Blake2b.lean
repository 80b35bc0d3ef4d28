import Verif.Model.Blake2b
import Verif.Spec.Blake2b
import Verif.Spec.Env
import Verif.Lemmas.Codec
import Mathlib.Tactic.ByContra
/-
C47: the streaming hash of blake2b.c is BLAKE2b of RFC 7693, whatever the pieces the
input comes in; the hashes and the checksum of util.c are the functions of
Model/Hash.lean over it.
-/
namespace Urkel
open Rfc7693 (iv sigma rotr at' G words F pad blocks process blake2b)

theorem b2_row (r : Nat) (h : r < 12) : b2Sigma.getD r [] = sigma.getD (r % 10) [] := by
  have : ∀ r ∈ List.range 12, b2Sigma.getD r [] = sigma.getD (r % 10) [] := by decide
  exact this r (List.mem_range.2 h)

theorem b2G_eq (m v : List UInt64) (r i a b c d : Nat) (h : r < 12) :
    b2G m r i a b c d v = G v a b c d (at' m ((sigma.getD (r % 10) []).getD (2 * i) 0)) (at' m ((sigma.getD (r % 10) []).getD (2 * i + 1) 0)) := by
  unfold b2G
  rw [b2_row r h]
  rfl

theorem b2Round_eq (m v : List UInt64) (r : Nat) (h : r < 12) : b2Round m v r = Rfc7693.round m v r := by
  have key := fun i a b c d v => b2G_eq m v r i a b c d h
  show b2G m r 7 3 4 9 14 (b2G m r 6 2 7 8 13 (b2G m r 5 1 6 11 12 (b2G m r 4 0 5 10 15 (b2G m r 3 3 7 11 15 (b2G m r 2 2 6 10 14
    (b2G m r 1 1 5 9 13 (b2G m r 0 0 4 8 12 v))))))) = _
  rw [key, key, key, key, key, key, key, key]
  unfold Rfc7693.round
  rfl

theorem b2_rounds (m : List UInt64) (l : List Nat) (hl : ∀ r ∈ l, r < 12) (v : List UInt64) :
    l.foldl (b2Round m) v = l.foldl (Rfc7693.round m) v := by
  induction l generalizing v with
  | nil => rw [List.foldl_nil, List.foldl_nil]
  | cons r l ih =>
    rw [List.foldl_cons, List.foldl_cons, b2Round_eq m v r (hl r (by simp))]
    exact ih (fun r h => hl r (by simp [h])) _

theorem words_eq (chunk : Bytes) : ((List.range 16).map fun i => read64 (chunk.drop (i * 8))) = words chunk := by
  unfold words
  exact List.map_congr_left fun i _ => by rw [read64, Nat.mul_comm]

theorem words_take (d : Bytes) : words (d.take 128) = words d := by
  unfold words
  refine List.map_congr_left fun i hi => ?_
  rw [List.mem_range] at hi
  congr 2
  rw [List.drop_take, List.take_take]
  congr 1
  omega

theorem F_take (h : List UInt64) (d : Bytes) (t : Nat) (f : Bool) : F h (d.take 128) t f = F h d t f := by
  unfold F; rw [words_take]

theorem init_words (h : List UInt64) (hh : h.length = 8) (T : Nat) (f : Bool) :
    ((List.range 8).map (wordAt h) ++
      [wordAt b2Iv 0, wordAt b2Iv 1, wordAt b2Iv 2, wordAt b2Iv 3, wordAt b2Iv 4 ^^^ UInt64.ofNat T, wordAt b2Iv 5 ^^^ UInt64.ofNat (T / 2 ^ 64),
        wordAt b2Iv 6 ^^^ (if f then 0xffffffffffffffff else 0), wordAt b2Iv 7]) =
    (let v := h ++ iv
     let v := v.set 12 (at' v 12 ^^^ UInt64.ofNat T)
     let v := v.set 13 (at' v 13 ^^^ UInt64.ofNat (T / 2 ^ 64))
     if f then v.set 14 (at' v 14 ^^^ 0xffffffffffffffff) else v) := by
  match h, hh with
  | [a, b, c, d, e, f', g, i], _ => cases f <;> simp [List.range, List.range.loop, wordAt, b2Iv, at', iv]

/-- The compression of the code is the function F. -/
theorem b2Compress_eq (ctx : B2) (chunk : Bytes) (T : Nat) (f : Bool) (hc : 128 ≤ chunk.length) (hh : ctx.h.length = 8)
    (h0 : ctx.t0 = UInt64.ofNat T) (h1 : ctx.t1 = UInt64.ofNat (T / 2 ^ 64)) :
    b2Compress ctx chunk (if f then 0xffffffffffffffff else 0) = .ok { ctx with h := F ctx.h chunk T f } := by
  unfold b2Compress F
  rw [if_neg (by omega), h0, h1, words_eq, init_words ctx.h hh T f]
  dsimp only
  rw [b2_rounds _ _ (by decide)]
  congr 2
  refine List.map_congr_left fun i _ => ?_
  rw [UInt64.xor_assoc]
  rfl

theorem F_length (h : List UInt64) (d : Bytes) (t : Nat) (f : Bool) : (F h d t f).length = 8 := by unfold F; simp

/-- The counter is the number of bytes, modulo 2^128. -/
theorem inc_eq (ctx : B2) (T n : Nat) (hn : n < 2 ^ 64) (h0 : ctx.t0 = UInt64.ofNat T) (h1 : ctx.t1 = UInt64.ofNat (T / 2 ^ 64)) :
    b2Increment ctx (UInt64.ofNat n) = { ctx with t0 := UInt64.ofNat (T + n), t1 := UInt64.ofNat ((T + n) / 2 ^ 64) } := by
  unfold b2Increment
  have e0 : ctx.t0 + UInt64.ofNat n = UInt64.ofNat (T + n) := by rw [h0, ← UInt64.ofNat_add]
  have e1 : ctx.t1 + (if ctx.t0 + UInt64.ofNat n < UInt64.ofNat n then 1 else 0) = UInt64.ofNat ((T + n) / 2 ^ 64) := by
    rw [e0, h1]
    have hd : T = 2 ^ 64 * (T / 2 ^ 64) + T % 2 ^ 64 := (Nat.div_add_mod _ _).symm
    have hm := Nat.mod_lt T (show 0 < 2 ^ 64 by decide)
    have hlt : UInt64.ofNat (T + n) < UInt64.ofNat n ↔ (T + n) % 2 ^ 64 < n := by
      rw [UInt64.lt_iff_toNat_lt, UInt64.toNat_ofNat', UInt64.toNat_ofNat', Nat.mod_eq_of_lt hn]
    by_cases hc : T % 2 ^ 64 + n < 2 ^ 64
    · have a : (T + n) / 2 ^ 64 = T / 2 ^ 64 := by omega
      have b : (T + n) % 2 ^ 64 = T % 2 ^ 64 + n := by omega
      rw [if_neg (by rw [hlt]; omega), a]; simp
    · have a : (T + n) / 2 ^ 64 = T / 2 ^ 64 + 1 := by omega
      have b : (T + n) % 2 ^ 64 = T % 2 ^ 64 + n - 2 ^ 64 := by omega
      rw [if_pos (by rw [hlt]; omega), a, UInt64.ofNat_add]; rfl
  dsimp only
  rw [e1, e0]

theorem process_step (h : List UInt64) (t : Nat) (z : Bytes) (hz : 128 < z.length) :
    process h t (blocks z) = process (F h z (t + 128) false) (t + 128) (blocks (z.drop 128)) := by
  rw [blocks, if_neg (by omega), ← F_take h z]
  generalize hb : blocks (z.drop 128) = bs
  cases bs with
  | nil => rw [blocks] at hb; split at hb <;> simp at hb
  | cons b bs => rfl

theorem process_last (h : List UInt64) (t : Nat) (z : Bytes) (hz : z.length ≤ 128) :
    process h t (blocks z) = F h (pad z) (t + z.length) true := by
  rw [blocks, if_pos hz]; rfl

/-- The state after absorbing `x`: what is still to be processed is what is in the
buffer and what comes after. -/
structure B2Inv (h0 : List UInt64) (n : Nat) (x : Bytes) (ctx : B2) : Prop where
  count : ∃ T, ctx.t0 = UInt64.ofNat T ∧ ctx.t1 = UInt64.ofNat (T / 2 ^ 64) ∧
    ∀ y, process h0 0 (blocks (x ++ y)) = process ctx.h T (blocks (ctx.buf.take ctx.buflen ++ y))
  h : ctx.h.length = 8
  buf : ctx.buf.length = 128
  len : ctx.buflen ≤ 128
  out : ctx.outlen = n

/-- The loop over whole blocks. -/
theorem b2Loop_ok (n : Nat) : ∀ (inp : Bytes) (ctx : B2) (T : Nat), inp.length ≤ n → ctx.t0 = UInt64.ofNat T → ctx.t1 = UInt64.ofNat (T / 2 ^ 64) →
    ctx.h.length = 8 → 0 < inp.length →
    ∃ (ctx' : B2) (rest : Bytes) (T' : Nat), b2Loop ctx inp = .ok (ctx', rest) ∧ ctx'.t0 = UInt64.ofNat T' ∧ ctx'.t1 = UInt64.ofNat (T' / 2 ^ 64) ∧
      ctx'.h.length = 8 ∧ ctx'.buf = ctx.buf ∧ ctx'.buflen = ctx.buflen ∧ ctx'.outlen = ctx.outlen ∧ rest.length ≤ 128 ∧ 0 < rest.length ∧
      ∀ y, process ctx.h T (blocks (inp ++ y)) = process ctx'.h T' (blocks (rest ++ y)) := by
  induction n with
  | zero => intro inp ctx T hn _ _ _ hp; omega
  | succ n ih =>
    intro inp ctx T hn h0 h1 hh hp
    by_cases hl : inp.length > 128
    · have e : b2Compress (b2Increment ctx 128) inp 0 = .ok { b2Increment ctx 128 with h := F ctx.h inp (T + 128) false } := by
        have i : b2Increment ctx 128 = { ctx with t0 := UInt64.ofNat (T + 128), t1 := UInt64.ofNat ((T + 128) / 2 ^ 64) } :=
          inc_eq ctx T 128 (by decide) h0 h1
        rw [i]
        exact b2Compress_eq { ctx with t0 := UInt64.ofNat (T + 128), t1 := UInt64.ofNat ((T + 128) / 2 ^ 64) } inp (T + 128) false (by omega) hh rfl rfl
      have i : b2Increment ctx 128 = { ctx with t0 := UInt64.ofNat (T + 128), t1 := UInt64.ofNat ((T + 128) / 2 ^ 64) } :=
        inc_eq ctx T 128 (by decide) h0 h1
      rw [i] at e
      obtain ⟨ctx', rest, T', hr, a0, a1, a2, a3, a4, a5, a6, a7, a8⟩ := ih (inp.drop 128)
        { ctx with t0 := UInt64.ofNat (T + 128), t1 := UInt64.ofNat ((T + 128) / 2 ^ 64), h := F ctx.h inp (T + 128) false }
        (T + 128) (by rw [List.length_drop]; omega) rfl rfl (F_length _ _ _ _) (by rw [List.length_drop]; omega)
      refine ⟨ctx', rest, T', ?_, a0, a1, a2, a3, a4, a5, a6, a7, fun y => ?_⟩
      · rw [b2Loop, dif_pos hl, i, e]; exact hr
      · rw [process_step _ _ _ (by rw [List.length_append]; omega), ← F_take, List.take_append_of_le_length (by omega), F_take,
          List.drop_append_of_le_length (by omega)]
        exact a8 y
    · refine ⟨ctx, inp, T, ?_, h0, h1, hh, rfl, rfl, rfl, by omega, hp, fun _ => rfl⟩
      rw [b2Loop, dif_neg hl]

theorem bufCopy_ok (buf src : Bytes) (off : Nat) (h : off + src.length ≤ buf.length) :
    ∃ buf', bufCopy buf off src = .ok buf' ∧ buf'.length = buf.length ∧ buf'.take (off + src.length) = buf.take off ++ src := by
  refine ⟨buf.take off ++ src ++ buf.drop (off + src.length), by rw [bufCopy, if_pos h], ?_, ?_⟩
  · simp only [List.length_append, List.length_take, List.length_drop]; omega
  · exact List.take_left' (by simp only [List.length_append, List.length_take]; omega)

/-- `urkel_blake2b_update` keeps the invariant. -/
theorem b2Update_ok {h0 : List UInt64} {n : Nat} {x : Bytes} {ctx : B2} (I : B2Inv h0 n x ctx) (d : Bytes) :
    ∃ ctx', b2Update ctx d = .ok ctx' ∧ B2Inv h0 n (x ++ d) ctx' := by
  unfold b2Update
  by_cases hd : d.length = 0
  · rw [if_pos hd]
    refine ⟨ctx, rfl, ?_⟩
    rw [List.eq_nil_of_length_eq_zero hd, List.append_nil]; exact I
  rw [if_neg hd, if_neg (by have := I.len; omega)]
  obtain ⟨T, t0, t1, hy⟩ := I.count
  have hb := I.buf
  have hl := I.len
  by_cases hf : d.length > 128 - ctx.buflen
  · rw [if_pos hf]
    obtain ⟨buf1, c1, c2, c3⟩ := bufCopy_ok ctx.buf (d.take (128 - ctx.buflen)) ctx.buflen (by rw [List.length_take]; omega)
    have i : b2Increment { ctx with buflen := 0, buf := buf1 } 128 =
        { ctx with buflen := 0, buf := buf1, t0 := UInt64.ofNat (T + 128), t1 := UInt64.ofNat ((T + 128) / 2 ^ 64) } :=
      inc_eq { ctx with buflen := 0, buf := buf1 } T 128 (by decide) t0 t1
    have e : b2Compress { ctx with buflen := 0, buf := buf1, t0 := UInt64.ofNat (T + 128), t1 := UInt64.ofNat ((T + 128) / 2 ^ 64) } buf1 0 = .ok
        { ctx with buflen := 0, buf := buf1, t0 := UInt64.ofNat (T + 128), t1 := UInt64.ofNat ((T + 128) / 2 ^ 64), h := F ctx.h buf1 (T + 128) false } :=
      b2Compress_eq { ctx with buflen := 0, buf := buf1, t0 := UInt64.ofNat (T + 128), t1 := UInt64.ofNat ((T + 128) / 2 ^ 64) } buf1 (T + 128) false
        (by omega) I.h rfl rfl
    obtain ⟨ctx', rest, T', hr, a0, a1, a2, a3, a4, a5, a6, a7, a8⟩ := b2Loop_ok _ (d.drop (128 - ctx.buflen))
        { ctx with buflen := 0, buf := buf1, t0 := UInt64.ofNat (T + 128), t1 := UInt64.ofNat ((T + 128) / 2 ^ 64), h := F ctx.h buf1 (T + 128) false }
        (T + 128) (Nat.le_refl _) rfl rfl (F_length _ _ _ _) (by rw [List.length_drop]; omega)
    have hfull : b2Full ctx d ctx.buflen (128 - ctx.buflen) = .ok (ctx', rest) := by
      unfold b2Full
      rw [c1]
      show (b2Compress (b2Increment { ctx with buflen := 0, buf := buf1 } 128) buf1 0 >>= fun c => b2Loop c (d.drop (128 - ctx.buflen))) = _
      rw [i, e]; exact hr
    have a3' : ctx'.buf = buf1 := a3
    have a4' : ctx'.buflen = 0 := a4
    obtain ⟨buf2, k1, k2, k3⟩ := bufCopy_ok ctx'.buf rest ctx'.buflen (by rw [a3', a4']; omega)
    rw [hfull]
    refine ⟨{ ctx' with buf := buf2, buflen := ctx'.buflen + rest.length }, ?_, ⟨T', a0, a1, fun y => ?_⟩, a2, ?_, ?_, ?_⟩
    · show (bufCopy ctx'.buf ctx'.buflen rest >>= fun buf => _) = _
      rw [k1]; rfl
    · show _ = process ctx'.h T' (blocks (buf2.take (ctx'.buflen + rest.length) ++ y))
      rw [k3, a4', List.take_zero, List.nil_append, ← a8 y, List.append_assoc, hy]
      have hlen : (ctx.buf.take ctx.buflen).length = ctx.buflen := by rw [List.length_take]; omega
      have hz : ctx.buf.take ctx.buflen ++ (d ++ y) = buf1 ++ (d.drop (128 - ctx.buflen) ++ y) := by
        have b1 : buf1 = ctx.buf.take ctx.buflen ++ d.take (128 - ctx.buflen) := by
          rw [← c3, List.take_of_length_le]; rw [List.length_take]; omega
        rw [b1]
        simp only [List.append_assoc]
        rw [← List.append_assoc (d.take _), List.take_append_drop]
      have hbl : buf1.length = 128 := by omega
      rw [hz, process_step _ _ _ (by simp only [List.length_append, List.length_drop]; omega), ← F_take, List.take_left' hbl, List.drop_left' hbl]
    · show buf2.length = 128; rw [k2, a3']; omega
    · show ctx'.buflen + rest.length ≤ 128; omega
    · show ctx'.outlen = n; rw [a5]; exact I.out
  · rw [if_neg hf]
    obtain ⟨buf2, k1, k2, k3⟩ := bufCopy_ok ctx.buf d ctx.buflen (by omega)
    refine ⟨{ ctx with buf := buf2, buflen := ctx.buflen + d.length }, ?_, ⟨T, t0, t1, fun y => ?_⟩, I.h, ?_, ?_, I.out⟩
    · show (bufCopy ctx.buf ctx.buflen d >>= fun buf => _) = _
      rw [k1]; rfl
    · show _ = process ctx.h T (blocks (buf2.take (ctx.buflen + d.length) ++ y))
      rw [k3, List.append_assoc, List.append_assoc, hy]
    · show buf2.length = 128; omega
    · show ctx.buflen + d.length ≤ 128; omega

theorem b2Updates_ok {h0 : List UInt64} {n : Nat} (ds : List Bytes) {x : Bytes} {ctx : B2} (I : B2Inv h0 n x ctx) :
    ∃ ctx', b2Updates ctx ds = .ok ctx' ∧ B2Inv h0 n (x ++ ds.flatten) ctx' := by
  induction ds generalizing x ctx with
  | nil => exact ⟨ctx, rfl, by simpa using I⟩
  | cons d ds ih =>
    obtain ⟨c1, e1, I1⟩ := b2Update_ok I d
    obtain ⟨c2, e2, I2⟩ := ih I1
    refine ⟨c2, ?_, by simpa using I2⟩
    rw [b2Updates, e1]; exact e2

theorem b2Final_ok {h0 : List UInt64} {n : Nat} {x : Bytes} {ctx : B2} (I : B2Inv h0 n x ctx) (hn : n ≤ 64) :
    b2Final ctx = .ok (((process h0 0 (blocks x)).flatMap fun w => leBytes 8 w.toNat).take n) := by
  obtain ⟨T, t0, t1, hy⟩ := I.count
  have hb := I.buf
  have hl := I.len
  have hx := hy []
  have hlen : (ctx.buf.take ctx.buflen).length = ctx.buflen := by rw [List.length_take]; omega
  rw [List.append_nil, List.append_nil, process_last ctx.h T (ctx.buf.take ctx.buflen) (by omega), hlen] at hx
  obtain ⟨buf2, k1, k2, k3⟩ := bufCopy_ok ctx.buf (List.replicate (128 - ctx.buflen) 0) ctx.buflen (by rw [List.length_replicate]; omega)
  have hp : buf2 = pad (ctx.buf.take ctx.buflen) := by
    unfold pad
    rw [hlen, ← k3, List.take_of_length_le]
    rw [List.length_replicate]; omega
  have i := inc_eq ctx T ctx.buflen (by omega) t0 t1
  have e : b2Compress { ctx with t0 := UInt64.ofNat (T + ctx.buflen), t1 := UInt64.ofNat ((T + ctx.buflen) / 2 ^ 64), buf := buf2 } buf2 0xffffffffffffffff = .ok
      { ctx with t0 := UInt64.ofNat (T + ctx.buflen), t1 := UInt64.ofNat ((T + ctx.buflen) / 2 ^ 64), buf := buf2, h := F ctx.h buf2 (T + ctx.buflen) true } :=
    b2Compress_eq { ctx with t0 := UInt64.ofNat (T + ctx.buflen), t1 := UInt64.ofNat ((T + ctx.buflen) / 2 ^ 64), buf := buf2 } buf2 (T + ctx.buflen) true
      (by omega) I.h rfl rfl
  unfold b2Final
  simp only [i]
  rw [if_neg (by omega), k1]
  show (b2Compress { ctx with t0 := UInt64.ofNat (T + ctx.buflen), t1 := UInt64.ofNat ((T + ctx.buflen) / 2 ^ 64), buf := buf2 } buf2 0xffffffffffffffff >>= fun c => _) = _
  rw [e, hx, hp]
  have hF := F_length ctx.h (pad (ctx.buf.take ctx.buflen)) (T + ctx.buflen) true
  generalize F ctx.h (pad (ctx.buf.take ctx.buflen)) (T + ctx.buflen) true = h' at hF
  have hm : ((List.range 8).flatMap fun i => leBytes 8 (wordAt h' i).toNat) = h'.flatMap fun w => leBytes 8 w.toNat := by
    match h', hF with
    | [a, b, c, d, e, f, g, i], _ => simp [List.range, List.range.loop, wordAt]
  have hm64 : (h'.flatMap fun w => leBytes 8 w.toNat).length = 64 := by
    match h', hF with
    | [a, b, c, d, e, f, g, i], _ => simp
  have ho := I.out
  show (if ctx.outlen > ((List.range 8).flatMap fun i => leBytes 8 (wordAt h' i).toNat).length then Res.ub
    else pure (((List.range 8).flatMap fun i => leBytes 8 (wordAt h' i).toNat).take ctx.outlen)) = _
  rw [hm, hm64, if_neg (by omega), ho]; rfl

/-- The chaining value of RFC 7693 section 3.3 before the first block. -/
def b2h0 (nn : Nat) (key : Bytes) : List UInt64 :=
  iv.set 0 (at' iv 0 ^^^ (0x01010000 : UInt64) ^^^ (UInt64.ofNat key.length <<< 8) ^^^ UInt64.ofNat nn)

theorem b2Init_ok (nn : Nat) (key : Bytes) (hn : 1 ≤ nn ∧ nn ≤ 64) (hk : key.length ≤ 64) :
    ∃ ctx, b2Init nn key = .ok ctx ∧ B2Inv (b2h0 nn key) nn (if key = [] then [] else pad key) ctx := by
  unfold b2Init
  rw [check_of (by simpa using hn), check_of (by simpa using hk)]
  have hh : b2Iv.set 0 (wordAt b2Iv 0 ^^^ ((0x01010000 : UInt64) ^^^ (UInt64.ofNat key.length <<< 8) ^^^ UInt64.ofNat nn)) = b2h0 nn key := by
    unfold b2h0
    rw [UInt64.xor_assoc (at' iv 0), UInt64.xor_assoc (at' iv 0)]; rfl
  have I : B2Inv (b2h0 nn key) nn [] ⟨b2h0 nn key, 0, 0, List.replicate 128 0, 0, nn⟩ :=
    ⟨⟨0, rfl, rfl, fun _ => rfl⟩, by simp [b2h0, iv], by simp, by simp, rfl⟩
  by_cases hz : key = []
  · subst hz
    rw [if_pos rfl]
    exact ⟨_, by rw [← hh]; rfl, I⟩
  · rw [if_neg hz]
    have hl : 0 < key.length := List.length_pos_iff.2 hz
    obtain ⟨c, e, J⟩ := b2Update_ok I (pad key)
    refine ⟨c, ?_, J⟩
    show (if key.length > 0 then b2Update _ _ else _) = _
    rw [if_pos hl, hh]; exact e

/-- C47: the hash the code computes piece by piece is BLAKE2b of RFC 7693 of the
concatenated input, for every digest length, key and way of cutting the input. -/
theorem C47_stream (nn : Nat) (key : Bytes) (pieces : List Bytes) (hn : 1 ≤ nn ∧ nn ≤ 64) (hk : key.length ≤ 64) :
    b2Stream nn key pieces = .ok (blake2b nn key pieces.flatten) := by
  unfold b2Stream
  obtain ⟨c0, e0, I0⟩ := b2Init_ok nn key hn hk
  obtain ⟨c1, e1, I1⟩ := b2Updates_ok pieces I0
  rw [e0]
  show (b2Updates c0 pieces >>= fun c => b2Final c) = _
  rw [e1]
  exact b2Final_ok I1 hn.2

/-- The digest has the length asked for. -/
theorem C47_length (nn : Nat) (key data : Bytes) (hn : nn ≤ 64) : (blake2b nn key data).length = nn := by
  unfold blake2b
  dsimp only
  have hl : ∀ (bs : List Bytes) (h : List UInt64) (t : Nat), bs ≠ [] → (process h t bs).length = 8 := by
    intro bs
    induction bs with
    | nil => intro h t hn; exact absurd rfl hn
    | cons b bs ih =>
      intro h t _
      cases bs with
      | nil => exact F_length _ _ _ _
      | cons b' bs => exact ih _ _ (by simp)
  have hb : ∀ d, blocks d ≠ [] := fun d h => by rw [blocks] at h; split at h <;> simp at h
  generalize hp : process _ 0 (blocks _) = h'
  have h8 : h'.length = 8 := by rw [← hp]; exact hl _ _ _ (hb _)
  have hm64 : (h'.flatMap fun w => leBytes 8 w.toNat).length = 64 := by
    match h', h8 with
    | [a, b, c, d, e, f, g, i], _ => simp
  rw [List.length_take, hm64]; omega

/-- The hash function of the tree: unkeyed BLAKE2b with 32 bytes. -/
def blakeH : HashFn := fun d => ⟨blake2b 32 [] d, C47_length 32 [] d (by decide)⟩

/-- The environment of the real program: BLAKE2b-256 for the tree, keyed BLAKE2b-160
for the meta records, the compiled-in limits. -/
def blakeEnv : Env := ⟨blakeH, fun k d => blake2b 20 k.bytes d, realCfg⟩

/-- Every theorem about an environment applies to the real one. -/
theorem blakeEnv_ok : EnvOk blakeEnv :=
  ⟨⟨by decide, by decide, by decide⟩, fun _ _ => C47_length 20 _ _ (by decide)⟩

theorem stream32 (pieces : List Bytes) : b2Stream 32 [] pieces = .ok (blakeH pieces.flatten).bytes :=
  C47_stream 32 [] pieces (by decide) (by decide)

/-- C47: the hash of an internal node, as util.c streams it, is the one the model of
the tree uses over BLAKE2b. -/
theorem C47_internal (pre : Bits) (l r : B32) : hashInternalC pre l r = .ok (hashInternal blakeEnv.H pre l r).bytes := by
  unfold hashInternalC hashInternal
  rw [stream32]
  by_cases h : pre.size = 0
  · rw [if_pos h, if_pos (by simpa using h)]
    simp [blakeEnv]
  · rw [if_neg h, if_neg (by simpa using h)]
    simp [blakeEnv]

/-- C47: leaf hashes. -/
theorem C47_leaf (key vhash : B32) : hashLeafC key.bytes vhash.bytes = .ok (hashLeaf blakeEnv.H key vhash).bytes := by
  unfold hashLeafC hashLeaf
  rw [stream32]
  simp [blakeEnv]

/-- C47: leaf hashes from the value. -/
theorem C47_value (key : B32) (v : Bytes) : hashValueC key.bytes v = .ok (hashValue blakeEnv.H key v).bytes := by
  unfold hashValueC
  have e : b2Stream 32 [] [v] = .ok (blakeH v).bytes := by rw [stream32]; simp
  have l := C47_leaf key (blakeH v)
  rw [show hashValue blakeEnv.H key v = hashLeaf blakeEnv.H key (blakeH v) from by rw [hashValue, blakeEnv], ← l, e, Res.bind_ok]

/-- C47: key hashes and raw hashes. -/
theorem C47_raw (d : Bytes) : hashRawC d = .ok (blakeEnv.H d).bytes := by
  unfold hashRawC
  rw [stream32]
  simp [blakeEnv]

/-- C47: checksums of meta records. -/
theorem C47_checksum (d : Bytes) (key : B32) : checksumC d key.bytes = .ok (blakeEnv.mac key d) := by
  unfold checksumC
  rw [C47_stream 20 key.bytes [d] (by decide) (by rw [key.len]; decide)]
  simp [blakeEnv]

/-- Cutting the input differently does not matter. -/
theorem C47_cut (nn : Nat) (key : Bytes) (p q : List Bytes) (hn : 1 ≤ nn ∧ nn ≤ 64) (hk : key.length ≤ 64) (h : p.flatten = q.flatten) :
    b2Stream nn key p = b2Stream nn key q := by
  rw [C47_stream nn key p hn hk, C47_stream nn key q hn hk, h]

/-- Appendix-A style test vectors: the specification is BLAKE2b ("abc" with 32 bytes,
no key), and so is the code, fed in two pieces. -/
example : blake2b 32 [] [97, 98, 99] =
    [189, 221, 129, 60, 99, 66, 57, 114, 49, 113, 239, 63, 238, 152, 87, 155, 148, 150, 78, 59, 177, 203, 62, 66, 114, 98, 200, 192, 104, 213, 35, 25] := by
  decide +kernel

example : b2Stream 32 [] [[97], [98, 99]] = .ok
    [189, 221, 129, 60, 99, 66, 57, 114, 49, 113, 239, 63, 238, 152, 87, 155, 148, 150, 78, 59, 177, 203, 62, 66, 114, 98, 200, 192, 104, 213, 35, 25] := by
  decide +kernel

end Urkel
