import Verif.Spec.Format
import Verif.Lemmas.Codec
/-
The writers produce the bytes of the format.
-/
namespace Urkel

theorem num_eq (n x : Nat) : num n x = leBytes n x := by
  induction n generalizing x with
  | zero => rfl
  | succ n ih =>
    rw [num, leBytes, ih]
    congr 1
    apply UInt8.toNat_inj.1
    simp [UInt8.toNat_ofNat']

theorem or_bit (a b : Nat) (h : b < 2) : a <<< 1 ||| b = 2 * a + b := by
  rw [Nat.shiftLeft_eq, Nat.mul_comm, show 2 ^ 1 = 2 from rfl, show 2 * a = 2 ^ 1 * a from rfl, Nat.two_pow_add_eq_or_of_lt (by omega)]

theorem refBytes_eq {p : Ptr} (h : PtrOk p) : refBytes p = ptrWrite p := by
  have hs := h.size
  unfold refBytes ptrWrite
  dsimp only
  simp only [num_eq]
  have h1 : p.size >>> 8 >>> 1 = p.size / 512 := by
    rw [Nat.shiftRight_eq_div_pow, Nat.shiftRight_eq_div_pow, Nat.div_div_eq_div_mul]
  have h2 : p.size >>> 8 &&& 1 = p.size / 256 % 2 := by
    rw [Nat.shiftRight_eq_div_pow, Nat.and_one_is_mod]
  rw [h1, h2, or_bit _ _ (by omega), or_bit _ _ (by omega)]
  congr 1
  simp only [leBytes]
  congr 1
  apply UInt8.toNat_inj.1
  simp [UInt8.toNat_ofNat']

theorem leafBytes_eq {vp : Ptr} (h : PtrOk vp) (k : B32) : leafBytes k vp = leafRec vp k := by
  unfold leafBytes leafRec
  rw [refBytes_eq h]
  rfl

theorem nodeWrite_bytes {b : Bits} {pre : List Bool} (hb : IsBits b pre) {l r : Node} {pl pr : Ptr} {hl hr : B32} (h o)
    (cl : childRef l = .ok (pl, hl)) (cr : childRef r = .ok (pr, hr)) (okl : PtrOk pl) (okr : PtrOk pr) :
    nodeWrite (.internal h o b l r) = .ok (branchBytes pre pl pr hl hr) := by
  have hle := hb.le
  have hsz := hb.size
  have htd := hb.take_data
  simp only [nodeWrite, cl, cr, Res.bind_ok, Res.pure_eq]
  unfold branchBytes
  rw [refBytes_eq okl, refBytes_eq okr, num_eq, num_eq, htd, ← hsz]
  refine congrArg Res.ok ?_
  congr 4
  by_cases h0 : pre = []
  · subst h0
    have : b.size = 0 := by simpa using hsz
    simp [this, leBytes, pack]
  · have h1 : 0 < b.size := by rw [hsz]; exact List.length_pos_iff.2 h0
    rw [if_neg h0]
    by_cases h2 : b.size > 255
    · simp [h1, h2, leBytes]
      rw [if_neg (by omega)]; rfl
    · simp [h1, h2, leBytes]
      rw [if_pos (by omega)]; rfl

theorem commitBytes_eq {E : Env} (key : B32) {m : Meta} (h1 : PtrOk m.metaPtr) (h2 : PtrOk m.rootPtr) :
    commitBytes E key m.metaPtr m.rootPtr = metaWrite E key m := by
  unfold commitBytes metaWrite
  rw [refBytes_eq h1, refBytes_eq h2]
  rfl

end Urkel
