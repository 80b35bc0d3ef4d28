import Verif.Spec.Words
import Verif.Lemmas.FlushBound
import Verif.Lemmas.Damage
/-
The commit path in machine integers computes what it computes in unbounded numbers.
-/
namespace Urkel

/-- The two programs do the same, and `Q` holds of where they get to. -/
def Match {w : Nat} {α : Type} (x : Res (MStore w × α)) (y : Res (Store × α)) (Q : MStore w → α → Prop) : Prop :=
  match y with
  | .ok (s, a) => ∃ m, x = .ok (m, a) ∧ m.nat = s ∧ Q m a
  | .err e => x = .err e
  | .abort => x = .abort
  | .ub => x = .ub

theorem Match.bind {w : Nat} {α β : Type} {x : Res (MStore w × α)} {y : Res (Store × α)} {Q : MStore w → α → Prop} {Q' : MStore w → β → Prop}
    {f : MStore w × α → Res (MStore w × β)} {g : Store × α → Res (Store × β)} (h : Match x y Q) (hf : ∀ m a, Q m a → Match (f (m, a)) (g (m.nat, a)) Q') :
    Match (x >>= f) (y >>= g) Q' := by
  unfold Match at h
  split at h
  · obtain ⟨m, e, rfl, hq⟩ := h
    rw [e, Res.bind_ok, Res.bind_ok]
    exact hf m _ hq
  · rw [h]; rfl
  · rw [h]; rfl
  · rw [h]; rfl

theorem Match.ok {w : Nat} {α : Type} {m : MStore w} {a : α} {Q : MStore w → α → Prop} (h : Q m a) : Match (.ok (m, a)) (.ok (m.nat, a)) Q := ⟨m, rfl, rfl, h⟩

/-- A part that does not touch the store. -/
theorem Match.pure {w : Nat} {α β : Type} {x : Res α} {f : α → Res (MStore w × β)} {g : α → Res (Store × β)} {Q : MStore w → β → Prop}
    (h : ∀ a, x = .ok a → Match (f a) (g a) Q) : Match (x >>= f) (x >>= g) Q := by
  cases x with
  | ok a => exact h a rfl
  | err e => rfl
  | abort => rfl
  | ub => rfl

theorem Match.mono {w : Nat} {α : Type} {x : Res (MStore w × α)} {y : Res (Store × α)} {Q Q' : MStore w → α → Prop} (h : Match x y Q) (hq : ∀ m a, Q m a → Q' m a) : Match x y Q' := by
  unfold Match at h ⊢
  split at h
  · obtain ⟨m, e, h1, h2⟩ := h; exact ⟨m, e, h1, hq _ _ h2⟩
  · exact h
  · exact h
  · exact h

theorem toNat_ofNat_lt {w n : Nat} (h : n < 2 ^ w) : (BitVec.ofNat w n).toNat = n := by rw [BitVec.toNat_ofNat]; exact Nat.mod_eq_of_lt h

theorem toNat_wide {w : Nat} {b : BitVec w} (h : b.toNat < 2 ^ 64) : (b.setWidth 64).toNat = b.toNat := by rw [BitVec.toNat_setWidth]; exact Nat.mod_eq_of_lt h

theorem toNat_add_lt {w : Nat} {a b : BitVec w} (h : a.toNat + b.toNat < 2 ^ w) : (a + b).toNat = a.toNat + b.toNat := by rw [BitVec.toNat_add]; exact Nat.mod_eq_of_lt h

/-- The block is big enough after it has grown. -/
theorem mGrow_ge {w : Nat} (hw : w = 32 ∨ w = 64) {size needs : BitVec w} (h : needs.toNat * 3 < 2 ^ w) : needs.toNat ≤ (mGrow size needs).toNat := by
  have h3 : (3#w).toNat = 3 := by rcases hw with rfl | rfl <;> rfl
  have h2 : (2#w).toNat = 2 := by rcases hw with rfl | rfl <;> rfl
  unfold mGrow
  dsimp only
  split
  · split
    · rw [BitVec.toNat_udiv, BitVec.toNat_mul, h3, h2, Nat.mod_eq_of_lt h]
      omega
    · rename_i h1; exact Nat.le_of_not_lt h1
  · rename_i h1; exact Nat.le_of_not_lt h1

/-- The first step of `urkel_slab_write`: the block for the offsets. -/
theorem slab_first {w : Nat} (hw : w = 32 ∨ w = 64) {s : MSlab w} (hs : s.Ok) : ∃ s1 : MSlab w,
    mFirst s = s1 ∧
    (if s.nat.offsetsLen == 0 then { s.nat with offsetsLen := 1 } else s.nat) = s1.nat ∧ s1.Ok ∧ 1 ≤ s1.offsetsLen.toNat ∧
    s1.data = s.data ∧ s1.written = s.written ∧ s1.dataLen = s.dataLen := by
  have h1 : (1#w).toNat = 1 := by rcases hw with rfl | rfl <;> rfl
  have h0 : (0#w).toNat = 0 := by rcases hw with rfl | rfl <;> rfl
  by_cases h : s.offsetsLen = 0#w
  · have hn : s.nat.offsetsLen = 0 := by show s.offsetsLen.toNat = 0; rw [h, h0]
    refine ⟨{ s with offRoom := 2, offsetsLen := 1#w }, by simp [mFirst, h], ?_, ?_, by show 1 ≤ (1#w).toNat; omega, rfl, rfl, rfl⟩
    · simp only [hn, beq_self_eq_true, if_true]
      show _ = MSlab.nat _
      simp [MSlab.nat, h1]
    · have hu := hs.used
      rw [h, h0] at hu
      refine ⟨hs.len, hs.room, hs.sum, hs.off, hs.offs, hs.pos, ?_, ?_, ?_, hs.start, hs.dmax⟩
      · show (1#w).toNat ≤ _; omega
      · show s.offsets.length ≤ (1#w).toNat; omega
      · show 2 = if (1#w).toNat = 0 then 0 else (1#w).toNat + 1
        rw [h1]; rfl
  · have hn : s.offsetsLen.toNat ≠ 0 := fun e => h (BitVec.eq_of_toNat_eq (by rw [e, h0]))
    refine ⟨s, by simp [mFirst, h], ?_, hs, by omega, rfl, rfl, rfl⟩
    rw [if_neg]
    show ¬ (s.offsetsLen.toNat == 0) = true
    simpa using hn

/-- The second step in unbounded numbers. -/
def natRoll (E : Env) (s : Slab) (n : Nat) : Res Slab :=
  if s.filePos + n > E.cfg.maxFile then
    let ol := if s.offsets.length == s.offsetsLen then s.offsetsLen + 1 else s.offsetsLen
    if s.offsets.length ≤ ol then .ok { s with offsets := s.offsets ++ [s.dataOff], offsetsLen := ol, dataOff := 0, filePos := 0, fileIndex := s.fileIndex + 1 }
    else .ub
  else .ok s

theorem slabWrite_eq (E : Env) (s : Slab) (d : Bytes) : slabWrite E s d = (check (d.length ≤ E.cfg.maxFile) >>= fun _ =>
    natRoll E (if s.offsetsLen == 0 then { s with offsetsLen := 1 } else s) d.length >>= fun s =>
      .ok { s with data := s.data ++ d, dataOff := s.dataOff + d.length, filePos := s.filePos + d.length }) := by
  unfold slabWrite natRoll
  generalize (if s.offsetsLen == 0 then { s with offsetsLen := 1 } else s) = s1
  cases check (decide (d.length ≤ E.cfg.maxFile)) <;> try rfl
  simp only [Res.bind_ok]
  by_cases h : s1.filePos + d.length > E.cfg.maxFile
  · rw [if_pos h, if_pos h]
    split <;> split <;> rfl
  · rw [if_neg h, if_neg h]; rfl

/-- The second step: a new file, if the record does not fit. -/
theorem slab_second {w : Nat} (hw : w = 32 ∨ w = 64) {E : Env} (hl : RealLimits E) {s : MSlab w} (hs : s.Ok) (h1 : 1 ≤ s.offsetsLen.toNat) {n : Nat} (hn : n ≤ 1023) (hf : s.written < 2 ^ 58)
    (hd : s.data.length * 3 < 2 ^ w) : ∃ s2 : MSlab w,
    mRoll E s (BitVec.ofNat w n) = .ok s2 ∧
    natRoll E s.nat n = .ok s2.nat ∧ s2.Ok ∧ s2.data = s.data ∧ s2.dataLen = s.dataLen ∧ s2.filePos.toNat + n ≤ 0x7ffff000 ∧ s2.written ≤ s.written := by
  have hW : 2 ^ 32 ≤ 2 ^ w := by rcases hw with rfl | rfl <;> decide
  have hW2 : 2 ^ w ≤ 2 ^ 64 := by rcases hw with rfl | rfl <;> decide
  have hlen2 : ((BitVec.ofNat w n).setWidth 64).toNat = n := by rw [toNat_wide (by rw [toNat_ofNat_lt (by omega)]; omega), toNat_ofNat_lt (by omega)]
  have hpos := hs.pos
  have hsum : (s.filePos + (BitVec.ofNat w n).setWidth 64).toNat = s.filePos.toNat + n := by rw [toNat_add_lt (by rw [hlen2]; omega), hlen2]
  have hwr : s.written = 2 ^ 30 * s.fileIndex.toNat + s.filePos.toNat := rfl
  have hfi : s.fileIndex.toNat < 2 ^ 28 := by omega
  have hn1 : s.nat.filePos = s.filePos.toNat := rfl
  unfold mRoll natRoll
  rw [hsum, hn1, hl.1]
  by_cases hr : s.filePos.toNat + n > 0x7ffff000
  · rw [if_pos hr, if_pos hr]
    have hcap := hs.cap
    have hused := hs.used
    have hofs : (BitVec.ofNat w s.offsets.length).toNat = s.offsets.length := toNat_ofNat_lt (by omega)
    have e1 : (1#w).toNat = 1 := by rcases hw with rfl | rfl <;> rfl
    have e0 : (0#w).toNat = 0 := by rcases hw with rfl | rfl <;> rfl
    have e2 : (2#w).toNat = 2 := by rcases hw with rfl | rfl <;> rfl
    have hol : (s.offsetsLen + 1#w).toNat = s.offsetsLen.toNat + 1 := by rw [toNat_add_lt (by rw [e1]; omega), e1]
    have hroom : ((s.offsetsLen + 2#w) * BitVec.ofNat w (w / 8)).toNat / (w / 8) = s.offsetsLen.toNat + 2 := by
      rw [BitVec.toNat_mul, toNat_add_lt (by rw [e2]; omega), e2]
      rcases hw with rfl | rfl
      · show (s.offsetsLen.toNat + 2) * 4 % 2 ^ 32 / 4 = _
        omega
      · show (s.offsetsLen.toNat + 2) * 8 % 2 ^ 64 / 8 = _
        omega
    have hfi1 : (s.fileIndex + 1#32).toNat = s.fileIndex.toNat + 1 := by rw [toNat_add_lt (by show _ + 1 < _; omega)]; rfl
    have hlenn : s.nat.offsets.length = s.offsets.length := by show (List.map _ _).length = _; rw [List.length_map]
    have hoff : s.dataOff.toNat ≤ s.data.length := by have := hs.sum; omega
    -- the block for the offsets
    obtain ⟨s1, hs1, hd1, hd2, hd3, hd4, hd5, hd6, hd7, hd8, hol1, hroom1⟩ : ∃ s1 : MSlab w,
        mRoom s = s1 ∧
        s1.data = s.data ∧ s1.dataSize = s.dataSize ∧ s1.dataLen = s.dataLen ∧ s1.dataOff = s.dataOff ∧ s1.offsets = s.offsets ∧ s1.start = s.start ∧
        s1.filePos = s.filePos ∧ s1.fileIndex = s.fileIndex ∧
        s1.offsetsLen.toNat = (if s.nat.offsets.length == s.nat.offsetsLen then s.nat.offsetsLen + 1 else s.nat.offsetsLen) ∧
        s1.offRoom = s1.offsetsLen.toNat + 1 := by
      have hno : s.nat.offsetsLen = s.offsetsLen.toNat := rfl
      rw [hlenn, hno]
      by_cases h : s.offsets.length = s.offsetsLen.toNat
      · have : BitVec.ofNat w s.offsets.length = s.offsetsLen := BitVec.eq_of_toNat_eq (by rw [hofs, h])
        refine ⟨_, if_pos (by rw [this]; exact beq_self_eq_true _), rfl, rfl, rfl, rfl, rfl, rfl, rfl, rfl, ?_, ?_⟩
        · rw [if_pos (by simpa using h)]; exact hol
        · show _ = (s.offsetsLen + 1#w).toNat + 1
          rw [hol, ← hroom]
      · have : ¬ BitVec.ofNat w s.offsets.length = s.offsetsLen := fun e => h (by rw [← e, hofs])
        refine ⟨s, if_neg (by simpa using this), rfl, rfl, rfl, rfl, rfl, rfl, rfl, rfl, ?_, ?_⟩
        · rw [if_neg (by simpa using h)]
        · rw [hs.offRoom, if_neg (by omega)]
    have hge : s.offsets.length + 1 ≤ s1.offsetsLen.toNat ∧ s1.offsetsLen.toNat ≤ s.fileIndex.toNat + 2 := by
      rw [hol1]
      have hno : s.nat.offsetsLen = s.offsetsLen.toNat := rfl
      rw [hlenn, hno]
      by_cases h : s.offsets.length = s.offsetsLen.toNat
      · rw [if_pos (by simpa using h)]; omega
      · rw [if_neg (by simpa using h)]; omega
    dsimp only
    rw [hs1, if_pos (by rw [hd5, hroom1]; omega), ← hol1, if_pos (by rw [hlenn]; omega)]
    refine ⟨_, rfl, ?_, ⟨?_, ?_, ?_, ?_, ?_, ?_, ?_, ?_, ?_, ?_, ?_⟩, hd1, hd3, ?_, ?_⟩
    · show Res.ok _ = Res.ok (MSlab.nat _)
      simp only [MSlab.nat, hd1, hd4, hd5, hd6, hd8, e0, hfi1, List.map_append, List.map_cons, List.map_nil]
      rfl
    · show s1.dataLen.toNat = s1.data.length; rw [hd3, hd1]; exact hs.len
    · show s1.data.length ≤ s1.dataSize.toNat; rw [hd2, hd1]; exact hs.room
    · show (List.map BitVec.toNat (s1.offsets ++ [s1.dataOff])).sum + (0#w).toNat = s1.data.length
      rw [hd1, hd4, hd5, e0, List.map_append, List.sum_append]
      have := hs.sum
      simp; omega
    · show (0#w).toNat ≤ _; omega
    · intro o ho
      have ho' : o ∈ s1.offsets ++ [s1.dataOff] := ho
      rw [hd4, hd5] at ho'
      rcases List.mem_append.1 ho' with ho' | ho'
      · exact hs.offs o ho'
      · rw [List.mem_singleton.1 ho']
        have h3 := hs.off
        have h4 := hs.dmax
        omega
    · show (0#64).toNat ≤ _; simp
    · show s1.offsetsLen.toNat ≤ (s1.fileIndex + 1#32).toNat + 1
      rw [hd8, hfi1]; omega
    · show (s1.offsets ++ [s1.dataOff]).length ≤ s1.offsetsLen.toNat
      rw [hd5]; simp; omega
    · show s1.offRoom = if s1.offsetsLen.toNat = 0 then 0 else s1.offsetsLen.toNat + 1
      rw [if_neg (by omega), hroom1]
    · show s1.start.toNat ≤ (s1.offsets ++ [s1.dataOff]).length
      rw [hd6, hd5]
      have := hs.start
      simp; omega
    · show (0#w).toNat ≤ _; omega
    · show (0#64).toNat + n ≤ _
      simp; omega
    · show 2 ^ 30 * (s1.fileIndex + 1#32).toNat + (0#64).toNat ≤ s.written
      rw [hd8, hfi1, hwr]
      simp; omega
  · rw [if_neg hr, if_neg hr]
    exact ⟨s, rfl, rfl, hs, rfl, rfl, by omega, Nat.le_refl _⟩

/-- `urkel_slab_write` in machine integers. -/
theorem mSlabWrite_ok {w : Nat} (hw : w = 32 ∨ w = 64) {E : Env} (hl : RealLimits E) {s : MSlab w} (hs : s.Ok) {d : Bytes} (hd : d.length ≤ 1023)
    (hn : (s.data.length + d.length) * 3 < 2 ^ w) (hf : s.written < 2 ^ 58) :
    ∃ s', mSlabWrite E s d = .ok s' ∧ slabWrite E s.nat d = .ok s'.nat ∧ s'.Ok ∧ s'.data.length = s.data.length + d.length ∧ s'.written ≤ s.written + d.length ∧
      d.length ≤ s'.filePos.toNat := by
  have hl1 := hl.1
  have hW : 2 ^ 32 ≤ 2 ^ w := by rcases hw with rfl | rfl <;> decide
  have hW2 : 2 ^ w ≤ 2 ^ 64 := by rcases hw with rfl | rfl <;> decide
  have hlen : (BitVec.ofNat w d.length).toNat = d.length := toNat_ofNat_lt (by omega)
  have hlen2 : ((BitVec.ofNat w d.length).setWidth 64).toNat = d.length := by rw [toNat_wide (by omega), hlen]
  have hs0 := hs
  obtain ⟨s1, a1, a2, hs1, a3, a4, a5, a6⟩ := slab_first hw hs
  obtain ⟨s2, b1, b2, hs2, b3, b4, b5, b6⟩ := slab_second (n := d.length) hw hl hs1 a3 hd (by rw [a5]; exact hf) (by rw [a4]; omega)
  have hneeds : (s.dataLen + BitVec.ofNat w d.length).toNat = s.data.length + d.length := by rw [toNat_add_lt (by rw [hs.len, hlen]; omega), hs.len, hlen]
  have hg := mGrow_ge hw (size := s2.dataSize) (needs := s.dataLen + BitVec.ofNat w d.length) (by rw [hneeds]; exact hn)
  rw [hneeds] at hg
  have hl2 : s2.dataLen.toNat = s.data.length := by rw [b4, a6]; exact hs.len
  have hdl : s2.data.length = s.data.length := by rw [b3, a4]
  have hp : (s2.filePos + (BitVec.ofNat w d.length).setWidth 64).toNat = s2.filePos.toNat + d.length := by rw [toNat_add_lt (by rw [hlen2]; omega), hlen2]
  have hdo : s2.dataOff.toNat ≤ s2.data.length := by have := hs2.sum; omega
  have hdo2 : (s2.dataOff + BitVec.ofNat w d.length).toNat = s2.dataOff.toNat + d.length := by rw [toNat_add_lt (by rw [hlen]; omega), hlen]
  have hdl2 : (s2.dataLen + BitVec.ofNat w d.length).toNat = s2.data.length + d.length := by rw [toNat_add_lt (by rw [hlen, hl2]; omega), hlen, hl2, hdl]
  have htake : s2.data.take s2.dataLen.toNat = s2.data := List.take_of_length_le (by omega)
  refine ⟨{ s2 with dataSize := mGrow s2.dataSize (s.dataLen + BitVec.ofNat w d.length), data := s2.data.take s2.dataLen.toNat ++ d, dataLen := s2.dataLen + BitVec.ofNat w d.length, dataOff := s2.dataOff + BitVec.ofNat w d.length, filePos := s2.filePos + (BitVec.ofNat w d.length).setWidth 64 }, ?_, ?_, ⟨?_, ?_, ?_, ?_, hs2.offs, ?_, hs2.cap, hs2.used, hs2.offRoom, hs2.start, ?_⟩, ?_, ?_, ?_⟩
  · unfold mSlabWrite
    dsimp only
    rw [check_of (by rw [hl1, hlen]; exact decide_eq_true (by omega)), Res.bind_ok, a1, b1, Res.bind_ok, if_neg (by rw [hl2]; omega)]
    rfl
  · rw [slabWrite_eq, check_of (by rw [hl1]; exact decide_eq_true (by omega)), Res.bind_ok, a2, b2, Res.bind_ok]
    simp only [MSlab.nat, htake, hp, hdo2]
  · show (s2.dataLen + BitVec.ofNat w d.length).toNat = (s2.data.take s2.dataLen.toNat ++ d).length
    rw [htake, hdl2, List.length_append]
  · show (s2.data.take s2.dataLen.toNat ++ d).length ≤ (mGrow _ _).toNat
    rw [htake, List.length_append, hdl]; exact hg
  · show _ + (s2.dataOff + BitVec.ofNat w d.length).toNat = (s2.data.take s2.dataLen.toNat ++ d).length
    rw [htake, List.length_append, hdo2, ← hs2.sum, Nat.add_assoc]
  · show (s2.dataOff + BitVec.ofNat w d.length).toNat ≤ (s2.filePos + _).toNat
    rw [hdo2, hp]
    have := hs2.off
    omega
  · show (s2.filePos + _).toNat ≤ _
    rw [hp]; omega
  · show (s2.dataOff + BitVec.ofNat w d.length).toNat ≤ _
    rw [hdo2]
    have := hs2.off
    omega
  · show (s2.data.take s2.dataLen.toNat ++ d).length = _
    rw [htake, List.length_append, hdl]
  · show 2 ^ 30 * s2.fileIndex.toNat + (s2.filePos + _).toNat ≤ _
    rw [hp]
    have : s2.written = 2 ^ 30 * s2.fileIndex.toNat + s2.filePos.toNat := rfl
    omega
  · show d.length ≤ (s2.filePos + _).toNat
    rw [hp]; omega

/-- `urkel_store_write` once the file is chosen (store.c:550, io_posix.c:1154-1185), in unbounded numbers and in machine integers. -/
def natAppend (fault : Option Fault) (d : Bytes) (s : Store) : Res (Store × Bool) :=
  if d.length = 0 then .ok (s, true)
  else match fault with
    | some (.writeFail k) => .ok ({ s with files := appendFile s.files s.index (d.take k), io := .append s.index (d.take k) :: s.io }, false)
    | some .mapFail =>
      .ok ({ s with files := appendFile s.files s.index d, curSize := s.curSize + d.length, io := .append s.index d :: s.io }, false)
    | _ =>
      .ok ({ s with files := appendFile s.files s.index d, curSize := s.curSize + d.length, io := .append s.index d :: s.io }, true)

def mAppend {w : Nat} (fault : Option Fault) (d : Bytes) (s : MStore w) : Res (MStore w × Bool) :=
  if BitVec.ofNat w d.length == 0#w then .ok (s, true)
  else match fault with
    | some (.writeFail k) => .ok ({ s with files := appendFile s.files s.index.toNat (d.take k), io := .append s.index.toNat (d.take k) :: s.io }, false)
    | some .mapFail =>
      .ok ({ s with files := appendFile s.files s.index.toNat d, curSize := s.curSize + (BitVec.ofNat w d.length).setWidth 64, io := .append s.index.toNat d :: s.io }, false)
    | _ =>
      .ok ({ s with files := appendFile s.files s.index.toNat d, curSize := s.curSize + (BitVec.ofNat w d.length).setWidth 64, io := .append s.index.toNat d :: s.io }, true)

theorem storeWrite_eq (E : Env) (s : Store) (d : Bytes) : storeWrite E s d =
    (if s.curSize + d.length > E.cfg.maxFile then
      if s.faults.head?.join = some .openFail then .ok ({ s with faults := s.faults.tail }, false)
      else if s.index + 1 ≥ E.cfg.maxFiles then .abort
      else
        let s1 : Store := if s.files.length ≤ s.index then { s with faults := s.faults.tail, files := s.files ++ [[]], io := .create (s.index + 1) :: s.io } else { s with faults := s.faults.tail }
        if s.faults.head?.join = some .syncFail then .ok (s1, false)
        else natAppend s.faults.head?.join d { s1 with index := s1.index + 1, curSize := (s1.files.getD s1.index []).length, io := .sync s1.index :: s1.io }
    else natAppend s.faults.head?.join d { s with faults := s.faults.tail }) := by
  rfl

theorem mStoreWrite_eq {w : Nat} (E : Env) (s : MStore w) (d : Bytes) : mStoreWrite E s d =
    (if (s.curSize + (BitVec.ofNat w d.length).setWidth 64).toNat > E.cfg.maxFile then
      if s.faults.head?.join = some .openFail then .ok ({ s with faults := s.faults.tail }, false)
      else if (s.index + 1#32).toNat ≥ E.cfg.maxFiles then .abort
      else
        let s1 : MStore w := if s.files.length ≤ s.index.toNat then { s with faults := s.faults.tail, files := s.files ++ [[]], io := .create (s.index + 1#32).toNat :: s.io } else { s with faults := s.faults.tail }
        if s.faults.head?.join = some .syncFail then .ok (s1, false)
        else mAppend s.faults.head?.join d { s1 with index := s1.index + 1#32, curSize := BitVec.ofNat 64 (s1.files.getD s1.index.toNat []).length, io := .sync s1.index.toNat :: s1.io }
    else mAppend s.faults.head?.join d { s with faults := s.faults.tail }) := by
  rfl

theorem appendFile_other {files : List Bytes} {i j : Nat} {d f : Bytes} (h1 : 1 ≤ i) (h : i ≤ j) (e : (appendFile files i d)[j]? = some f) : files[j]? = some f := by
  unfold appendFile at e
  rw [List.getElem?_modify] at e
  have hne : ¬ i - 1 = j := by omega
  simpa [hne] using e

/-- The store is fine, and the buffer is that of `m`. -/
def KeepsBuf {w : Nat} (m : MStore w) (m' : MStore w) : Prop := m'.Ok ∧ m'.slab = m.slab

theorem mAppend_match {w : Nat} (hw : w = 32 ∨ w = 64) {fault : Option Fault} {d : Bytes} (hd : d.length ≤ 0x7ffff000) {m : MStore w} (hm : m.Ok) (h1 : 1 ≤ m.index.toNat)
    (hc : m.curSize.toNat + d.length ≤ 2 ^ 34) : Match (mAppend fault d m) (natAppend fault d m.nat) (fun m' _ => KeepsBuf m m' ∧ m'.index = m.index) := by
  have hW : 2 ^ 32 ≤ 2 ^ w := by rcases hw with rfl | rfl <;> decide
  have hW2 : 2 ^ w ≤ 2 ^ 64 := by rcases hw with rfl | rfl <;> decide
  have e0 : (0#w).toNat = 0 := by rcases hw with rfl | rfl <;> rfl
  have hlen : (BitVec.ofNat w d.length).toNat = d.length := toNat_ofNat_lt (by omega)
  have hlen2 : ((BitVec.ofNat w d.length).setWidth 64).toNat = d.length := by rw [toNat_wide (by omega), hlen]
  have hcs : (m.curSize + (BitVec.ofNat w d.length).setWidth 64).toNat = m.curSize.toNat + d.length := by rw [toNat_add_lt (by rw [hlen2]; omega), hlen2]
  unfold mAppend natAppend
  by_cases hz : d.length = 0
  · rw [if_pos hz, if_pos (by rw [hz]; exact beq_self_eq_true _)]
    exact ⟨m, rfl, rfl, ⟨hm, rfl⟩, rfl⟩
  · rw [if_neg hz, if_neg]
    · have ok : ∀ (x : Bytes) (c : BitVec 64) (io : List IoEv), c.toNat ≤ 2 ^ 34 → MStore.Ok { m with files := appendFile m.files m.index.toNat x, curSize := c, io := io } :=
        fun x c io hc => ⟨hm.slab, hm.index, hc, fun j f hj hf => hm.next j f hj (appendFile_other h1 hj hf)⟩
      split
      · exact ⟨_, rfl, rfl, ⟨ok _ _ _ hm.cur, rfl⟩, rfl⟩
      · refine ⟨_, rfl, ?_, ⟨ok _ _ _ (by rw [hcs]; exact hc), rfl⟩, rfl⟩
        simp only [MStore.nat, hcs]
      · refine ⟨_, rfl, ?_, ⟨ok _ _ _ (by rw [hcs]; exact hc), rfl⟩, rfl⟩
        simp only [MStore.nat, hcs]
    · intro h
      have := congrArg BitVec.toNat (beq_iff_eq.1 h)
      rw [hlen, e0] at this
      exact hz this

/-- `urkel_store_write` in machine integers. -/
theorem mStoreWrite_match {w : Nat} (hw : w = 32 ∨ w = 64) {E : Env} (hl : RealLimits E) {d : Bytes} (hd : d.length ≤ 0x7ffff000) {m : MStore w} (hm : m.Ok) (h1 : 1 ≤ m.index.toNat) :
    Match (mStoreWrite E m d) (storeWrite E m.nat d) (fun m' _ => KeepsBuf m m' ∧ 1 ≤ m'.index.toNat) := by
  have hW : 2 ^ 32 ≤ 2 ^ w := by rcases hw with rfl | rfl <;> decide
  have hW2 : 2 ^ w ≤ 2 ^ 64 := by rcases hw with rfl | rfl <;> decide
  have hlen : (BitVec.ofNat w d.length).toNat = d.length := toNat_ofNat_lt (by omega)
  have hlen2 : ((BitVec.ofNat w d.length).setWidth 64).toNat = d.length := by rw [toNat_wide (by omega), hlen]
  have hcur := hm.cur
  have hcs : (m.curSize + (BitVec.ofNat w d.length).setWidth 64).toNat = m.curSize.toNat + d.length := by rw [toNat_add_lt (by rw [hlen2]; omega), hlen2]
  have hix := hm.index
  have hi1 : (m.index + 1#32).toNat = m.index.toNat + 1 := by rw [toNat_add_lt (by show _ + 1 < _; omega)]; rfl
  rw [mStoreWrite_eq, storeWrite_eq, hcs, hi1, hl.1, hl.2.1]
  have n1 : m.nat.curSize = m.curSize.toNat := rfl
  have n2 : m.nat.faults = m.faults := rfl
  have n3 : m.nat.index = m.index.toNat := rfl
  have n4 : m.nat.files = m.files := rfl
  rw [n1, n2, n3, n4]
  have ok : MStore.Ok { m with faults := m.faults.tail } := ⟨hm.slab, hm.index, hm.cur, hm.next⟩
  by_cases hr : m.curSize.toNat + d.length > 0x7ffff000
  · rw [if_pos hr, if_pos hr]
    by_cases hf : m.faults.head?.join = some .openFail
    · rw [if_pos hf, if_pos hf]
      exact ⟨_, rfl, rfl, ⟨ok, rfl⟩, h1⟩
    · rw [if_neg hf, if_neg hf]
      by_cases hx : m.index.toNat + 1 ≥ 0x7fff
      · rw [if_pos hx, if_pos hx]; rfl
      · rw [if_neg hx, if_neg hx]
        dsimp only
        obtain ⟨m1, hm1, hn1, hok1, hsl1, hi1'⟩ : ∃ m1 : MStore w,
            (if m.files.length ≤ m.index.toNat then { m with faults := m.faults.tail, files := m.files ++ [[]], io := .create (m.index.toNat + 1) :: m.io } else { m with faults := m.faults.tail }) = m1 ∧
            (if m.files.length ≤ m.index.toNat then { m.nat with faults := m.faults.tail, files := m.files ++ [[]], io := .create (m.index.toNat + 1) :: m.nat.io } else { m.nat with faults := m.faults.tail }) = m1.nat ∧
            m1.Ok ∧ m1.slab = m.slab ∧ m1.index = m.index := by
          by_cases hc : m.files.length ≤ m.index.toNat
          · refine ⟨_, if_pos hc, if_pos hc, ⟨hm.slab, hm.index, hm.cur, fun j f hj hf => ?_⟩, rfl, rfl⟩
            have hf' : (m.files ++ [[]])[j]? = some f := hf
            have hj' : m.index.toNat ≤ j := hj
            rw [List.getElem?_append_right (by omega)] at hf'
            have : f = [] := by
              rw [List.getElem?_singleton] at hf'
              split at hf' <;> cases hf'
              rfl
            subst this
            simp
          · exact ⟨_, if_neg hc, if_neg hc, ok, rfl, rfl⟩
        rw [hm1]
        by_cases hs : m.faults.head?.join = some .syncFail
        · rw [if_pos hs, if_pos hs]
          refine ⟨_, rfl, hn1.symm, ⟨hok1, hsl1⟩, by rw [hi1']; exact h1⟩
        · rw [if_neg hs, if_neg hs]
          have key : ((m1.files.getD m1.index.toNat []).length) ≤ 2 ^ 32 := by
            rw [List.getD_eq_getElem?_getD]
            cases hg : m1.files[m1.index.toNat]? with
            | none => simp
            | some f => exact hok1.next _ f (Nat.le_refl _) hg
          have hcu : (BitVec.ofNat 64 (m1.files.getD m1.index.toNat []).length).toNat = (m1.files.getD m1.index.toNat []).length := toNat_ofNat_lt (by omega)
          have hix1 : (m1.index + 1#32).toNat = m1.index.toNat + 1 := by rw [hi1']; exact hi1
          have hok2 : MStore.Ok { m1 with index := m1.index + 1#32, curSize := BitVec.ofNat 64 (m1.files.getD m1.index.toNat []).length, io := .sync m1.index.toNat :: m1.io } :=
            ⟨hok1.slab, by show (m1.index + 1#32).toNat < _; rw [hix1, hi1']; omega, by show (BitVec.ofNat 64 _).toNat ≤ _; rw [hcu]; omega,
              fun j f hj hf => hok1.next j f (by have hj' : (m1.index + 1#32).toNat ≤ j := hj; rw [hix1] at hj'; omega) hf⟩
          have hA := mAppend_match hw (fault := m.faults.head?.join) hd hok2 (by show 1 ≤ (m1.index + 1#32).toNat; rw [hix1]; omega)
            (by show (BitVec.ofNat 64 _).toNat + _ ≤ _; rw [hcu]; omega)
          have hnat : MStore.nat { m1 with index := m1.index + 1#32, curSize := BitVec.ofNat 64 (m1.files.getD m1.index.toNat []).length, io := .sync m1.index.toNat :: m1.io } =
              { m1.nat with index := m1.nat.index + 1, curSize := (m1.nat.files.getD m1.nat.index []).length, io := .sync m1.nat.index :: m1.nat.io } := by
            simp only [MStore.nat, hcu, hix1]
          rw [hnat, ← hn1] at hA
          refine hA.mono fun m' a h => ⟨⟨h.1.1, h.1.2.trans hsl1⟩, ?_⟩
          rw [h.2]
          show 1 ≤ (m1.index + 1#32).toNat
          rw [hix1]; omega
  · rw [if_neg hr, if_neg hr]
    exact (mAppend_match hw hd ok h1 (by show m.curSize.toNat + _ ≤ _; omega)).mono fun m' a h => ⟨⟨h.1.1, h.1.2⟩, by rw [h.2]; exact h1⟩

theorem Res.assoc {α β γ : Type} (x : Res α) (f : α → Res β) (g : β → Res γ) : (x >>= f) >>= g = x >>= fun a => f a >>= g := by cases x <;> rfl

/-- The write loop of `urkel_store_flush` in machine integers. -/
theorem mFlushLoop_match {w : Nat} (hw : w = 32 ∨ w = 64) {E : Env} (hl : RealLimits E) : ∀ (offs : List (BitVec w)) (data : Bytes) (i : BitVec w) (m : MStore w), m.Ok → 1 ≤ m.index.toNat →
    (∀ o ∈ offs, o.toNat ≤ 0x7ffff000) → (offs.map BitVec.toNat).sum ≤ data.length → i.toNat + offs.length < 2 ^ w →
    Match (mFlushLoop E offs data i m >>= fun x => .ok (x.1, x.2.map BitVec.toNat)) (flushLoop E (offs.map BitVec.toNat) data i.toNat m.nat)
      (fun m' r => KeepsBuf m m' ∧ 1 ≤ m'.index.toNat ∧ ∀ j, r = some j → i.toNat ≤ j ∧ j < i.toNat + offs.length)
  | [], data, i, m, hm, h1, _, _, _ => ⟨m, rfl, rfl, ⟨hm, rfl⟩, h1, fun _ h => nomatch h⟩
  | len :: rest, data, i, m, hm, h1, ho, hs, hi => by
    have e1 : (1#w).toNat = 1 := by rcases hw with rfl | rfl <;> rfl
    rw [List.length_cons] at hi
    have hi1 : (i + 1#w).toNat = i.toNat + 1 := by rw [toNat_add_lt (by rw [e1]; omega), e1]
    rw [List.map_cons, List.sum_cons] at hs
    have hlen := ho len (.head _)
    rw [mFlushLoop, List.map_cons, flushLoop, if_neg (by omega), Res.assoc]
    refine (mStoreWrite_match hw hl (d := data.take len.toNat) (by rw [List.length_take]; omega) hm h1).bind fun m1 ok h => ?_
    cases ok with
    | false => exact ⟨m1, rfl, rfl, h.1, h.2, fun j hj => by cases hj; rw [List.length_cons]; omega⟩
    | true =>
      have ih := mFlushLoop_match hw hl rest (data.drop len.toNat) (i + 1#w) m1 h.1.1 h.2 (fun o h => ho o (.tail _ h)) (by rw [List.length_drop]; omega) (by omega)
      rw [hi1] at ih
      refine ih.mono fun m' r hq => ⟨⟨hq.1.1, hq.1.2.trans h.1.2⟩, hq.2.1, fun j hj => ?_⟩
      have := hq.2.2 j hj
      rw [List.length_cons]; omega

/-- All is well, with at most `D` bytes in the buffer and at most `P` bytes gone through it. -/
structure Well {w : Nat} (D P : Nat) (m : MStore w) : Prop where
  ok : m.Ok
  one : 1 ≤ m.index.toNat
  data : m.slab.data.length ≤ D
  written : m.slab.written ≤ P

theorem Well.mono {w : Nat} {D P D' P' : Nat} {m : MStore w} (h : Well D P m) (hd : D ≤ D') (hp : P ≤ P') : Well D' P' m :=
  ⟨h.ok, h.one, Nat.le_trans h.data hd, Nat.le_trans h.written hp⟩

theorem take_sum_le (l : List Nat) (n : Nat) : (l.take n).sum + (l.drop n).sum = l.sum := by
  rw [← List.sum_append, List.take_append_drop]

theorem natFlush_eq (E : Env) (s : Store) : storeFlush E s =
    if s.slab.offsetsLen = 0 ∨ s.slab.offsets.length > s.slab.offsetsLen then .ub
    else flushLoop E ((s.slab.offsets ++ [s.slab.dataOff]).drop s.slab.start) (s.slab.data.drop ((s.slab.offsets ++ [s.slab.dataOff]).take s.slab.start).sum) s.slab.start s >>= fun x =>
      match x.2 with
      | some i => .ok ({ x.1 with slab := { x.1.slab with start := i } }, false)
      | none => .ok ({ x.1 with slab := { x.1.slab with data := [], dataOff := 0, offsets := [], start := 0 } }, true) := by
  rfl

theorem mFlush_eq {w : Nat} (E : Env) (s : MStore w) : mStoreFlush E s =
    if s.slab.offsets.length ≥ s.slab.offRoom then .ub
    else (mFlushLoop E ((s.slab.offsets ++ [s.slab.dataOff]).drop s.slab.start.toNat)
        (s.slab.data.drop (((s.slab.offsets ++ [s.slab.dataOff]).take s.slab.start.toNat).map BitVec.toNat).sum) s.slab.start s >>= fun x => .ok (x.1, x.2.map BitVec.toNat)) >>= fun x =>
      match x.2 with
      | some i => .ok ({ x.1 with slab := { x.1.slab with start := BitVec.ofNat w i } }, false)
      | none => .ok ({ x.1 with slab := { x.1.slab with data := [], dataLen := 0#w, dataOff := 0#w, offsets := [], start := 0#w } }, true) := by
  unfold mStoreFlush
  dsimp only
  split
  · rfl
  · rw [Res.assoc]
    congr 1
    funext x
    obtain ⟨s1, r⟩ := x
    cases r with
    | none => rfl
    | some i => simp

/-- `urkel_store_flush` in machine integers. -/
theorem mStoreFlush_match {w : Nat} (hw : w = 32 ∨ w = 64) {E : Env} (hl : RealLimits E) {D P : Nat} (hP : P < 2 ^ 59) {m : MStore w} (hm : Well D P m) :
    Match (mStoreFlush E m) (storeFlush E m.nat) (fun m' ok => Well (if ok then 0 else D) P m') := by
  have hW : 2 ^ 32 ≤ 2 ^ w := by rcases hw with rfl | rfl <;> decide
  have e0 : (0#w).toNat = 0 := by rcases hw with rfl | rfl <;> rfl
  rw [mFlush_eq, natFlush_eq]
  have hs := hm.ok.slab
  have hlen : m.nat.slab.offsets.length = m.slab.offsets.length := by show (List.map _ _).length = _; rw [List.length_map]
  have n1 : m.nat.slab.offsetsLen = m.slab.offsetsLen.toNat := rfl
  have n2 : m.nat.slab.start = m.slab.start.toNat := rfl
  have n3 : m.nat.slab.offsets ++ [m.nat.slab.dataOff] = (m.slab.offsets ++ [m.slab.dataOff]).map BitVec.toNat := by rw [List.map_append]; rfl
  have n4 : m.nat.slab.data = m.slab.data := rfl
  have hroom := hs.offRoom
  have hused := hs.used
  rw [hlen, n1, n2, n3, n4]
  by_cases h0 : m.slab.offsetsLen.toNat = 0
  · rw [if_pos (by rw [hroom, if_pos h0]; exact Nat.zero_le _), if_pos (.inl h0)]
    rfl
  · rw [if_neg (by rw [hroom, if_neg h0]; omega), if_neg (by omega)]
    have hst := hs.start
    have hcap := hs.cap
    have hwr : m.slab.written = 2 ^ 30 * m.slab.fileIndex.toNat + m.slab.filePos.toNat := rfl
    have hwr2 := hm.written
    have hol : m.slab.offsets.length < 2 ^ 30 := by omega
    have hsum : ((m.slab.offsets ++ [m.slab.dataOff]).map BitVec.toNat).sum = m.slab.data.length := by
      rw [List.map_append, List.sum_append]
      have := hs.sum
      simp; omega
    rw [← List.map_take, ← List.map_drop]
    refine (mFlushLoop_match hw hl _ _ m.slab.start m hm.ok hm.one ?_ ?_ ?_).bind fun m1 r h => ?_
    · intro o ho
      rcases List.mem_append.1 (List.mem_of_mem_drop ho) with ho | ho
      · exact hs.offs o ho
      · rw [List.mem_singleton.1 ho]; exact hs.dmax
    · have := take_sum_le ((m.slab.offsets ++ [m.slab.dataOff]).map BitVec.toNat) m.slab.start.toNat
      rw [← List.map_take, ← List.map_drop, hsum] at this
      rw [List.length_drop]; omega
    · rw [List.length_drop, List.length_append]
      simp; omega
    · obtain ⟨⟨hk1, hk2⟩, hk3, hk4⟩ := h
      cases r with
      | some j =>
        have hj := hk4 j rfl
        rw [List.length_drop, List.length_append, List.length_singleton] at hj
        have hjn : (BitVec.ofNat w j).toNat = j := toNat_ofNat_lt (by omega)
        refine ⟨_, rfl, ?_, ⟨⟨⟨?_, ?_, ?_, ?_, ?_, ?_, ?_, ?_, ?_, ?_, ?_⟩, hk1.index, hk1.cur, hk1.next⟩, hk3, ?_, ?_⟩⟩
        · simp only [MStore.nat, MSlab.nat, hjn]
        · exact hk1.slab.len
        · exact hk1.slab.room
        · exact hk1.slab.sum
        · exact hk1.slab.off
        · exact hk1.slab.offs
        · exact hk1.slab.pos
        · exact hk1.slab.cap
        · exact hk1.slab.used
        · exact hk1.slab.offRoom
        · show (BitVec.ofNat w j).toNat ≤ m1.slab.offsets.length
          rw [hjn, hk2]; omega
        · exact hk1.slab.dmax
        · show m1.slab.data.length ≤ _
          rw [hk2]; exact hm.data
        · show 2 ^ 30 * m1.slab.fileIndex.toNat + m1.slab.filePos.toNat ≤ P
          rw [hk2]; exact hm.written
      | none =>
        refine ⟨_, rfl, ?_, ⟨⟨⟨?_, ?_, ?_, ?_, ?_, ?_, ?_, ?_, ?_, ?_, ?_⟩, hk1.index, hk1.cur, hk1.next⟩, hk3, ?_, ?_⟩⟩
        · simp only [MStore.nat, MSlab.nat, e0, List.map_nil]
        · exact e0
        · exact Nat.zero_le _
        · show (List.map _ []).sum + (0#w).toNat = 0; rw [e0]; rfl
        · show (0#w).toNat ≤ _; rw [e0]; exact Nat.zero_le _
        · exact fun o ho => nomatch ho
        · exact hk1.slab.pos
        · exact hk1.slab.cap
        · exact Nat.zero_le _
        · exact hk1.slab.offRoom
        · show (0#w).toNat ≤ _; rw [e0]; exact Nat.zero_le _
        · show (0#w).toNat ≤ _; rw [e0]; exact Nat.zero_le _
        · exact Nat.le_refl 0
        · show 2 ^ 30 * m1.slab.fileIndex.toNat + m1.slab.filePos.toNat ≤ P
          rw [hk2]; exact hm.written

/-- One piece through the write buffer. -/
theorem mPiece {w : Nat} (hw : w = 32 ∨ w = 64) {E : Env} (hl : RealLimits E) {D P : Nat} {m : MStore w} (hm : Well D P m) {d : Bytes} (hd : d.length ≤ 1023)
    (hD : (D + d.length) * 3 < 2 ^ w) (hP : P < 2 ^ 58) :
    ∃ s', mSlabWrite E m.slab d = .ok s' ∧ slabWrite E m.nat.slab d = .ok s'.nat ∧ Well (D + d.length) (P + d.length) { m with slab := s' } ∧ d.length ≤ s'.filePos.toNat ∧
      s'.filePos.toNat < 2 ^ 64 := by
  have h1 := hm.data
  have h2 := hm.written
  obtain ⟨s', a, b, c, e, f, g⟩ := mSlabWrite_ok hw hl hm.ok.slab hd (by omega) (by omega)
  exact ⟨s', a, b, ⟨⟨c, hm.ok.index, hm.ok.cur, hm.ok.next⟩, hm.one, by show s'.data.length ≤ _; omega, by show s'.written ≤ _; omega⟩, g, s'.filePos.isLt⟩

theorem sub_wide {w : Nat} (hw : w = 32 ∨ w = 64) {a : BitVec 64} {n : Nat} (hn : n ≤ 1023) (h : n ≤ a.toNat) :
    (a - (BitVec.ofNat w n).setWidth 64).toNat = a.toNat - n := by
  have hW : 2 ^ 32 ≤ 2 ^ w := by rcases hw with rfl | rfl <;> decide
  have hW2 : 2 ^ w ≤ 2 ^ 64 := by rcases hw with rfl | rfl <;> decide
  have e : ((BitVec.ofNat w n).setWidth 64).toNat = n := by rw [toNat_wide (by rw [toNat_ofNat_lt (by omega)]; omega), toNat_ofNat_lt (by omega)]
  rw [BitVec.toNat_sub, e]
  have := a.isLt
  omega

theorem mWriteValue_match {w : Nat} (hw : w = 32 ∨ w = 64) {E : Env} (hl : RealLimits E) {D P : Nat} (hP : P < 2 ^ 58) {m : MStore w} (hm : Well D P m) (hD : (D + 1023) * 3 < 2 ^ w)
    {n : Node} (hn : Fit n) : Match (mWriteValue E m n) (storeWriteValue E m.nat n)
      (fun m' n' => Well (D + 1023) (P + 1023) m' ∧ ∀ h p k v vp, n = .leaf h p k v vp → ∃ vp', n' = .leaf h p k v (some vp')) := by
  have hW : 2 ^ 32 ≤ 2 ^ w := by rcases hw with rfl | rfl <;> decide
  unfold mWriteValue storeWriteValue
  split
  · next h p k v =>
    obtain ⟨_, hv⟩ := hn
    have hv : v.length ≤ 1023 := by
      rcases hv with ⟨x, e, hx⟩ | ⟨e, _⟩ <;> cases e
      exact hx
    obtain ⟨s', a, b, c, d, _⟩ := mPiece hw hl hm (d := v) hv (by omega) hP
    dsimp only
    rw [a, b, Res.bind_ok, Res.bind_ok, sub_wide hw hv d, toNat_ofNat_lt (by omega)]
    refine ⟨{ m with slab := s' }, rfl, rfl, c.mono (by omega) (by omega), fun h p k v vp e => ?_⟩
    cases e
    exact ⟨_, rfl⟩
  · next h =>
    split
    · next h' p k v => exact absurd rfl (h h' p k v)
    · rfl

theorem mWriteNode_match {w : Nat} (hw : w = 32 ∨ w = 64) {E : Env} (hl : RealLimits E) {D P : Nat} (hP : P < 2 ^ 58) {m : MStore w} (hm : Well D P m) (hD : (D + 113) * 3 < 2 ^ w)
    {n : Node} (hn : (∃ h p k v vp, n = .leaf h p k v (some vp)) ∨ ∃ h p pre l r, n = .internal h p pre l r ∧ pre.size ≤ 256) :
    Match (mWriteNode E m n) (storeWriteNode E m.nat n) (fun m' _ => Well (D + 113) (P + 113) m') := by
  have hW : 2 ^ 32 ≤ 2 ^ w := by rcases hw with rfl | rfl <;> decide
  unfold mWriteNode storeWriteNode
  refine Match.pure fun raw hraw => ?_
  have hlen : raw.length ≤ 113 := by
    rcases hn with ⟨h, p, k, v, vp, rfl⟩ | ⟨h, p, pre, l, r, rfl, hp⟩
    · have := length_leaf hraw; omega
    · exact length_internal hp hraw
  obtain ⟨s', a, b, c, d, _⟩ := mPiece hw hl hm (d := raw) (by omega) (by omega) hP
  have hc := c.mono (show D + raw.length ≤ D + 113 by omega) (show P + raw.length ≤ P + 113 by omega)
  rcases hn with ⟨h, p, k, v, vp, rfl⟩ | ⟨h, p, pre, l, r, rfl, hp⟩
  · cases p with
    | some p => rfl
    | none =>
      dsimp only
      rw [a, b, Res.bind_ok, Res.bind_ok, sub_wide hw (by omega) d, toNat_ofNat_lt (by omega)]
      exact ⟨{ m with slab := s' }, rfl, rfl, hc⟩
  · cases p with
    | some p => rfl
    | none =>
      dsimp only
      rw [a, b, Res.bind_ok, Res.bind_ok, sub_wide hw (by omega) d, toNat_ofNat_lt (by omega)]
      exact ⟨{ m with slab := s' }, rfl, rfl, hc⟩

theorem natHash_eq (E : Env) (s : Store) (n : Node) (wrote : Bool) : flushAndHash E s n wrote =
    (if wrote && needsFlush E s then storeFlush E s else .ok (s, true)) >>= fun x =>
      if !x.2 then .ok (x.1, none)
      else nodeHash E.H n >>= fun y => toHash y.2 >>= fun o => .ok (x.1, some o) := by
  unfold flushAndHash
  split <;> rfl

theorem mHash_eq {w : Nat} (E : Env) (s : MStore w) (n : Node) (wrote : Bool) : mFlushAndHash E s n wrote =
    (if wrote && mNeedsFlush E s then mStoreFlush E s else .ok (s, true)) >>= fun x =>
      if !x.2 then .ok (x.1, none)
      else nodeHash E.H n >>= fun y => toHash y.2 >>= fun o => .ok (x.1, some o) := by
  unfold mFlushAndHash
  split <;> rfl

theorem mFlushAndHash_match {w : Nat} (hw : w = 32 ∨ w = 64) {E : Env} (hl : RealLimits E) {D X P : Nat} (hP : P < 2 ^ 59) {m : MStore w} (hm : Well (D + X) P m) (hwb : E.cfg.writeBuf ≤ D)
    {n : Node} {wrote : Bool} (hx : wrote = false → X = 0) :
    Match (mFlushAndHash E m n wrote) (flushAndHash E m.nat n wrote) (fun m' r => Well (if r.isSome then D else D + X) P m') := by
  rw [mHash_eq, natHash_eq]
  have hnf : mNeedsFlush E m = needsFlush E m.nat := by
    unfold mNeedsFlush needsFlush
    rw [hm.ok.slab.len]; rfl
  rw [hnf]
  refine Match.bind (Q := fun m' ok => Well (if ok then D else D + X) P m') ?_ fun m1 ok h => ?_
  · by_cases hc : (wrote && needsFlush E m.nat) = true
    · rw [if_pos hc, if_pos hc]
      refine (mStoreFlush_match hw hl hP hm).mono fun m' ok h => ?_
      cases ok with
      | true => exact h.mono (Nat.zero_le _) (Nat.le_refl _)
      | false => exact h
    · rw [if_neg hc, if_neg hc]
      refine ⟨m, rfl, rfl, hm.ok, hm.one, ?_, hm.written⟩
      have hd := hm.data
      show m.slab.data.length ≤ D
      cases wrote with
      | false => have := hx rfl; omega
      | true =>
        have : ¬ m.slab.data.length ≥ E.cfg.writeBuf := fun h => hc (by rw [Bool.true_and]; exact decide_eq_true h)
        omega
  · cases ok with
    | false => exact ⟨m1, rfl, rfl, h⟩
    | true =>
      show Match (nodeHash E.H n >>= fun y => toHash y.2 >>= fun o => .ok (m1, some o)) (nodeHash E.H n >>= fun y => toHash y.2 >>= fun o => .ok (m1.nat, some o)) _
      refine Match.pure fun y _ => Match.pure fun o _ => ?_
      exact ⟨m1, rfl, rfl, h⟩

theorem leafBounds {P D w : Nat} (hP : P + 1136 < 2 ^ 58) (hD : (D + 1136) * 3 < 2 ^ w) :
    P < 2 ^ 58 ∧ P + 1023 < 2 ^ 58 ∧ P + 1136 < 2 ^ 59 ∧ (D + 1023) * 3 < 2 ^ w ∧ (D + 1023 + 113) * 3 < 2 ^ w := by omega

/-- `urkel_tree_write` in machine integers. -/
theorem mTreeWrite_match {w : Nat} (hw : w = 32 ∨ w = 64) {E : Env} (hl : RealLimits E) {D : Nat} (hwb : E.cfg.writeBuf ≤ D) (hD : (D + 1136) * 3 < 2 ^ w) :
    ∀ (n : Node) (m : MStore w) (P : Nat), Fit n → Well D P m → P + 1136 * n.inMemory < 2 ^ 58 →
      Match (mTreeWrite E n m) (treeWrite E n m.nat) (fun m' r => Well (if r.isSome then D else D + 1136) (P + 1136 * n.inMemory) m')
  | .null, m, P, _, hm, _ => ⟨m, rfl, rfl, hm.mono (Nat.le_refl _) (Nat.le_add_right _ _)⟩
  | .hash _ _, m, P, _, hm, _ => ⟨m, rfl, rfl, hm.mono (Nat.le_refl _) (Nat.le_add_right _ _)⟩
  | .leaf h p k v vp, m, P, hn, hm, hP => by
    rw [show (Node.leaf h p k v vp).inMemory = 1 from rfl, Nat.mul_one] at hP ⊢
    unfold mTreeWrite treeWrite
    cases p with
    | some p =>
      refine (mFlushAndHash_match (X := 0) hw hl (by omega) (hm.mono (Nat.le_refl _) (Nat.le_refl _)) hwb fun _ => rfl).mono fun m' r h => ?_
      exact h.mono (by cases r <;> simp) (by omega)
    | none =>
      obtain ⟨hP0, hP1, hP2, hD1, hD2⟩ := leafBounds hP hD
      refine (mWriteValue_match hw hl hP0 hm hD1 hn).bind fun m1 n1 h1 => ?_
      obtain ⟨vp', e⟩ := h1.2 _ _ _ _ _ rfl
      refine (mWriteNode_match hw hl hP1 h1.1 hD2 (.inl ⟨_, _, _, _, _, e⟩)).bind fun m2 n2 h2 => ?_
      have h2' : Well (D + 1136) (P + 1136) m2 := h2.mono (by omega) (by omega)
      exact mFlushAndHash_match hw hl hP2 h2' hwb (fun e => absurd e (by decide))
  | .internal h p pre l r, m, P, hn, hm, hP => by
    obtain ⟨hpre, _, _, hfl, hfr⟩ := hn
    have hi : (Node.internal h p pre l r).inMemory = 1 + l.inMemory + r.inMemory := rfl
    rw [hi] at hP ⊢
    unfold mTreeWrite treeWrite
    refine (mTreeWrite_match hw hl hwb hD l m P hfl hm (by omega)).bind fun m1 l1 h1 => ?_
    cases l1 with
    | none => exact ⟨m1, rfl, rfl, h1.mono (Nat.le_refl _) (by omega)⟩
    | some l1 =>
      refine (mTreeWrite_match hw hl hwb hD r m1 _ hfr h1 (by omega)).bind fun m2 r1 h2 => ?_
      cases r1 with
      | none => exact ⟨m2, rfl, rfl, h2.mono (Nat.le_refl _) (by omega)⟩
      | some r1 =>
        cases p with
        | some p =>
          refine (mFlushAndHash_match (X := 0) hw hl (by omega) (h2.mono (Nat.le_refl _) (Nat.le_refl _)) hwb fun _ => rfl).mono fun m' r h => ?_
          exact h.mono (by cases r <;> simp) (by omega)
        | none =>
          have hP1 : P + 1136 * l.inMemory + 1136 * r.inMemory < 2 ^ 58 := by omega
          have hP2 : P + 1136 * (1 + l.inMemory + r.inMemory) < 2 ^ 59 := by omega
          have hD1 : (D + 113) * 3 < 2 ^ w := by omega
          refine (mWriteNode_match hw hl hP1 h2 hD1 (.inr ⟨_, _, _, _, _, rfl, hpre.1⟩)).bind fun m3 n3 h3 => ?_
          have h3' : Well (D + 1136) (P + 1136 * (1 + l.inMemory + r.inMemory)) m3 := Well.mono (D := D + 113) (P := P + 1136 * l.inMemory + 1136 * r.inMemory + 113) h3 (by omega) (by omega)
          exact mFlushAndHash_match hw hl hP2 h3' hwb (fun e => absurd e (by decide))

/-- The padding in machine integers. -/
theorem mPadSlab_ok {w : Nat} (hw : w = 32 ∨ w = 64) {E : Env} (hl : RealLimits E) {D P : Nat} (hP : P < 2 ^ 58) {m : MStore w} (hm : Well D P m) (hD : (D + 38) * 3 < 2 ^ w) :
    ∃ s', mPadSlab E m.slab = .ok s' ∧ padSlab E m.nat.slab = .ok s'.nat ∧ Well (D + 38) (P + 38) { m with slab := s' } := by
  have hW : 2 ^ 32 ≤ 2 ^ w := by rcases hw with rfl | rfl <;> decide
  unfold mPadSlab padSlab
  have hn : m.nat.slab.filePos = m.slab.filePos.toNat := rfl
  have hm38 : (m.slab.filePos % 38#64).toNat = m.slab.filePos.toNat % 38 := by rw [BitVec.toNat_umod]; rfl
  rw [hn, hm38]
  by_cases hz : m.slab.filePos.toNat % 38 ≠ 0
  · have hlt : m.slab.filePos.toNat % 38 < 38 := Nat.mod_lt _ (by decide)
    have e : ((38#64 - m.slab.filePos % 38#64).setWidth w).toNat = 38 - m.slab.filePos.toNat % 38 := by
      rw [BitVec.toNat_setWidth, BitVec.toNat_sub, hm38]
      have h38 : (38#64).toNat = 38 := rfl
      rw [h38]
      have : (2 ^ 64 - m.slab.filePos.toNat % 38 + 38) % 2 ^ 64 = 38 - m.slab.filePos.toNat % 38 := by omega
      rw [this]
      exact Nat.mod_eq_of_lt (by omega)
    rw [if_pos hz, e, if_pos (show m.slab.filePos.toNat % metaSize ≠ 0 from hz)]
    have hle : (List.replicate (38 - m.slab.filePos.toNat % 38) (0 : UInt8)).length ≤ 38 := by simp
    obtain ⟨s', a, b, c, d, _⟩ := mPiece hw hl hm (d := List.replicate (38 - m.slab.filePos.toNat % 38) 0) (by omega) (by omega) hP
    exact ⟨s', a, b, c.mono (by omega) (by omega)⟩
  · rw [if_neg hz, if_neg (show ¬ m.slab.filePos.toNat % metaSize ≠ 0 from hz)]
    exact ⟨m.slab, rfl, rfl, hm.mono (Nat.le_add_right _ _) (Nat.le_add_right _ _)⟩

theorem mWriteMeta_match {w : Nat} (hw : w = 32 ∨ w = 64) {E : Env} (hE : EnvOk E) (hl : RealLimits E) {D P : Nat} (hP : P + 38 < 2 ^ 58) {m : MStore w} (hm : Well D P m) (hD : (D + 76) * 3 < 2 ^ w)
    (root : Node) : Match (mWriteMeta E m root) (storeWriteMeta E m.nat root) (fun m' _ => Well (D + 76) (P + 76) m') := by
  unfold mWriteMeta storeWriteMeta
  refine Match.pure fun rp _ => Match.pure fun rn _ => ?_
  dsimp only
  obtain ⟨s1, a1, b1, c1⟩ := mPadSlab_ok hw hl (by omega) hm (by omega)
  rw [a1, b1, Res.bind_ok, Res.bind_ok]
  have hlen : (metaWrite E m.key { m.state with rootPtr := rp, rootNode := rn }).length = 38 := length_metaWrite hE.mac _ _
  obtain ⟨s2, a2, b2, c2, d2, _⟩ := mPiece hw hl c1 (d := metaWrite E m.key { m.state with rootPtr := rp, rootNode := rn }) (by omega) (by omega) (by omega)
  rw [hlen] at d2 c2
  have a2' : mSlabWrite E s1 (metaWrite E m.key { m.state with rootPtr := rp, rootNode := rn }) = .ok s2 := a2
  have b2' : slabWrite E s1.nat (metaWrite E m.nat.key { m.nat.state with rootPtr := rp, rootNode := rn }) = .ok s2.nat := b2
  rw [a2', b2', Res.bind_ok, Res.bind_ok]
  have hp : (s2.filePos - 38#64).toNat = s2.filePos.toNat - 38 := by
    rw [BitVec.toNat_sub]
    have h38 : (38#64).toNat = 38 := rfl
    have := s2.filePos.isLt
    rw [h38]; omega
  rw [hp]
  exact ⟨{ m with slab := s2 }, rfl, rfl, c2.mono (by omega) (by omega)⟩

theorem mStoreCommit_match {w : Nat} (hw : w = 32 ∨ w = 64) {E : Env} (hE : EnvOk E) (hl : RealLimits E) {D P : Nat} (hP : P + 76 < 2 ^ 58) {m : MStore w} (hm : Well D P m) (hD : (D + 76) * 3 < 2 ^ w)
    (root : Node) : Match (mStoreCommit E m root) (storeCommit E m.nat root) (fun m' _ => Well (D + 76) (P + 76) m') := by
  unfold mStoreCommit storeCommit flushSync
  refine (mWriteMeta_match hw hE hl (by omega) hm hD root).bind fun m1 st h1 => ?_
  dsimp only
  rw [Res.assoc]
  refine (mStoreFlush_match hw hl (by omega) h1).bind fun m2 ok h2 => ?_
  have h2' : Well (D + 76) (P + 76) m2 := h2.mono (by cases ok <;> simp) (Nat.le_refl _)
  have keep : ∀ (f : List (Option Fault)) (io : List IoEv) (st : Meta) (c : List (B32 × Ptr)), Well (D + 76) (P + 76) { m2 with faults := f, io := io, state := st, cache := c } :=
    fun f io st c => ⟨⟨h2'.ok.slab, h2'.ok.index, h2'.ok.cur, h2'.ok.next⟩, h2'.one, h2'.data, h2'.written⟩
  cases ok with
  | false => exact ⟨m2, rfl, rfl, h2'⟩
  | true =>
    have n2 : m2.nat.faults = m2.faults := rfl
    dsimp only [Res.pure_eq]
    rw [if_pos rfl, if_pos rfl, Res.bind_ok]
    unfold mCommitSync commitSync
    by_cases hf : E.cfg.fsync = true
    · rw [if_pos hf, if_pos hf, n2]
      by_cases hg : m2.faults.head?.join = some .syncFail
      · rw [if_pos hg, if_pos hg]
        exact ⟨{ m2 with faults := m2.faults.tail }, rfl, rfl, keep _ _ _ _⟩
      · rw [if_neg hg, if_neg hg]
        exact ⟨_, rfl, rfl, keep _ _ _ _⟩
    · rw [if_neg hf, if_neg hf]
      exact ⟨_, rfl, rfl, keep _ _ _ _⟩

end Urkel
