import Verif.Spec.Damage
import Verif.Props.Failed
/-
C33–C36: node records, pointers and commit records.
-/
namespace Urkel
open PTree

/-- C33, branches. A branch record holds the path (up to 256 bits) and the
pointers and hashes of both children; it has the announced size, at most 113
bytes, and reads back as the same branch with unloaded children. -/
theorem C33_internal_roundtrip {pre : List Bool} {b : Bits} (hb : IsBits b pre) (h : Option B32) (o : Option Ptr)
    {pl pr : Ptr} (hl hr : B32) (okl : pl.index < 2 ^ 15 ∧ pl.pos < 2 ^ 31 ∧ pl.size < 2 ^ 10)
    (okr : pr.index < 2 ^ 15 ∧ pr.pos < 2 ^ 31 ∧ pr.size < 2 ^ 10) :
    ∃ d, nodeWrite (.internal h o b (.hash hl pl) (.hash hr pr)) = .ok d ∧ d.length ≤ 113 ∧
      nodeSize (.internal h o b (.hash hl pl) (.hash hr pr)) = .ok d.length ∧
      nodeRead d = .ok (some (.internal none none b (.hash hl pl) (.hash hr pr))) := by
  obtain ⟨d, h1, h2, _, h3, h4⟩ := nodeWrite_internal (l := .hash hl pl) (r := .hash hr pr) hb h o rfl rfl
    ⟨okl.1, okl.2.1, okl.2.2⟩ ⟨okr.1, okr.2.1, okr.2.2⟩
  exact ⟨d, h1, h2, h3, h4⟩

/-- C33, leaves. -/
theorem C33_leaf_roundtrip (h : Option B32) (o : Option Ptr) (k : B32) (v : Option Bytes) {vp : Ptr}
    (ok : vp.index < 2 ^ 15 ∧ vp.pos < 2 ^ 31 ∧ vp.size < 2 ^ 10) :
    ∃ d, nodeWrite (.leaf h o k v (some vp)) = .ok d ∧ d.length = 40 ∧
      nodeSize (.leaf h o k v (some vp)) = .ok d.length ∧
      nodeRead d = .ok (some (.leaf none none k none (some vp))) := by
  refine ⟨leafRec vp k, rfl, length_leafRec vp k, ?_, nodeRead_leafRec ⟨ok.1, ok.2.1, ok.2.2⟩ k⟩
  rw [length_leafRec]; rfl

/-- C33, every path has a representation: any list of at most 256 bits. -/
theorem C33_paths (pre : List Bool) (h : pre.length ≤ 256) : ∃ b, IsBits b pre := ⟨_, isBits_pack h⟩

/-- C33, different children or paths give different records. -/
theorem C33_internal_injective {pre pre' : List Bool} {b b' : Bits} (hb : IsBits b pre) (hb' : IsBits b' pre')
    (h : Option B32) (o : Option Ptr) {pl pr pl' pr' : Ptr} {hl hr hl' hr' : B32}
    (okl : pl.index < 2 ^ 15 ∧ pl.pos < 2 ^ 31 ∧ pl.size < 2 ^ 10) (okr : pr.index < 2 ^ 15 ∧ pr.pos < 2 ^ 31 ∧ pr.size < 2 ^ 10)
    (okl' : pl'.index < 2 ^ 15 ∧ pl'.pos < 2 ^ 31 ∧ pl'.size < 2 ^ 10) (okr' : pr'.index < 2 ^ 15 ∧ pr'.pos < 2 ^ 31 ∧ pr'.size < 2 ^ 10)
    (e : nodeWrite (.internal h o b (.hash hl pl) (.hash hr pr)) = nodeWrite (.internal h o b' (.hash hl' pl') (.hash hr' pr'))) :
    pre = pre' ∧ pl = pl' ∧ pr = pr' ∧ hl = hl' ∧ hr = hr' := by
  obtain ⟨d, h1, _, _, h4⟩ := C33_internal_roundtrip hb h o hl hr okl okr
  obtain ⟨d', h1', _, _, h4'⟩ := C33_internal_roundtrip hb' h o hl' hr' okl' okr'
  rw [h1, h1'] at e
  cases e
  rw [h4] at h4'
  cases h4'
  exact ⟨hb.inj hb', rfl, rfl, rfl, rfl⟩

example : ∃ d, nodeWrite (.internal none none ⟨3, 0xa0 :: List.replicate 31 0⟩ (.hash (keyOf 1) ⟨1, 40, 40⟩) (.hash (keyOf 2) ⟨32767, 2147483647, 1023⟩)) = .ok d ∧
    d.length = 81 := ⟨_, rfl, rfl⟩

/-- C34. A pointer survives writing and reading exactly when its index fits 15
bits, its position 31 bits and its size 10 bits. -/
theorem C34_pointer_roundtrip (p : Ptr) :
    ptrRead (ptrWrite p) = .ok (p, []) ↔ p.index < 2 ^ 15 ∧ p.pos < 2 ^ 31 ∧ p.size < 2 ^ 10 := by
  constructor
  · intro h
    obtain ⟨q, e, hq⟩ := ptrRead_ok (d := ptrWrite p) (by simp)
    rw [h] at e
    cases e
    exact ⟨hq.index, hq.pos, hq.size⟩
  · rintro ⟨a, b, c⟩
    have := ptrRead_write ⟨a, b, c⟩ []
    rwa [List.append_nil] at this

/-- C34. Every seven bytes are the encoding of the pointer they are read as. -/
theorem C34_pointer_onto {d : Bytes} (hd : d.length = 7) : ∃ p, ptrRead d = .ok (p, []) ∧ ptrWrite p = d := by
  have h2 : (d.take 2).length = 2 := by simp [hd]
  have h4 : ((d.drop 2).take 4).length = 4 := by simp [hd]
  have h1 : ((d.drop 6).take 1).length = 1 := by simp [hd]
  have hsplit : d = d.take 2 ++ ((d.drop 2).take 4 ++ (d.drop 6).take 1) := by
    have a : d.drop 6 = (d.drop 6).take 1 := by rw [List.take_of_length_le (by simp [hd])]
    have b : (d.drop 2).drop 4 = d.drop 6 := by rw [List.drop_drop]
    rw [← a, ← b, List.take_append_drop, List.take_append_drop]
  have l2 := leNat_lt (d.take 2); rw [h2] at l2
  have l4 := leNat_lt ((d.drop 2).take 4); rw [h4] at l4
  have l1 := leNat_lt ((d.drop 6).take 1); rw [h1] at l1
  have e2 := leBytes_leNat (d.take 2); rw [h2] at e2
  have e4 := leBytes_leNat ((d.drop 2).take 4); rw [h4] at e4
  have e1 := leBytes_leNat ((d.drop 6).take 1); rw [h1] at e1
  generalize leNat (d.take 2) = x at l2 e2
  generalize leNat ((d.drop 2).take 4) = y at l4 e4
  generalize leNat ((d.drop 6).take 1) = z at l1 e1
  rw [← e2, ← e4, ← e1] at hsplit
  have hp : PtrOk ⟨x / 2, y / 2, 512 * (x % 2) + 256 * (y % 2) + z⟩ := ⟨by simp only; omega, by simp only; omega, by simp only; omega⟩
  have hw : ptrWrite ⟨x / 2, y / 2, 512 * (x % 2) + 256 * (y % 2) + z⟩ = d := by
    unfold ptrWrite
    simp only [Nat.shiftRight_eq_div_pow, Nat.and_one_is_mod]
    rw [shl1_or (by omega), shl1_or (by omega), hsplit, List.append_assoc]
    have q1 : 2 * (x / 2) + (512 * (x % 2) + 256 * (y % 2) + z) / 2 ^ 8 / 2 ^ 1 = x := by omega
    have q2 : 2 * (y / 2) + (512 * (x % 2) + 256 * (y % 2) + z) / 2 ^ 8 % 2 = y := by omega
    have q3 : leBytes 1 (512 * (x % 2) + 256 * (y % 2) + z) = leBytes 1 z := by
      have : ∀ a b : Nat, a % 256 = b % 256 → leBytes 1 a = leBytes 1 b := by
        intro a b h
        simp only [leBytes, List.cons.injEq, and_true]
        apply UInt8.toNat_inj.1
        simpa using h
      exact this _ _ (by omega)
    rw [q1, q2, q3]
  refine ⟨_, ?_, hw⟩
  have := ptrRead_write hp []
  rwa [List.append_nil, hw] at this

example : ptrRead (ptrWrite ⟨32768, 5, 6⟩) ≠ .ok (⟨32768, 5, 6⟩, []) := by
  rw [ne_eq, C34_pointer_roundtrip]; decide

/-- C36. A commit record reads back as written. -/
theorem C36_meta_roundtrip {E : Env} (hE : EnvOk E) (key : B32) (m m0 : Meta)
    (h1 : m.metaPtr.index < 2 ^ 15 ∧ m.metaPtr.pos < 2 ^ 31 ∧ m.metaPtr.size < 2 ^ 10)
    (h2 : m.rootPtr.index < 2 ^ 15 ∧ m.rootPtr.pos < 2 ^ 31 ∧ m.rootPtr.size < 2 ^ 10) :
    (metaWrite E key m).length = 38 ∧
    metaRead E key m0 (metaWrite E key m) = .ok (true, { m0 with metaPtr := m.metaPtr, rootPtr := m.rootPtr }) := by
  refine ⟨?_, metaRead_write hE.mac key m0 ⟨h1.1, h1.2.1, h1.2.2⟩ ⟨h2.1, h2.2.1, h2.2.2⟩⟩
  simp [metaWrite, hE.mac]

/-- C36. A record of 38 bytes is accepted exactly when it starts with the magic
number and ends with the keyed checksum of its first 18 bytes; reading it never
fails otherwise. -/
theorem C36_authentic (E : Env) (key : B32) (m : Meta) {d : Bytes} (hd : d.length = 38) :
    ∃ ok m', metaRead E key m d = .ok (ok, m') ∧
      (ok = true ↔ d.take 4 = leBytes 4 metaMagic ∧ d.drop 18 = E.mac key (d.take 18)) := by
  unfold metaRead
  simp only
  rw [takeN_ok (by omega), Res.bind_ok]
  simp only
  have hm : leNat (d.take 4) = metaMagic ↔ d.take 4 = leBytes 4 metaMagic := by
    constructor
    · intro h
      have := leBytes_leNat (d.take 4)
      rw [h, show (d.take 4).length = 4 by simp [hd]] at this
      exact this.symm
    · intro h
      rw [h, leNat_leBytes]; decide
  by_cases c : leNat (d.take 4) = metaMagic
  · rw [if_neg (by simp [c])]
    obtain ⟨mp, e1, _⟩ := ptrRead_ok (d := d.drop 4) (by simp; omega)
    rw [e1, Res.bind_ok]
    simp only
    obtain ⟨rp, e2, _⟩ := ptrRead_ok (d := (d.drop 4).drop 7) (by simp; omega)
    rw [e2, Res.bind_ok]
    simp only
    rw [takeN_ok (by simp; omega), Res.bind_ok]
    refine ⟨_, _, rfl, ?_⟩
    simp only [List.drop_drop, beq_iff_eq]
    rw [List.take_of_length_le (by simp; omega)]
    exact ⟨fun h => ⟨hm.1 c, h⟩, fun h => h.2⟩
  · rw [if_pos (by simpa using c)]
    refine ⟨_, _, rfl, ?_⟩
    simp only [Bool.false_eq_true, false_iff]
    exact fun h => c (hm.2 h.1)

/-- C36. Two accepted records with the same first 18 bytes are equal. -/
theorem C36_unique (E : Env) (key : B32) (m m1 m2 : Meta) {a b : Bytes} (ha : a.length = 38) (hb : b.length = 38)
    (h1 : metaRead E key m a = .ok (true, m1)) (h2 : metaRead E key m b = .ok (true, m2))
    (h : a.take 18 = b.take 18) : a = b := by
  obtain ⟨ok, m', e, i⟩ := C36_authentic E key m ha
  rw [h1] at e; cases e
  obtain ⟨ok, m', e, j⟩ := C36_authentic E key m hb
  rw [h2] at e; cases e
  rw [← List.take_append_drop 18 a, ← List.take_append_drop 18 b, (i.1 rfl).2, (j.1 rfl).2, h]

/-! ### C35 -/

theorem nodeReadChildren_safe (b : Bits) (d : Bytes) : (nodeReadChildren b d).Safe := by
  unfold nodeReadChildren
  split
  · trivial
  · next h =>
    obtain ⟨pl, e1, _⟩ := ptrRead_ok (d := d) (by omega)
    rw [e1, Res.bind_ok]
    simp only
    obtain ⟨hl, e2⟩ := take32_ok (d := d.drop 7) (by simp; omega)
    rw [e2, Res.bind_ok]
    simp only
    obtain ⟨pr, e3, _⟩ := ptrRead_ok (d := (d.drop 7).drop 32) (by simp; omega)
    rw [e3, Res.bind_ok]
    simp only
    obtain ⟨hr, e4⟩ := take32_ok (d := ((d.drop 7).drop 32).drop 7) (by simp; omega)
    rw [e4, Res.bind_ok]
    trivial

/-- C35 (partial: at the level of one record). Whatever bytes a record contains,
reading it returns a node or reports corruption, and never reads out of bounds;
it aborts exactly on records that announce a path longer than a key. -/
theorem C35_node_read_partial (d : Bytes) : ((nodeRead d).Safe ∧ ¬ LongPath d) ∨ (nodeRead d = .abort ∧ LongPath d) := by
  have nib : ∀ n : Nat, n &&& 15 = n % 16 := fun n => Nat.and_two_pow_sub_one_eq_mod n 4
  have one : ∀ n : Nat, n &&& 1 = n % 2 := fun n => Nat.and_one_is_mod n
  have two : ∀ n : Nat, n &&& 2 ≠ 0 ↔ n / 2 % 2 = 1 := by
    intro n
    have : n &&& 2 = 2 * (n / 2 % 2) := by
      apply Nat.eq_of_testBit_eq
      intro i
      have h2 : ∀ j, Nat.testBit 2 j = decide (j = 1) := by
        intro j
        have := Nat.testBit_two_pow (n := 1) (m := j)
        simpa [eq_comm] using this
      rw [Nat.testBit_and, h2]
      rcases Nat.eq_zero_or_pos i with rfl | hi
      · simp [Nat.testBit_zero]
      · obtain ⟨j, rfl⟩ : ∃ j, i = j + 1 := ⟨i - 1, by omega⟩
        rw [Nat.testBit_succ, Nat.testBit_succ, Nat.mul_div_cancel_left _ (by omega)]
        rcases Nat.eq_zero_or_pos j with rfl | hj
        · simp [Nat.testBit_zero]
        · obtain ⟨k, rfl⟩ : ∃ k, j = k + 1 := ⟨j - 1, by omega⟩
          rw [Nat.testBit_succ, Nat.testBit_succ, show n / 2 % 2 / 2 = 0 by omega]
          simp
    rw [this]; omega
  cases d with
  | nil => left; exact ⟨trivial, by rintro ⟨_, _, _, _, h, _⟩; cases h⟩
  | cons t d =>
    have ht := t.toNat_lt
    unfold nodeRead
    rw [if_neg (by simp), takeN_ok (by simp), Res.bind_ok]
    have et : leNat ((t :: d).take 1) = t.toNat := by simp [leNat]
    simp only [et, List.drop_one, List.tail_cons, Nat.shiftRight_eq_div_pow]
    have nolong : (∀ a b rest, d = a :: b :: rest → t.toNat % 16 = 1 → t.toNat / 16 % 4 = 3 → 256 < a.toNat + 256 * b.toNat →
        (a.toNat + 256 * b.toNat + 7) / 8 ≤ rest.length → False) → ¬ LongPath (t :: d) := by
      rintro h ⟨t', a, b, rest, e, h1, h2, h3, h4⟩
      cases e
      exact h a b rest rfl h1 h2 h3 h4
    by_cases c1 : t.toNat % 16 = 1
    · rw [if_pos (by simp [nib, c1])]
      by_cases c2 : t.toNat / 16 % 2 = 1
      · rw [if_pos (by simp [one, c2])]
        by_cases c3 : d.length < 2
        · rw [if_pos c3]
          refine Or.inl ⟨trivial, nolong ?_⟩
          rintro a b rest rfl
          simp only [List.length_cons] at c3; omega
        · rw [if_neg c3]
          by_cases c4 : t.toNat / 16 / 2 % 2 = 1
          · rw [if_pos (by rw [bne_iff_ne]; exact (two _).2 c4), takeN_ok (by omega), Res.bind_ok]
            obtain ⟨a, b, rest, rfl⟩ : ∃ a b rest, d = a :: b :: rest := by
              match d, c3 with
              | a :: b :: rest, _ => exact ⟨a, b, rest, rfl⟩
              | [a], h => simp at h
              | [], h => simp at h
            have ea : leNat ((a :: b :: rest).take 2) = a.toNat + 256 * b.toNat := by simp [leNat]
            have ed : (a :: b :: rest).drop 2 = rest := rfl
            simp only [ea, ed]
            by_cases c5 : a.toNat + 256 * b.toNat < 0x100
            · rw [if_pos c5]
              refine Or.inl ⟨trivial, nolong ?_⟩
              rintro a' b' rest' e _ _ h3
              cases e; omega
            · rw [if_neg c5]
              by_cases c6 : rest.length < (a.toNat + 256 * b.toNat + 7) / 8
              · rw [if_pos c6]
                refine Or.inl ⟨trivial, nolong ?_⟩
                rintro a' b' rest' e _ _ _ h4
                cases e; omega
              · rw [if_neg c6]
                by_cases c7 : a.toNat + 256 * b.toNat ≤ 256
                · rw [bitsInit_ok c7, Res.bind_ok, takeN_ok (by omega), Res.bind_ok]
                  refine Or.inl ⟨nodeReadChildren_safe _ _, nolong ?_⟩
                  rintro a' b' rest' e _ _ h3 _
                  cases e; omega
                · right
                  refine ⟨?_, t, a, b, rest, rfl, c1, by omega, by omega, by omega⟩
                  have : ¬ a.toNat + 256 * b.toNat ≤ keyBits := c7
                  simp only [bitsInit, this, decide_false, check_false, Res.bind_abort]
          · rw [if_neg (by rw [bne_iff_ne]; exact fun h => c4 ((two _).1 h)), takeN_ok (by omega), Res.bind_ok]
            have hno : ¬ LongPath (t :: d) := nolong (by intro _ _ _ _ _ h; omega)
            simp only
            split
            · exact Or.inl ⟨trivial, hno⟩
            · split
              · exact Or.inl ⟨trivial, hno⟩
              · next c6 =>
                have hlt : leNat (d.take 1) < 256 := by
                  have := leNat_lt (d.take 1)
                  rw [List.length_take, show min 1 d.length = 1 by omega] at this
                  omega
                rw [bitsInit_ok (by omega), Res.bind_ok, takeN_ok (by omega), Res.bind_ok]
                exact Or.inl ⟨nodeReadChildren_safe _ _, hno⟩
      · rw [if_neg (by simp [one]; omega)]
        rw [bitsInit_ok (by omega), Res.bind_ok]
        exact Or.inl ⟨nodeReadChildren_safe _ _, nolong (by intro _ _ _ _ _ h; omega)⟩
    · rw [if_neg (by simp [nib, c1])]
      have hno : ¬ LongPath (t :: d) := nolong (by intro _ _ _ _ h; omega)
      split
      · split
        · exact Or.inl ⟨trivial, hno⟩
        · next h =>
          obtain ⟨vp, e1, _⟩ := ptrRead_ok (d := d) (by omega)
          rw [e1, Res.bind_ok]
          simp only
          obtain ⟨hl, e2⟩ := take32_ok (d := d.drop 7) (by simp; omega)
          rw [e2, Res.bind_ok]
          exact Or.inl ⟨trivial, hno⟩
      · exact Or.inl ⟨trivial, hno⟩

/-! Two keys that differ in the last bit only are committed in the toy environment. -/

theorem step_commit {E : Env} {s : Sys} {id : Nat} {tx tx' : Tx} {db' : Db} (h : s.txs id = some tx)
    (e : txCommit E s.db tx = .ok (db', tx', .ok ())) :
    step E s (.commit id) = .ok (({ s with db := db' } : Sys).setTx id (some tx'), .unit) := by
  simp only [step, Sys.tx, h, Res.bind_ok, e, Res.pure_eq]; rfl

theorem step_insert {E : Env} {s : Sys} {id : Nat} {tx tx' : Tx} {k : B32} {v : Bytes} (h : s.txs id = some tx)
    (e : txInsert E s.db tx k v = .ok (tx', .ok ())) :
    step E s (.insert id k v) = .ok (s.setTx id (some tx'), .unit) := by
  simp only [step, Sys.tx, h, Res.bind_ok, e, Res.pure_eq]; rfl

theorem reach_step_commit {E : Env} {s : Sys} {id : Nat} {tx tx' : Tx} {db db' : Db} (h : Reachable E s) (ht : s.txs id = some tx)
    (hdb : s.db = db) (hc : CanCommit E db tx) (e : txCommit E db tx = .ok (db', tx', .ok ())) :
    ∃ s, Reachable E s ∧ s.db = db' ∧ s.txs id = some tx' := by
  subst hdb
  exact ⟨_, h.next (op := .commit id) ⟨tx, ht, hc⟩ (step_commit ht e), rfl, by simp [Sys.setTx]⟩

theorem res_inj {α β : Type} {a b : α} {x y : β} (h : (Res.ok (a, x) : Res (α × β)) = .ok (b, y)) : a = b := by
  injection h with h; exact congrArg Prod.fst h

def rotK : B32 := keyOf 0
def rotK' : B32 := ⟨List.replicate 31 0 ++ [1], by simp⟩

def rot0 : Res (Tx × Except Err Unit) := txInsert toyEnv db0 (leafTx rotK []) rotK' []
def rotTx : Tx := match rot0 with | .ok (tx, _) => tx | _ => ⟨none⟩
theorem rot0_ok : txInsert toyEnv db0 (leafTx rotK []) rotK' [] = .ok (rotTx, .ok ()) := by
  have : (match rot0 with | .ok (_, .ok ()) => true | _ => false) = true := by decide +kernel
  show rot0 = _
  unfold rotTx
  split at this
  · next e => rw [e]
  · cases this

def rot1 : Res (Db × Tx × Except Err Unit) := txCommit toyEnv db0 rotTx
def rotDb : Db := match rot1 with | .ok (db, _, _) => db | _ => db0
def rotTx1 : Tx := match rot1 with | .ok (_, tx, _) => tx | _ => ⟨none⟩
theorem rot1_ok : txCommit toyEnv db0 rotTx = .ok (rotDb, rotTx1, .ok ()) := by
  have : (match rot1 with | .ok (_, _, .ok ()) => true | _ => false) = true := by decide +kernel
  show rot1 = _
  unfold rotDb rotTx1
  split at this
  · next e => rw [e]
  · cases this

theorem rot_reachable : ∃ s, Reachable toyEnv s ∧ s.db = rotDb ∧ s.txs 0 = some rotTx1 := by
  have h0 := (sys2_logged rotK [] (by simp)).reachable
  have hdb := sys2_db rotK []
  have htx := sys2_tx rotK []
  generalize sys2 rotK [] = s at h0 hdb htx
  have e1 := step_insert htx (hdb ▸ rot0_ok)
  have h1 : Reachable toyEnv (s.setTx 0 (some rotTx)) := h0.next (op := .insert 0 rotK' []) (by simp only [Allowed]; rw [htx]; exact fun h => nomatch h) e1
  obtain ⟨hist, t, hd, ht⟩ := h0.tree toyEnv_ok htx
  obtain ⟨tx', e, ht'⟩ := txInsert_ok hd ht rotK' (v := []) (by simp)
  rw [hdb, rot0_ok] at e
  rw [← res_inj e] at ht'
  have hsh : Shows s.db rotTx (Contents.ofList [(rotK, []), (rotK', [])]) := by
    have h2 := ht'.shows hd
    rw [(Top.insert ht.top rotK' []).2, ht.find_eq hd (hdb ▸ sys2_shows rotK [] (by simp))] at h2
    exact h2
  have hc : CanCommit toyEnv s.db rotTx := by
    refine canCommit_of hd ht' hsh (ofList_vals (l := [(rotK, []), (rotK', [])]) ?_) [rotK, rotK'] ofList_keys ?_
    · intro p hp; simp at hp; rcases hp with rfl | rfl <;> simp
    · rw [hdb]; exact (by decide : 1 * 2147479552 + 0 + 2 * (408 * 2 + 76) < 2147479552 * 32767)
  have hs2 : (s.setTx 0 (some rotTx)).txs 0 = some rotTx := by simp [Sys.setTx]
  have hd2 : (s.setTx 0 (some rotTx)).db = s.db := rfl
  generalize s.setTx 0 (some rotTx) = s2 at h1 hs2 hd2
  have hdb2 := hd2.trans hdb
  rw [hdb] at hc
  have e2 := rot1_ok
  generalize db0 = d0 at hdb2 hc e2
  generalize rotDb = d1 at e2 ⊢
  generalize rotTx1 = x1 at e2 ⊢
  generalize rotTx = x0 at e2 hc hs2
  exact reach_step_commit h1 hs2 hdb2 hc e2

/-- The file with its first 192 bytes (two leaves of 40 bytes and the root record
of 112 bytes) replaced. -/
def rotFiles (d : Bytes) : List Bytes := rotDb.store.files.map fun f => d ++ f.drop 192

/-- The root announces a path of 513 bits. -/
def rotLong : Bytes := List.replicate 80 0 ++ [0x31, 0x01, 0x02] ++ List.replicate 109 0
/-- The root branches at bit 255, and below it there is another branch. -/
def rotDeep : Bytes := [0x01] ++ ptrWrite ⟨1, 0, 79⟩ ++ List.replicate 32 0 ++ ptrWrite ⟨1, 0, 79⟩ ++ List.replicate 32 0 ++ [0] ++
  [0x11, 255] ++ List.replicate 32 0 ++ ptrWrite ⟨1, 0, 79⟩ ++ List.replicate 32 0 ++ ptrWrite ⟨1, 0, 79⟩ ++ List.replicate 32 0

theorem rot_lengths : (rotFiles rotLong).map List.length = rotDb.store.files.map List.length ∧
    (rotFiles rotDeep).map List.length = rotDb.store.files.map List.length := by decide +kernel

theorem rot_long : txGet { rotDb with store := { rotDb.store with files := rotFiles rotLong } } rotTx1 rotK = .abort := by
  decide +kernel

theorem rot_deep : txGet { rotDb with store := { rotDb.store with files := rotFiles rotDeep } } rotTx1 rotK = .ub := by
  decide +kernel

/-- C35 is false: changing bytes of a data file makes `urkel_tx_get` abort the
process. -/
theorem C35_abort_false : ∃ s db' tx k, Reachable toyEnv s ∧ s.txs 0 = some tx ∧ Rotten s.db db' ∧ txGet db' tx k = .abort := by
  obtain ⟨s, h1, h2, h3⟩ := rot_reachable
  have h4 := rot_long
  have h5 := rot_lengths.1
  generalize rotFiles rotLong = files at h4 h5
  rw [← h2] at h4 h5
  exact ⟨s, _, _, _, h1, h3, ⟨_, h5, rfl⟩, h4⟩

/-- C35 is false: changing bytes of a data file makes `urkel_tx_get` read past the
end of the key (bit 256, in the second branch). -/
theorem C35_out_of_bounds_false : ∃ s db' tx k, Reachable toyEnv s ∧ s.txs 0 = some tx ∧ Rotten s.db db' ∧ txGet db' tx k = .ub := by
  obtain ⟨s, h1, h2, h3⟩ := rot_reachable
  have h4 := rot_deep
  have h5 := rot_lengths.2
  generalize rotFiles rotDeep = files at h4 h5
  rw [← h2] at h4 h5
  exact ⟨s, _, _, _, h1, h3, ⟨_, h5, rfl⟩, h4⟩

end Urkel
