import Verif.Lemmas.Words
import Verif.Lemmas.KeepState
import Verif.Props.WriteBuf
import Verif.Lemmas.Concrete
/-
C86: the integers of the commit path and of reading never wrap around, with a 64-bit `size_t` as with a 32-bit one, as long as flushes do
not keep failing; with a 32-bit `size_t` and flushes that keep failing they do.
-/
namespace Urkel

theorem mTxCommit_all {w : Nat} (hw : w = 32 ∨ w = 64) {E : Env} (hE : EnvOk E) (hl : RealLimits E) {m : MDb w} (hm : m.store.Ok) (h1 : 1 ≤ m.store.index.toNat) {t : Tx}
    (ht : ∀ n, t.root = some n → Fit n ∧ m.store.slab.written + 1136 * n.inMemory + 76 < 2 ^ 58)
    (hD : (max m.store.slab.data.length 67108864 + 1212) * 3 < 2 ^ w) :
    (mTxCommit E m t >>= fun x => .ok (x.1.nat, x.2)) = txCommit E m.nat t ∧ ∀ m' t' r, mTxCommit E m t = .ok (m', t', r) → m'.store.Ok ∧ 1 ≤ m'.store.index.toNat := by
  unfold mTxCommit txCommit
  cases hr : t.root with
  | none =>
    have : t.node = .ub := by unfold Tx.node; rw [hr]
    rw [this]
    exact ⟨rfl, fun _ _ _ e => nomatch e⟩
  | some n =>
    have : t.node = .ok n := by unfold Tx.node; rw [hr]
    rw [this, Res.bind_ok, Res.bind_ok]
    obtain ⟨hf, hn⟩ := ht n hr
    have hmax : 67108864 ≤ max m.store.slab.data.length 67108864 := Nat.le_max_right _ _
    have hmax2 : m.store.slab.data.length ≤ max m.store.slab.data.length 67108864 := Nat.le_max_left _ _
    generalize max m.store.slab.data.length 67108864 = D at hD hmax hmax2
    have hD1 : (D + 1136) * 3 < 2 ^ w ∧ (D + 76) * 3 < 2 ^ w := by clear ht hn; omega
    have hw0 : Well D m.store.slab.written m.store := ⟨hm, h1, hmax2, Nat.le_refl _⟩
    have hT := mTreeWrite_match hw hl (D := D) (by rw [hl.2.2]; exact hmax) hD1.1 n m.store _ hf hw0 (by omega)
    show (Res.bind _ _ >>= _) = (treeWrite E n m.store.nat >>= _) ∧ _
    generalize treeWrite E n m.store.nat = y at hT
    unfold Match at hT
    cases y with
    | err e => rw [hT]; exact ⟨rfl, fun _ _ _ e => nomatch e⟩
    | abort => rw [hT]; exact ⟨rfl, fun _ _ _ e => nomatch e⟩
    | ub => rw [hT]; exact ⟨rfl, fun _ _ _ e => nomatch e⟩
    | ok y =>
      obtain ⟨s, r⟩ := y
      obtain ⟨m1, e1, rfl, h2⟩ := hT
      rw [e1]
      cases r with
      | none => exact ⟨rfl, fun _ _ _ e => by cases e; exact ⟨h2.ok, h2.one⟩⟩
      | some root =>
        have hC := mStoreCommit_match hw hE hl (by omega) h2 hD1.2 root
        show (Res.bind (Res.bind (mStoreCommit E m1 root) _) _) = (storeCommit E m1.nat root >>= _) ∧ ∀ m' t' r, Res.bind (mStoreCommit E m1 root) _ = _ → _
        generalize storeCommit E m1.nat root = y at hC
        unfold Match at hC
        cases y with
        | err e => rw [hC]; exact ⟨rfl, fun _ _ _ e => nomatch e⟩
        | abort => rw [hC]; exact ⟨rfl, fun _ _ _ e => nomatch e⟩
        | ub => rw [hC]; exact ⟨rfl, fun _ _ _ e => nomatch e⟩
        | ok y =>
          obtain ⟨s, ok⟩ := y
          obtain ⟨m2, e2, rfl, h3⟩ := hC
          rw [e2]
          cases ok with
          | false => exact ⟨rfl, fun _ _ _ e => by cases e; exact ⟨h3.ok, h3.one⟩⟩
          | true => exact ⟨rfl, fun _ _ _ e => by cases e; exact ⟨h3.ok, h3.one⟩⟩

/-- C86, a commit: whenever the buffer and the files are in order, a commit computes in machine integers what it computes in unbounded numbers,
whatever system calls fail: the same files, the same outcome. And buffer and files are in order afterwards, so the next commit may follow.
The buffer together with what a commit adds to it must stay below a third of what `size_t` can count, and the tree must have less than 2^47 nodes or so. -/
theorem C86_commit {w : Nat} (hw : w = 32 ∨ w = 64) {E : Env} (hE : EnvOk E) (hl : RealLimits E) {m : MDb w} (hm : m.store.Ok) (h1 : 1 ≤ m.store.index.toNat) {t : Tx}
    (ht : ∀ n, t.root = some n → Fit n ∧ m.store.slab.written + 1136 * n.inMemory + 76 < 2 ^ 58)
    (hD : (max m.store.slab.data.length 67108864 + 1212) * 3 < 2 ^ w) :
    (mTxCommit E m t >>= fun x => .ok (x.1.nat, x.2)) = txCommit E m.nat t ∧ ∀ m' t' r, mTxCommit E m t = .ok (m', t', r) → m'.store.Ok ∧ 1 ≤ m'.store.index.toNat :=
  mTxCommit_all hw hE hl hm h1 ht hD

/-- The machine integers for a store whose buffer is empty. -/
def MDb.of (w : Nat) (d : Db) : MDb w :=
  ⟨⟨d.store.key, d.store.files, BitVec.ofNat 32 d.store.index, BitVec.ofNat 64 d.store.curSize,
    ⟨[], 0#w, 0#w, 0#w, [], if d.store.slab.offsetsLen = 0 then 0 else d.store.slab.offsetsLen + 1, BitVec.ofNat w d.store.slab.offsetsLen, 0#w, BitVec.ofNat 64 d.store.slab.filePos, BitVec.ofNat 32 d.store.slab.fileIndex⟩,
    d.store.cache, d.store.state, d.store.lastMeta, d.store.faults, d.store.io⟩, d.hash, d.revert⟩

theorem of_sane {w : Nat} (hw : w = 32 ∨ w = 64) {E : Env} (hl : RealLimits E) {d : Db} (hd : StoreSane E d.store) (fs : List (Option Fault)) :
    (MDb.of w (d.under fs)).nat = d.under fs ∧ (MDb.of w (d.under fs)).store.Ok := by
  have hW : 2 ^ 32 ≤ 2 ^ w := by rcases hw with rfl | rfl <;> decide
  have e0 : (0#w).toNat = 0 := by rcases hw with rfl | rfl <;> rfl
  obtain ⟨hst, hdata, hidx⟩ := hd.slab.straight
  have hi := hd.idx
  rw [hl.2.1] at hi
  have hfi := hd.slab.fileIndex
  have hcap : d.store.slab.offsetsLen ≤ d.store.slab.fileIndex + 1 := by
    obtain ⟨_, _, h, _⟩ := hd.slab
    exact h.ol.2
  have hfit := hst.max
  have hpos := hst.pos
  rw [hdata] at hpos
  have hcur : d.store.curSize ≤ 0x7ffff000 := by
    rw [← hl.1]
    have : d.store.slab.filePos = d.store.curSize + 0 := hpos
    omega
  have a1 : (BitVec.ofNat 32 d.store.index).toNat = d.store.index := toNat_ofNat_lt (by omega)
  have a2 : (BitVec.ofNat 64 d.store.curSize).toNat = d.store.curSize := toNat_ofNat_lt (by omega)
  have a3 : (BitVec.ofNat w d.store.slab.offsetsLen).toNat = d.store.slab.offsetsLen := toNat_ofNat_lt (by omega)
  have a4 : (BitVec.ofNat 64 d.store.slab.filePos).toNat = d.store.slab.filePos := toNat_ofNat_lt (by rw [hl.1] at hfit; omega)
  have a5 : (BitVec.ofNat 32 d.store.slab.fileIndex).toNat = d.store.slab.fileIndex := toNat_ofNat_lt (by omega)
  have hoff : d.store.slab.dataOff = 0 := by have := hst.off; rw [hdata] at this; exact this
  obtain ⟨st, hash, rev⟩ := d
  obtain ⟨key, files, index, cur, slab, cache, state, lm, faults, io⟩ := st
  obtain ⟨data, dataOff, offsets, offsetsLen, start, filePos, fileIndex⟩ := slab
  have hoffs : offsets = [] := hst.offsets
  have hstart : start = 0 := hst.start
  dsimp only at *
  subst hdata hoff hoffs hstart
  refine ⟨?_, ⟨⟨?_, ?_, ?_, ?_, ?_, ?_, ?_, ?_, ?_, ?_, ?_⟩, ?_, ?_, ?_⟩⟩
  · simp only [MDb.of, MDb.nat, MStore.nat, MSlab.nat, Db.under, a1, a2, a3, a4, a5, e0, List.map_nil]
  · exact e0
  · exact Nat.zero_le _
  · show (List.map _ []).sum + (0#w).toNat = 0; rw [e0]; rfl
  · show (0#w).toNat ≤ _; rw [e0]; exact Nat.zero_le _
  · exact fun o ho => nomatch ho
  · show (BitVec.ofNat 64 filePos).toNat ≤ _; rw [a4]; rw [hl.1] at hfit; omega
  · show (BitVec.ofNat w offsetsLen).toNat ≤ (BitVec.ofNat 32 fileIndex).toNat + 1; rw [a3, a5]; exact hcap
  · exact Nat.zero_le _
  · show (if offsetsLen = 0 then 0 else offsetsLen + 1) = if (BitVec.ofNat w offsetsLen).toNat = 0 then 0 else (BitVec.ofNat w offsetsLen).toNat + 1
    rw [a3]
  · show (0#w).toNat ≤ _; rw [e0]; exact Nat.zero_le _
  · show (0#w).toNat ≤ _; rw [e0]; exact Nat.zero_le _
  · show (BitVec.ofNat 32 index).toNat < _; rw [a1]; omega
  · show (BitVec.ofNat 64 cur).toNat ≤ _; rw [a2]; omega
  · intro j f hj hf
    have hj' : (BitVec.ofNat 32 index).toNat ≤ j := hj
    have hf' : files[j]? = some f := hf
    rw [a1] at hj'
    rw [List.getElem?_eq_none (by omega)] at hf'
    cases hf'

/-- C86, databases: whatever a program has done with a database it opened, a commit computes the same in machine integers as in unbounded numbers, with a
32-bit as with a 64-bit `size_t`, whichever system calls fail during it: there are machine integers for the state, and for all of them the outcome, the files and
the state after the commit are those of unbounded numbers. The tree may have up to 2^40 nodes in memory. -/
theorem C86_database {w : Nat} (hw : w = 32 ∨ w = 64) {E : Env} (hE : EnvOk E) (hl : RealLimits E) {s : Sys} (hs : FromDir E s) {i : Nat} {t : Tx} (ht : s.txs i = some t)
    (hn : ∀ n, t.root = some n → n.inMemory < 2 ^ 40) (fs : List (Option Fault)) :
    (∃ m : MDb w, m.nat = s.db.under fs ∧ m.store.Ok) ∧
    ∀ m : MDb w, m.nat = s.db.under fs → m.store.Ok → (mTxCommit E m t >>= fun x => .ok (x.1.nat, x.2)) = txCommit E (s.db.under fs) t := by
  have hsane := hs.sane hE
  refine ⟨⟨_, of_sane hw hl hsane.db.store fs⟩, fun m hm hok => ?_⟩
  have hd := hsane.db.store
  obtain ⟨hst, hdata, hidx⟩ := hd.slab.straight
  have hi := hd.idx
  rw [hl.2.1] at hi
  have hfi := hd.slab.fileIndex
  have hfit := hst.max
  rw [hl.1] at hfit
  have e1 : m.store.index.toNat = s.db.store.index := congrArg (fun d : Db => d.store.index) hm
  have e2 : m.store.slab.data = s.db.store.slab.data := congrArg (fun d : Db => d.store.slab.data) hm
  have e3 : m.store.slab.fileIndex.toNat = s.db.store.slab.fileIndex := congrArg (fun d : Db => d.store.slab.fileIndex) hm
  have e4 : m.store.slab.filePos.toNat = s.db.store.slab.filePos := congrArg (fun d : Db => d.store.slab.filePos) hm
  have hwr : m.store.slab.written = 2 ^ 30 * m.store.slab.fileIndex.toNat + m.store.slab.filePos.toNat := rfl
  have h1 := hd.sok.pos
  rw [← hm]
  refine (C86_commit hw hE hl hok (by omega) (fun n hr => ?_) ?_).1
  · obtain ⟨n', hn', hf, _⟩ := hsane.txs i t ht
    rw [hr] at hn'
    cases hn'
    have := hn n hr
    exact ⟨hf, by omega⟩
  · rw [e2, hdata]
    rcases hw with rfl | rfl <;> decide

/-- C86, reading: `urkel_store_read` in machine integers reads what it reads in unbounded numbers, for every position, size and index: also those that
damaged files contain. -/
theorem C86_read {w : Nat} (hw : w = 32 ∨ w = 64) {m : MStore w} (hi : m.index.toNat < 2 ^ 31) (hf : ∀ f ∈ m.files, f.length < 2 ^ 64)
    (size : BitVec w) (index : BitVec 32) (pos : BitVec 64) : mStoreRead m size index pos = storeRead m.nat size.toNat index.toNat pos.toNat := by
  have hW2 : 2 ^ w ≤ 2 ^ 64 := by rcases hw with rfl | rfl <;> decide
  have e0 : (0#w).toNat = 0 := by rcases hw with rfl | rfl <;> rfl
  have hsz : (size.setWidth 64).toNat = size.toNat := toNat_wide (by have := size.isLt; omega)
  have hi1 : (m.index + 1#32).toNat = m.index.toNat + 1 := by rw [toNat_add_lt (by show _ + 1 < _; omega)]; rfl
  unfold mStoreRead storeRead
  have c1 : ((index == 0#32) = true ∨ index > m.index + 1#32) ↔ (index.toNat = 0 ∨ index.toNat > m.nat.index + 1) := by
    have n1 : m.nat.index = m.index.toNat := rfl
    rw [n1, beq_iff_eq, ← BitVec.toNat_inj, gt_iff_lt, BitVec.lt_def, hi1]
    exact Iff.rfl
  by_cases h : index.toNat = 0 ∨ index.toNat > m.nat.index + 1
  · rw [if_pos h, if_pos (c1.2 h)]
  · rw [if_neg h, if_neg (fun x => h (c1.1 x))]
    have n2 : m.nat.files = m.files := rfl
    rw [n2]
    cases hg : m.files[index.toNat - 1]? with
    | none => rfl
    | some f =>
      have hlen := hf f (List.mem_of_getElem? hg)
      dsimp only
      have hfs : (if index = m.index then m.curSize else BitVec.ofNat 64 f.length).toNat = if index.toNat = m.nat.index then m.nat.curSize else f.length := by
        by_cases hx : index = m.index
        · rw [if_pos hx, if_pos (by rw [hx]; rfl)]; rfl
        · rw [if_neg hx, if_neg (show ¬ index.toNat = m.nat.index from fun e => hx (BitVec.eq_of_toNat_eq e)), toNat_ofNat_lt hlen]
      rw [← hfs]
      generalize (if index = m.index then m.curSize else BitVec.ofNat 64 f.length) = fs
      have hfl := fs.isLt
      have hpl := pos.isLt
      by_cases hz : size.toNat = 0
      · rw [if_pos hz, if_pos (beq_iff_eq.2 (BitVec.eq_of_toNat_eq (by rw [hz, e0])))]
      · rw [if_neg hz, if_neg (fun e => hz (by rw [beq_iff_eq.1 e]; exact e0))]
        have hadd : (pos + size.setWidth 64).toNat = (pos.toNat + size.toNat) % 2 ^ 64 := by rw [BitVec.toNat_add, hsz]
        have hsl := size.isLt
        by_cases ho : pos.toNat + size.toNat < 2 ^ 64
        · rw [Nat.mod_eq_of_lt ho] at hadd
          rw [if_neg (by rw [BitVec.lt_def, hadd]; omega)]
          by_cases hq : pos.toNat + size.toNat > fs.toNat
          · rw [if_pos hq, if_pos (by rw [gt_iff_lt, BitVec.lt_def, hadd]; exact hq)]
          · rw [if_neg hq, if_neg (by rw [gt_iff_lt, BitVec.lt_def, hadd]; exact hq)]
        · rw [if_pos (by rw [BitVec.lt_def, hadd]; omega), if_pos (by omega)]

theorem mGrow_small {size needs : BitVec 32} (h : size.toNat < 2 ^ 31) : (mGrow size needs).toNat < 2 ^ 31 := by
  have key : ∀ x : BitVec 32, (x * 3#32 / 2#32).toNat < 2 ^ 31 := by
    intro x
    rw [BitVec.toNat_udiv]
    have := (x * 3#32).isLt
    have h2 : (2#32).toNat = 2 := rfl
    rw [h2]; omega
  unfold mGrow
  dsimp only
  split
  · split
    · exact key _
    · exact key _
  · exact h

theorem mRoll_keeps {w : Nat} {E : Env} {s s2 : MSlab w} {len : BitVec w} (e : mRoll E s len = .ok s2) : s2.data = s.data ∧ s2.dataLen = s.dataLen ∧ s2.dataSize = s.dataSize := by
  have hr : (mRoom s).data = s.data ∧ (mRoom s).dataLen = s.dataLen ∧ (mRoom s).dataSize = s.dataSize := by
    unfold mRoom
    split <;> exact ⟨rfl, rfl, rfl⟩
  unfold mRoll at e
  dsimp only at e
  split at e
  · split at e
    · cases e; exact hr
    · cases e
  · cases e; exact ⟨rfl, rfl, rfl⟩

theorem mRoll_cases {w : Nat} (E : Env) (s : MSlab w) (len : BitVec w) : mRoll E s len = .ub ∨ ∃ s2, mRoll E s len = .ok s2 := by
  unfold mRoll
  dsimp only
  split
  · split
    · exact .inr ⟨_, rfl⟩
    · exact .inl rfl
  · exact .inr ⟨_, rfl⟩

theorem mFirst_keeps {w : Nat} (s : MSlab w) : (mFirst s).data = s.data ∧ (mFirst s).dataLen = s.dataLen ∧ (mFirst s).dataSize = s.dataSize := by
  unfold mFirst
  split <;> exact ⟨rfl, rfl, rfl⟩

/-- With a 32-bit `size_t` a write either goes beyond the block or leaves less than 2 GB in it. -/
theorem mSlabWrite_32 {E : Env} (hl : RealLimits E) {s : MSlab 32} (h1 : s.dataSize.toNat < 2 ^ 31) (h2 : s.dataLen.toNat = s.data.length) {d : Bytes} (hd : d.length ≤ 1023) :
    mSlabWrite E s d = .ub ∨ ∃ s', mSlabWrite E s d = .ok s' ∧ s'.dataSize.toNat < 2 ^ 31 ∧ s'.dataLen.toNat = s'.data.length ∧ s'.data.length = s.data.length + d.length ∧ s'.data.length < 2 ^ 31 := by
  have hlen : (BitVec.ofNat 32 d.length).toNat = d.length := toNat_ofNat_lt (by omega)
  unfold mSlabWrite
  dsimp only
  rw [check_of (by rw [hl.1, hlen]; exact decide_eq_true (by omega)), Res.bind_ok]
  obtain ⟨f1, f2, f3⟩ := mFirst_keeps s
  rcases mRoll_cases E (mFirst s) (BitVec.ofNat 32 d.length) with e | ⟨s2, e⟩
  · rw [e]; exact .inl rfl
  · rw [e, Res.bind_ok]
    obtain ⟨g1, g2, g3⟩ := mRoll_keeps e
    have hg : (mGrow s2.dataSize (s.dataLen + BitVec.ofNat 32 d.length)).toNat < 2 ^ 31 := mGrow_small (by rw [g3, f3]; exact h1)
    have hdl : s2.dataLen.toNat = s.data.length := by rw [g2, f2]; exact h2
    by_cases hx : s2.dataLen.toNat + d.length > (mGrow s2.dataSize (s.dataLen + BitVec.ofNat 32 d.length)).toNat
    · rw [if_pos hx]; exact .inl rfl
    · rw [if_neg hx]
      have hn : (s2.data.take s2.dataLen.toNat ++ d).length = s.data.length + d.length := by
        rw [List.length_append, List.length_take, hdl, g1, f1, Nat.min_self]
      refine .inr ⟨_, rfl, hg, ?_, hn, by show (s2.data.take s2.dataLen.toNat ++ d).length < _; omega⟩
      show (s2.dataLen + BitVec.ofNat 32 d.length).toNat = (s2.data.take s2.dataLen.toNat ++ d).length
      rw [hn, toNat_add_lt (by rw [hlen]; omega), hlen, hdl]

theorem slabWrite_any {E : Env} (hl : RealLimits E) {s : Slab} (hs : s.offsets.length ≤ s.offsetsLen) {d : Bytes} (hd : d.length ≤ 1023) :
    ∃ s', slabWrite E s d = .ok s' ∧ s'.offsets.length ≤ s'.offsetsLen := by
  rw [slabWrite_eq, check_of (by rw [hl.1]; exact decide_eq_true (by omega)), Res.bind_ok]
  obtain ⟨s1, e1, h1⟩ : ∃ s1 : Slab, (if s.offsetsLen == 0 then { s with offsetsLen := 1 } else s) = s1 ∧ s1.offsets.length ≤ s1.offsetsLen := by
    by_cases h : (s.offsetsLen == 0) = true
    · refine ⟨_, if_pos h, ?_⟩
      have := beq_iff_eq.1 h
      show s.offsets.length ≤ 1
      omega
    · exact ⟨_, if_neg h, hs⟩
  rw [e1]
  unfold natRoll
  dsimp only
  by_cases hr : s1.filePos + d.length > E.cfg.maxFile
  · rw [if_pos hr]
    by_cases hx : s1.offsets.length = s1.offsetsLen
    · rw [if_pos (beq_iff_eq.2 hx), if_pos (by omega)]
      exact ⟨_, rfl, by show (s1.offsets ++ [s1.dataOff]).length ≤ s1.offsetsLen + 1; simp; omega⟩
    · rw [if_neg (fun e => hx (beq_iff_eq.1 e)), if_pos h1]
      exact ⟨_, rfl, by show (s1.offsets ++ [s1.dataOff]).length ≤ s1.offsetsLen; simp; omega⟩
  · rw [if_neg hr]
    exact ⟨_, rfl, h1⟩

/-- C86, refuted for a 32-bit `size_t` when flushes keep failing: whatever is written into the buffer, by the time 2 GB have gathered in it (failed flushes keep
what is in it, and each further commit adds to it) the size of the block has wrapped around and a copy has gone beyond its end; with unbounded numbers there is room. -/
theorem C86_32_false {E : Env} (hl : RealLimits E) (ds : List Bytes) (hd : ∀ d ∈ ds, d.length ≤ 1023) (hsum : 2 ^ 31 ≤ (ds.map List.length).sum) :
    ds.foldlM (mSlabWrite E) (MSlab.init 32) = .ub ∧ ∃ s, ds.foldlM (slabWrite E) Slab.init = .ok s := by
  have machine : ∀ (ds : List Bytes) (s : MSlab 32), (∀ d ∈ ds, d.length ≤ 1023) → s.dataSize.toNat < 2 ^ 31 → s.dataLen.toNat = s.data.length → s.data.length < 2 ^ 31 →
      2 ^ 31 ≤ s.data.length + (ds.map List.length).sum → ds.foldlM (mSlabWrite E) s = .ub := by
    intro ds
    induction ds with
    | nil => intro s _ _ _ h1 h2; simp at h2; omega
    | cons d ds ih =>
      intro s hd h1 h2 h3 h4
      rw [List.foldlM_cons]
      rcases mSlabWrite_32 hl h1 h2 (hd d (.head _)) with e | ⟨s', e, a, b, c, f⟩
      · rw [e]; rfl
      · rw [e, Res.bind_ok]
        rw [List.map_cons, List.sum_cons] at h4
        exact ih s' (fun d h => hd d (.tail _ h)) a b f (by omega)
  have unbounded : ∀ (ds : List Bytes) (s : Slab), (∀ d ∈ ds, d.length ≤ 1023) → s.offsets.length ≤ s.offsetsLen → ∃ s', ds.foldlM (slabWrite E) s = .ok s' := by
    intro ds
    induction ds with
    | nil => intro s _ _; exact ⟨s, rfl⟩
    | cons d ds ih =>
      intro s hd h1
      rw [List.foldlM_cons]
      obtain ⟨s1, e, h2⟩ := slabWrite_any hl h1 (hd d (.head _))
      rw [e, Res.bind_ok]
      exact ih s1 (fun d h => hd d (.tail _ h)) h2
  exact ⟨machine ds _ hd (by decide) rfl (by decide) (Nat.le_trans hsum (Nat.le_add_left _ _)), unbounded ds _ hd (Nat.le_refl _)⟩

/-- There are such writes: values of 1023 bytes, two million of them and some more. -/
example : 2 ^ 31 ≤ ((List.replicate 2100000 (List.replicate 1023 (0 : UInt8))).map List.length).sum := by
  rw [List.map_replicate, List.length_replicate, List.sum_replicate_nat]
  decide

/-- A transaction with one new leaf, in a database just opened, committed while the first write of the flush stops after five bytes. -/
example (k : B32) (v : Bytes) (hv : v.length ≤ 1023) : ∃ m : MDb 32, m.nat = db0.under [some (.writeFail 5)] ∧
    (mTxCommit toyEnv m (leafTx k v) >>= fun x => .ok (x.1.nat, x.2)) = txCommit toyEnv (db0.under [some (.writeFail 5)]) (leafTx k v) := by
  have h0 : FromDir toyEnv sys0 := .opened (d := Dir.fresh) (fun f h => nomatch h) (by decide) (by decide) open_db0
  have h2 : FromDir toyEnv (sys2 k v) := .call (.call h0 sys1_step) (sys2_step k v hv)
  obtain ⟨⟨m, h3, h4⟩, h5⟩ := C86_database (.inl rfl) toyEnv_ok ⟨rfl, rfl, rfl⟩ h2 (sys2_tx k v) (fun n hn => by cases hn; show 1 < 2 ^ 40; decide) [some (.writeFail 5)]
  exact ⟨m, h3, h5 m h3 h4⟩

end Urkel
