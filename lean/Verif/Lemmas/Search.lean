import Verif.Spec.Search
import Verif.Lemmas.Damage
import Verif.Lemmas.Trace
import Verif.Lemmas.Recover
import Mathlib.Data.Fintype.Pigeonhole
/-
Opening any directory, and looking for an old root in any data files.
-/
namespace Urkel

/-! ### Pointers -/

theorem ptrRead_iff {d : Bytes} (hd : 7 ≤ d.length) (p : Ptr) :
    ptrRead d = .ok (p, d.drop 7) ↔ d.take 7 = ptrWrite p ∧ PtrOk p := by
  constructor
  · intro e
    obtain ⟨q, e', hq⟩ := ptrRead_ok hd
    rw [e] at e'
    injection e' with e'
    injection e' with e' _
    subst e'
    refine ⟨?_, hq⟩
    have h2 : (d.take 7).length = 7 := by simp; omega
    unfold ptrRead at e
    rw [takeN_ok (by omega), Res.bind_ok] at e
    simp only at e
    rw [takeN_ok (by simp; omega), Res.bind_ok] at e
    simp only at e
    rw [takeN_ok (by simp; omega), Res.bind_ok] at e
    simp only [Res.pure_eq] at e
    injection e with e
    injection e with e _
    generalize ha : d.take 2 = a at e
    generalize hb : (d.drop 2).take 4 = b at e
    generalize hc : ((d.drop 2).drop 4).take 1 = c at e
    have la : a.length = 2 := by rw [← ha]; simp; omega
    have lb : b.length = 4 := by rw [← hb]; simp; omega
    have lc : c.length = 1 := by rw [← hc]; simp; omega
    have hsplit : d.take 7 = a ++ b ++ c := by
      rw [← ha, ← hb, ← hc, show (7 : Nat) = 2 + 5 from rfl, List.take_add, show (5 : Nat) = 4 + 1 from rfl, List.take_add, List.append_assoc]
    rw [hsplit]
    have na := leNat_lt a
    have nb := leNat_lt b
    have nc := leNat_lt c
    rw [la] at na; rw [lb] at nb; rw [lc] at nc
    have w2 : leBytes 2 (leNat a) = a := by rw [← la]; exact leBytes_leNat a
    have w4 : leBytes 4 (leNat b) = b := by rw [← lb]; exact leBytes_leNat b
    have w1 : leBytes 1 (leNat c) = c := by rw [← lc]; exact leBytes_leNat c
    generalize leNat a = x at *
    generalize leNat b = y at *
    generalize leNat c = z at *
    have e1 : x &&& 1 = x % 2 := Nat.and_one_is_mod x
    have e2 : y &&& 1 = y % 2 := Nat.and_one_is_mod y
    have hs : (((x &&& 1) <<< 9 ||| (y &&& 1) <<< 8) ||| z) = 512 * (x % 2) + 256 * (y % 2) + z := by
      rw [e1, e2]
      have hz : z < 256 := by omega
      have hx : x % 2 = 0 ∨ x % 2 = 1 := by omega
      have hy : y % 2 = 0 ∨ y % 2 = 1 := by omega
      have key : ∀ k : Nat, (256 * k) ||| z = 256 * k + z := by
        intro k
        rw [show (256 : Nat) * k = 2 ^ 8 * k from rfl]
        exact (Nat.two_pow_add_eq_or_of_lt (i := 8) (by omega) k).symm
      rcases hx with hx | hx <;> rcases hy with hy | hy <;> rw [hx, hy]
      · have := key 0; simpa using this
      · have := key 1; simpa using this
      · have := key 2; simpa using this
      · have := key 3; simpa using this
    rw [hs] at e
    subst e
    unfold ptrWrite
    simp only
    have f1 : (512 * (x % 2) + 256 * (y % 2) + z) >>> 8 >>> 1 = x % 2 := by
      rw [← Nat.shiftRight_add, Nat.shiftRight_eq_div_pow]; omega
    have f2 : (512 * (x % 2) + 256 * (y % 2) + z) >>> 8 &&& 1 = y % 2 := by
      rw [Nat.and_one_is_mod, Nat.shiftRight_eq_div_pow]; omega
    have g : ∀ v : Nat, (v >>> 1 <<< 1) ||| (v % 2) = v := by
      intro v
      rw [Nat.shiftLeft_eq, Nat.shiftRight_eq_div_pow, Nat.mul_comm]
      have := Nat.two_pow_add_eq_or_of_lt (i := 1) (b := v % 2) (by omega) (v / 2)
      simp only [Nat.pow_one] at this ⊢
      rw [← this]; omega
    rw [f1, f2, g, g, w2, w4]
    congr 1
    have : leBytes 1 (512 * (x % 2) + 256 * (y % 2) + z) = leBytes 1 z := by
      apply leNat_inj (by simp)
      rw [leNat_leBytes, leNat_leBytes]; omega
    rw [this, w1]
  · rintro ⟨h, hp⟩
    have := ptrRead_write hp (d.drop 7)
    rw [← h, List.take_append_drop] at this
    exact this

theorem ptrOk_iff (p : Ptr) : PtrOk p ↔ (p.index < 2 ^ 15 ∧ p.pos < 2 ^ 31 ∧ p.size < 2 ^ 10) :=
  ⟨fun h => ⟨h.index, h.pos, h.size⟩, fun h => ⟨h.1, h.2.1, h.2.2⟩⟩

theorem metaRead_points (E : Env) (key : B32) (m : Meta) {d : Bytes} (hd : d.length = 38) :
    ∃ prev root, Points d prev root ∧ (∀ prev' root', Points d prev' root' → prev' = prev ∧ root' = root) ∧
      metaRead E key m d = .ok (decide (ValidRec E key d), if leNat (d.take 4) = metaMagic then { m with metaPtr := prev, rootPtr := root } else m) := by
  unfold metaRead
  simp only
  rw [takeN_ok (by omega), Res.bind_ok]
  simp only
  obtain ⟨mp, e1, ok1⟩ := ptrRead_ok (d := d.drop 4) (by simp; omega)
  obtain ⟨rp, e2, ok2⟩ := ptrRead_ok (d := (d.drop 4).drop 7) (by simp; omega)
  refine ⟨mp, rp, ?_, ?_, ?_⟩
  · have h1 := (ptrRead_iff (by simp; omega) mp).1 e1
    have h2 := (ptrRead_iff (by simp; omega) rp).1 e2
    rw [List.drop_drop] at h2
    exact ⟨h1.1, h2.1, (ptrOk_iff _).1 ok1, (ptrOk_iff _).1 ok2⟩
  · rintro p r ⟨h1, h2, h3, h4⟩
    have a1 := (ptrRead_iff (d := d.drop 4) (by simp; omega) p).2 ⟨h1, (ptrOk_iff _).2 h3⟩
    have a2 := (ptrRead_iff (d := (d.drop 4).drop 7) (by simp; omega) r).2 ⟨by rw [List.drop_drop]; exact h2, (ptrOk_iff _).2 h4⟩
    rw [e1] at a1; rw [e2] at a2
    cases a1; cases a2
    exact ⟨rfl, rfl⟩
  by_cases hmag : leNat (d.take 4) = metaMagic
  · have hb : (leNat (d.take 4) != metaMagic) = false := by simpa using hmag
    rw [hb]
    simp only [Bool.false_eq_true, if_false]
    rw [e1, Res.bind_ok]
    simp only
    rw [e2, Res.bind_ok]
    simp only
    rw [takeN_ok (by simp; omega), Res.bind_ok]
    simp only [Res.pure_eq, if_pos hmag, List.drop_drop]
    congr 2
    rw [Bool.eq_iff_iff]
    simp [ValidRec, hmag]
  · have hb : (leNat (d.take 4) != metaMagic) = true := by simpa using hmag
    rw [hb]
    simp [ValidRec, hmag]

/-! ### The size of the current file -/

/-- The current file exists, and the size of it that is kept in memory does not exceed its real size. -/
structure Snug (s : Store) : Prop where
  low : 1 ≤ s.index
  high : s.index ≤ s.files.length
  size : ∀ f, s.files[s.index - 1]? = some f → s.curSize ≤ f.length

theorem Snug.read {s : Store} (h : Snug s) {size index pos : Nat} {d : Bytes} (e : storeRead s size index pos = some d) :
    d.length = size ∧ 1 ≤ index ∧ ∃ f, s.files[index - 1]? = some f ∧ (size ≠ 0 → pos + size ≤ f.length) := by
  unfold storeRead at e
  split at e
  · cases e
  · split at e
    · cases e
    · rename_i hi f hf
      have hle : (if index = s.index then s.curSize else f.length) ≤ f.length := by
        split
        · next hi => subst hi; exact h.size f hf
        · exact Nat.le_refl _
      generalize (if index = s.index then s.curSize else f.length) = fsize at e hle
      simp only at e
      by_cases hz : size = 0
      · rw [if_pos hz] at e
        cases e; exact ⟨hz.symm, by omega, f, hf, fun h => absurd hz h⟩
      · rw [if_neg hz] at e
        by_cases hp : pos + size > fsize
        · rw [if_pos hp] at e; cases e
        · rw [if_neg hp] at e
          cases e
          exact ⟨by simp only [List.length_take, List.length_drop]; omega, by omega, f, hf, fun _ => by omega⟩

theorem Snug.of_same {s s' : Store} (h : Snug s) (e : SameIo s s') : Snug s' := by
  obtain ⟨h1, _, h2, _, h3⟩ := e
  exact ⟨by rw [h2]; exact h.low, by rw [h1, h2]; exact h.high, by rw [h1, h2, h3]; exact h.size⟩

theorem Snug.write {E : Env} {s s' : Store} {d : Bytes} {ok : Bool} (h : Snug s) (e : storeWrite E s d = .ok (s', ok)) : Snug s' := by
  have app : ∀ {x : Store} {c : Nat} {y : Bytes} {io : List IoEv}, Snug x → c ≤ x.curSize + y.length →
      Snug { x with files := appendFile x.files x.index y, curSize := c, io := io } := by
    intro x c y io hx hc
    refine ⟨hx.low, ?_, fun f hf => ?_⟩
    · show x.index ≤ (x.files.modify _ _).length
      rw [List.length_modify]; exact hx.high
    unfold appendFile at hf
    dsimp only at hf ⊢
    rw [List.getElem?_modify] at hf
    simp only [if_true] at hf
    cases hg : x.files[x.index - 1]? with
    | none => rw [hg] at hf; cases hf
    | some g =>
      rw [hg] at hf
      cases hf
      have := hx.size g hg
      simp only [List.length_append]; omega
  unfold storeWrite at e
  have wr : ∀ {x : Store}, Snug x →
      (if d.length = 0 then Res.ok (x, true)
       else match s.faults.head?.join with
        | some (.writeFail k) => .ok ({ x with files := appendFile x.files x.index (d.take k), io := .append x.index (d.take k) :: x.io }, false)
        | some .mapFail =>
          .ok ({ x with files := appendFile x.files x.index d, curSize := x.curSize + d.length, io := .append x.index d :: x.io }, false)
        | _ =>
          .ok ({ x with files := appendFile x.files x.index d, curSize := x.curSize + d.length, io := .append x.index d :: x.io }, true)) = .ok (s', ok) →
      Snug s' := by
    intro x hx e
    split at e
    · cases e; exact hx
    · split at e <;> cases e
      · exact app hx (Nat.le_add_right _ _)
      · exact app hx (Nat.le_refl _)
      · exact app hx (Nat.le_refl _)
  have fresh : ∀ {fs : List Bytes} {i : Nat} (io : List IoEv), i + 1 ≤ fs.length →
      Snug { s with files := fs, index := i + 1, curSize := (fs.getD i []).length, io := io, faults := s.faults.tail } := by
    intro fs i io hi
    refine ⟨by simp, hi, fun f hf => ?_⟩
    dsimp only at hf ⊢
    rw [Nat.add_sub_cancel] at hf
    rw [List.getD_eq_getElem?_getD, hf]; exact Nat.le_refl _
  have hlow := h.low
  have hhigh := h.high
  simp only at e
  split at e
  · split at e
    · cases e; exact ⟨h.low, h.high, h.size⟩
    · split at e
      · cases e
      · split at e
        · cases e
          split
          · refine ⟨hlow, by simp; omega, fun f hf => ?_⟩
            dsimp only at hf ⊢
            rw [List.getElem?_append_left (by omega)] at hf
            exact h.size f hf
          · exact ⟨h.low, h.high, h.size⟩
        · refine wr ?_ e
          split
          · exact fresh _ (by simp; omega)
          · next hx => exact fresh (fs := s.files) (i := s.index) _ (by have hx' : ¬ s.files.length ≤ s.index := hx; omega)
  · exact wr (x := { s with faults := s.faults.tail }) ⟨h.low, h.high, h.size⟩ e

theorem ioRel_snug (E : Env) : IoRel E (fun a b => Snug a → Snug b) where
  trans := fun h1 h2 h => h2 (h1 h)
  same := fun e h => h.of_same e
  write := fun e h => h.write e
  sync := by
    intro s s' ok e h
    unfold commitSync at e
    split at e
    · split at e <;> cases e <;> exact ⟨h.low, h.high, h.size⟩
    · cases e; exact h

/-! ### Reading a root -/

theorem storeRead_sameIo {s s' : Store} (h : SameIo s s') : storeRead s' = storeRead s := by
  obtain ⟨h1, _, h2, _, h3⟩ := h
  funext size index pos
  unfold storeRead
  rw [h1, h2, h3]

theorem seen_long {E : Env} {s : Store} {p : Ptr} : seen E s p = .long ↔ p.index ≠ 0 ∧ LongRecord s p := by
  unfold seen
  split
  · next h => exact ⟨(nomatch ·), fun h' => absurd h h'.1⟩
  · next hi =>
    rcases storeResolve_cases s B32.zero p with ⟨e, hl⟩ | ⟨hn, e | ⟨n, e, hf, hl⟩⟩
    · rw [e]; exact ⟨fun _ => ⟨hi, hl⟩, fun _ => rfl⟩
    · rw [e]; exact ⟨(nomatch ·), fun h => absurd h.2 hn⟩
    · rw [e]
      refine ⟨fun h => ?_, fun h => absurd h.2 hn⟩
      exfalso
      revert h
      split
      · exact (nomatch ·)
      · split <;> exact (nomatch ·)
      · exact (nomatch ·)
      · rename_i h; exact absurd rfl (h _)

/-- The node that is put into a transaction. -/
def rootNode (p : Ptr) (x : B32) : Node := if p.index = 0 then .null else .hash x p

theorem storeReadRoot_seen (E : Env) (s : Store) {p : Ptr} (hp : PtrOk p) : match seen E s p with
    | .root x => ∃ s', storeReadRoot E s p = .ok (s', some (rootNode p x)) ∧ ∃ c, s' = { s with cache := c }
    | .lost => storeReadRoot E s p = .ok (s, none)
    | .long => storeReadRoot E s p = .abort := by
  unfold seen storeReadRoot rootNode
  by_cases hi : p.index = 0
  · rw [if_pos hi, if_pos hi]
    exact ⟨s, by rw [if_pos hi], s.cache, rfl⟩
  rw [if_neg hi, if_neg hi]
  simp only [if_neg hi]
  have hmark : 1 ≤ p.size → p.size ≤ 113 → markPtr p.index p.pos p.size = p := by
    intro h1 h2
    have := hp.index; have := hp.pos
    unfold markPtr
    cases p
    simp only [Ptr.mk.injEq] at *
    refine ⟨Nat.mod_eq_of_lt (by omega), Nat.mod_eq_of_lt (by omega), Nat.mod_eq_of_lt (by omega)⟩
  unfold storeResolve storeReadNode
  by_cases hs : p.size = 0 ∨ p.size > 113
  · rw [if_pos hs]; rfl
  rw [if_neg hs, storeReadInto_ok (by omega), Res.bind_ok]
  have hm := hmark (by omega) (by omega)
  cases hd : storeRead s p.size p.index p.pos with
  | none => rfl
  | some d =>
    rcases C35_node_read_partial d with ⟨h1, h2⟩ | ⟨h1, h2⟩
    · obtain ⟨x, hx⟩ := h1.ok (nodeRead_ne d)
      dsimp only
      rw [hx, Res.bind_ok]
      cases x with
      | none => rfl
      | some n =>
        rcases nodeRead_shape hx with ⟨pre, hl, pl, hr, pr, rfl⟩ | ⟨k, vp, rfl⟩
        · dsimp only [Res.pure_eq, Res.bind_ok]
          refine ⟨{ s with cache := cacheInsert s.cache (hashInternal E.H pre hl hr) p }, ?_, _, rfl⟩
          show (Res.ok ({ s with cache := cacheInsert s.cache (hashInternal E.H pre hl hr) (markPtr p.index p.pos p.size) }, some (Node.hash (hashInternal E.H pre hl hr) (markPtr p.index p.pos p.size))) : Res _) = _
          rw [hm]
        · dsimp only [Res.pure_eq, Res.bind_ok]
          obtain ⟨r, e⟩ := storeRetrieve_safe (s := s) (v := none) (vp := some vp) (.inr ⟨rfl, rfl⟩)
          rw [e]
          cases r with
          | none => rfl
          | some x =>
            dsimp only
            refine ⟨{ s with cache := cacheInsert s.cache (hashValue E.H k x) p }, ?_, _, rfl⟩
            show (Res.ok ({ s with cache := cacheInsert s.cache (hashValue E.H k x) (markPtr p.index p.pos p.size) }, some (Node.hash (hashValue E.H k x) (markPtr p.index p.pos p.size))) : Res _) = _
            rw [hm]
    · dsimp only
      rw [h1]; rfl

/-! ### The search -/

section
variable {E : Env} {s s' : Store} {h : B32}

theorem seen_same (e : SameIo s s') : seen E s' = seen E s := by
  have e1 := storeRead_sameIo e
  have e2 : storeReadInto 113 s' = storeReadInto 113 s := by funext a b c; unfold storeReadInto; rw [e1]
  have e3 : storeReadInto valueSize s' = storeReadInto valueSize s := by funext a b c; unfold storeReadInto; rw [e1]
  funext p
  unfold seen storeResolve storeReadNode storeRetrieve
  rw [e2, e3]

theorem recordAt_same (e : SameIo s s') {p q r : Ptr} : RecordAt E s' p q r ↔ RecordAt E s p q r := by
  unfold RecordAt; rw [storeRead_sameIo e, e.2.2.2.1]

theorem passes_same (e : SameIo s s') {p q : Ptr} : Passes E s' h p q ↔ Passes E s h p q := by
  unfold Passes; rw [seen_same e]; simp only [recordAt_same e]

theorem hunt_same (e : SameIo s s') {p : Ptr} {o : Hunted} (hu : Hunt E s h p o) : Hunt E s' h p o := by
  induction hu with
  | first h => exact .first h
  | broken h hb => exact .broken h fun a b hr => hb a b ((recordAt_same e).1 hr)
  | lost h hr hs => exact .lost h ((recordAt_same e).2 hr) (by rw [seen_same e]; exact hs)
  | long h hr hs => exact .long h ((recordAt_same e).2 hr) (by rw [seen_same e]; exact hs)
  | found h hr hs => exact .found h ((recordAt_same e).2 hr) (by rw [seen_same e]; exact hs)
  | next hp _ ih => exact .next ((passes_same e).2 hp) ih

theorem SameIo.symm (e : SameIo s s') : SameIo s' s := ⟨e.1.symm, e.2.1.symm, e.2.2.1.symm, e.2.2.2.1.symm, e.2.2.2.2.symm⟩

/-- Reading a commit record. -/
theorem storeReadMeta_cases (hs : Snug s) (p : Ptr) :
    (storeReadMeta E s p = .ok none ∧ ∀ q r, ¬ RecordAt E s p q r) ∨
    ∃ q r, RecordAt E s p q r ∧ (∀ q' r', RecordAt E s p q' r' → q' = q ∧ r' = r) ∧ PtrOk q ∧ PtrOk r ∧
      storeReadMeta E s p = .ok (some ⟨q, r, .null⟩) := by
  unfold storeReadMeta
  have e38 : metaSize = 38 := rfl
  rw [e38]
  cases hd : storeRead s 38 p.index p.pos with
  | none =>
    refine .inl ⟨rfl, ?_⟩
    rintro q r ⟨d, e, _⟩
    rw [hd] at e; cases e
  | some d =>
    have hl := (hs.read hd).1
    obtain ⟨q, r, h1, h2, h3⟩ := metaRead_points E s.key Meta.init hl
    dsimp only
    rw [h3, Res.bind_ok]
    by_cases hv : ValidRec E s.key d
    · right
      refine ⟨q, r, ⟨d, hd, hv, h1⟩, ?_, (ptrOk_iff _).2 h1.2.2.1, (ptrOk_iff _).2 h1.2.2.2, ?_⟩
      · rintro q' r' ⟨d', e, _, hp⟩
        rw [hd] at e; cases e
        exact h2 _ _ hp
      · rw [if_pos hv.1]
        simp only [decide_eq_true hv, if_true, Meta.init, Res.pure_eq]
    · left
      refine ⟨?_, ?_⟩
      · simp only [decide_eq_false hv, Bool.false_eq_true, if_false, Res.pure_eq]
      · rintro q r ⟨d', e, hv', _⟩
        rw [hd] at e; cases e
        exact hv hv'

theorem recordAt_inj (hs : Snug s) {p q r q' r' : Ptr} (h1 : RecordAt E s p q r) (h2 : RecordAt E s p q' r') : q = q' ∧ r = r' := by
  rcases storeReadMeta_cases (E := E) hs p with ⟨_, hn⟩ | ⟨a, b, _, hu, _⟩
  · exact absurd h1 (hn _ _)
  · have a1 := hu _ _ h1
    have a2 := hu _ _ h2
    exact ⟨a1.1.trans a2.1.symm, a1.2.trans a2.2.symm⟩

/-- One round of the loop. -/
theorem historyLoop_round (hs : Snug s) (fuel : Nat) :
    (Hunt E s h s.lastMeta.metaPtr .missing ∧ ∃ s', historyLoop E h (fuel + 1) s = .ok (s', none) ∧ SameIo s s') ∨
    (Hunt E s h s.lastMeta.metaPtr .dies ∧ historyLoop E h (fuel + 1) s = .abort) ∨
    (∃ root s', Hunt E s h s.lastMeta.metaPtr (.found root) ∧ historyLoop E h (fuel + 1) s = .ok (s', some (rootNode root h)) ∧ SameIo s s') ∨
    (∃ q s', Passes E s h s.lastMeta.metaPtr q ∧ historyLoop E h (fuel + 1) s = historyLoop E h fuel s' ∧ SameIo s s' ∧ s'.lastMeta.metaPtr = q) := by
  rw [historyLoop]
  by_cases hi : s.lastMeta.metaPtr.index = 0
  · rw [if_pos hi]
    exact .inl ⟨.first hi, s, rfl, SameIo.refl s⟩
  rw [if_neg hi]
  rcases storeReadMeta_cases (E := E) hs s.lastMeta.metaPtr with ⟨e, hn⟩ | ⟨q, r, hr, hu, hq, hrr, e⟩
  · rw [e]
    exact .inl ⟨.broken hi hn, s, rfl, SameIo.refl s⟩
  · rw [e, Res.bind_ok]
    dsimp only
    have hsr := storeReadRoot_seen E s hrr
    cases hse : seen E s r with
    | lost =>
      rw [hse] at hsr
      dsimp only at hsr
      rw [hsr]
      exact .inl ⟨.lost hi hr hse, s, rfl, SameIo.refl s⟩
    | long =>
      rw [hse] at hsr
      dsimp only at hsr
      rw [hsr]
      exact .inr (.inl ⟨.long hi hr hse, rfl⟩)
    | root x =>
      rw [hse] at hsr
      obtain ⟨s1, e1, c, rfl⟩ := hsr
      rw [e1, Res.bind_ok]
      dsimp only
      have hx : rootNodeHash (rootNode r x) = x := by
        unfold rootNode
        split
        · next h0 => unfold seen at hse; rw [if_pos h0] at hse; injection hse
        · rfl
      rw [hx]
      by_cases hxh : x = h
      · rw [if_pos hxh]
        subst hxh
        exact .inr (.inr (.inl ⟨r, _, .found hi hr hse, rfl, ⟨rfl, rfl, rfl, rfl, rfl⟩⟩))
      · rw [if_neg hxh]
        exact .inr (.inr (.inr ⟨q, _, ⟨hi, r, x, hr, hse, hxh⟩, rfl, ⟨rfl, rfl, rfl, rfl, rfl⟩, rfl⟩))

/-- The loop, as long as the fuel lasts. -/
theorem historyLoop_hunt : ∀ (fuel : Nat) {s : Store}, Snug s →
    (Hunt E s h s.lastMeta.metaPtr .missing ∧ ∃ s', historyLoop E h fuel s = .ok (s', none)) ∨
    (Hunt E s h s.lastMeta.metaPtr .dies ∧ historyLoop E h fuel s = .abort) ∨
    (∃ root s', Hunt E s h s.lastMeta.metaPtr (.found root) ∧ historyLoop E h fuel s = .ok (s', some (rootNode root h))) ∨
    (historyLoop E h fuel s = .ub ∧ ∃ g : Nat → Ptr, g 0 = s.lastMeta.metaPtr ∧ ∀ i, i < fuel → Passes E s h (g i) (g (i + 1))) := by
  intro fuel
  induction fuel with
  | zero => intro s _; exact .inr (.inr (.inr ⟨rfl, fun _ => s.lastMeta.metaPtr, rfl, fun i hi => absurd hi (by omega)⟩))
  | succ fuel ih =>
    intro s hs
    rcases historyLoop_round (E := E) (h := h) hs fuel with ⟨a, s', b, _⟩ | ⟨a, b⟩ | ⟨root, s', a, b, _⟩ | ⟨q, s', a, b, c, d⟩
    · exact .inl ⟨a, s', b⟩
    · exact .inr (.inl ⟨a, b⟩)
    · exact .inr (.inr (.inl ⟨root, s', a, b⟩))
    · rw [b]
      rcases ih (hs.of_same c) with ⟨a', s2, b'⟩ | ⟨a', b'⟩ | ⟨root, s2, a', b'⟩ | ⟨b', g, g0, hg⟩
      · rw [d] at a'; exact .inl ⟨.next a (hunt_same c.symm a'), s2, b'⟩
      · rw [d] at a'; exact .inr (.inl ⟨.next a (hunt_same c.symm a'), b'⟩)
      · rw [d] at a'; exact .inr (.inr (.inl ⟨root, s2, .next a (hunt_same c.symm a'), b'⟩))
      · refine .inr (.inr (.inr ⟨b', fun i => match i with | 0 => s.lastMeta.metaPtr | i + 1 => g i, rfl, ?_⟩))
        intro i hi
        cases i with
        | zero => show Passes E s h _ (g 0); rw [g0, d]; exact a
        | succ i => exact (passes_same c).1 (hg i (by omega))

/-! ### A search that is long enough does not end -/

/-- The number of a byte of the files. -/
def byteNo (files : List Bytes) (i pos : Nat) : Nat := ((files.take i).map List.length).sum + pos

theorem byteNo_next {files : List Bytes} {i : Nat} {f : Bytes} (hf : files[i]? = some f) :
    ((files.take (i + 1)).map List.length).sum = ((files.take i).map List.length).sum + f.length := by
  rw [List.take_add_one, hf]; simp

theorem byteNo_mono (files : List Bytes) {i j : Nat} (h : i ≤ j) : ((files.take i).map List.length).sum ≤ ((files.take j).map List.length).sum := by
  obtain ⟨k, rfl⟩ := Nat.exists_eq_add_of_le h
  rw [List.take_add, List.map_append, List.sum_append]; omega

theorem byteNo_lt {files : List Bytes} {i pos : Nat} {f : Bytes} (hf : files[i]? = some f) (hp : pos < f.length) :
    byteNo files i pos < totalBytes files := by
  have h1 := byteNo_next hf
  have hlt := (List.getElem?_eq_some_iff.1 hf).1
  have h2 := byteNo_mono files (show i + 1 ≤ files.length from hlt)
  rw [List.take_length] at h2
  unfold byteNo totalBytes; omega

theorem byteNo_inj {files : List Bytes} {i j pos pos' : Nat} {f g : Bytes} (hf : files[i]? = some f) (hp : pos < f.length)
    (hg : files[j]? = some g) (hp' : pos' < g.length) (e : byteNo files i pos = byteNo files j pos') : i = j ∧ pos = pos' := by
  have h1 := byteNo_next hf
  have h2 := byteNo_next hg
  unfold byteNo at e
  rcases Nat.lt_trichotomy i j with hij | rfl | hij
  · have := byteNo_mono files (show i + 1 ≤ j from hij); omega
  · exact ⟨rfl, by omega⟩
  · have := byteNo_mono files (show j + 1 ≤ i from hij); omega

theorem Passes.inj (hs : Snug s) {p p' q q' : Ptr} (h1 : Passes E s h p q) (h2 : Passes E s h p' q') (hi : p.index = p'.index) (hp : p.pos = p'.pos) :
    q = q' := by
  obtain ⟨_, r, _, hr, _⟩ := h1
  obtain ⟨_, r', _, hr', _⟩ := h2
  have : RecordAt E s p q' r' := by unfold RecordAt at hr' ⊢; rw [hi, hp]; exact hr'
  exact (recordAt_inj hs hr this).1

theorem Passes.place (hs : Snug s) {p q : Ptr} (h1 : Passes E s h p q) : 1 ≤ p.index ∧ ∃ f, s.files[p.index - 1]? = some f ∧ p.pos < f.length := by
  obtain ⟨_, r, _, ⟨d, hd, _⟩, _⟩ := h1
  obtain ⟨_, h1, f, hf, hl⟩ := hs.read hd
  have := hl (by omega)
  exact ⟨h1, f, hf, by omega⟩

/-- As many steps as there are bytes: the search has come to the same place twice. -/
theorem endless_of (hs : Snug s) {p : Ptr} {g : Nat → Ptr} (g0 : g 0 = p) (hg : ∀ i, i < totalBytes s.files + 2 → Passes E s h (g i) (g (i + 1))) :
    Endless E s h p := by
  have place : ∀ i : Fin (totalBytes s.files + 1), byteNo s.files ((g i).index - 1) (g i).pos < totalBytes s.files := by
    intro i
    obtain ⟨_, f, hf, hl⟩ := (hg i (by omega)).place hs
    exact byteNo_lt hf hl
  obtain ⟨a, b, hab, heq⟩ := Fintype.exists_ne_map_eq_of_card_lt (fun i : Fin (totalBytes s.files + 1) => (⟨_, place i⟩ : Fin (totalBytes s.files))) (by simp)
  have heq' : byteNo s.files ((g a).index - 1) (g a).pos = byteNo s.files ((g b).index - 1) (g b).pos := congrArg Fin.val heq
  -- the smaller one first
  obtain ⟨a, b, hlt, hb, hbyte⟩ : ∃ a b : Nat, a < b ∧ b < totalBytes s.files + 1 ∧ byteNo s.files ((g a).index - 1) (g a).pos = byteNo s.files ((g b).index - 1) (g b).pos := by
    rcases Nat.lt_trichotomy a.val b.val with h1 | h1 | h1
    · exact ⟨a, b, h1, b.isLt, heq'⟩
    · exact absurd (Fin.ext h1) hab
    · exact ⟨b, a, h1, a.isLt, heq'.symm⟩
  have hnext : g (a + 1) = g (b + 1) := by
    have pa := hg a (by omega)
    have pb := hg b (by omega)
    obtain ⟨ia, fa, hfa, hla⟩ := pa.place hs
    obtain ⟨ib, fb, hfb, hlb⟩ := pb.place hs
    obtain ⟨e1, e2⟩ := byteNo_inj hfa hla hfb hlb hbyte
    exact pa.inj hs pb (by omega) e2
  -- where the search is after any number of steps
  let wrap : Nat → Nat := fun i => if i ≤ b then i else a + 1 + (i - (b + 1)) % (b - a)
  have hw : ∀ i, wrap i ≤ b := by
    intro i
    show (if i ≤ b then i else a + 1 + (i - (b + 1)) % (b - a)) ≤ b
    split
    · assumption
    · have := Nat.mod_lt (i - (b + 1)) (show b - a > 0 by omega); omega
  have hstep : ∀ i, g (wrap (i + 1)) = g (wrap i + 1) := by
    intro i
    show g (if i + 1 ≤ b then i + 1 else a + 1 + (i + 1 - (b + 1)) % (b - a)) = g ((if i ≤ b then i else a + 1 + (i - (b + 1)) % (b - a)) + 1)
    rcases Nat.lt_trichotomy i b with h1 | h1 | h1
    · rw [if_pos (by omega), if_pos (by omega)]
    · subst h1
      rw [if_neg (by omega), if_pos (Nat.le_refl _), Nat.sub_self, Nat.zero_mod, Nat.add_zero]
      exact hnext
    · rw [if_neg (by omega), if_neg (by omega)]
      have e : i + 1 - (b + 1) = (i - (b + 1)) + 1 := by omega
      rw [e]
      generalize i - (b + 1) = k
      have hm := Nat.mod_lt k (show b - a > 0 by omega)
      by_cases hk : k % (b - a) + 1 = b - a
      · have : (k + 1) % (b - a) = 0 := by
          rw [Nat.add_mod]
          by_cases h1 : b - a = 1
          · rw [h1]; simp [Nat.mod_one]
          · rw [Nat.mod_eq_of_lt (show 1 < b - a by omega), hk, Nat.mod_self]
        rw [this, Nat.add_zero, hnext]
        congr 1; omega
      · have : (k + 1) % (b - a) = k % (b - a) + 1 := by
          rw [Nat.add_mod, Nat.mod_eq_of_lt (show 1 < b - a by omega), Nat.mod_eq_of_lt (by omega)]
        rw [this]; rfl
  refine ⟨fun i => g (wrap i), ?_, fun i => ?_⟩
  · show g (if 0 ≤ b then 0 else _) = p
    rw [if_pos (Nat.zero_le _)]; exact g0
  · show Passes E s h (g (wrap i)) (g (wrap (i + 1)))
    rw [hstep]
    exact hg _ (by have := hw i; omega)

theorem Hunt.not_passes (hs : Snug s) {p q : Ptr} {o : Hunted} (hu : Hunt E s h p o) (hp : Passes E s h p q) : Hunt E s h q o := by
  obtain ⟨hi, r, x, hr, hse, hx⟩ := hp
  cases hu with
  | first h0 => exact absurd h0 hi
  | broken _ hb => exact absurd hr (hb _ _)
  | lost _ hr' hs' => rw [← (recordAt_inj hs hr hr').2, hse] at hs'; cases hs'
  | long _ hr' hs' => rw [← (recordAt_inj hs hr hr').2, hse] at hs'; cases hs'
  | found _ hr' hs' => rw [← (recordAt_inj hs hr hr').2, hse] at hs'; cases hs'; exact absurd rfl hx
  | next hp' hu' =>
    obtain ⟨_, r', _, hr', _⟩ := hp'
    rw [(recordAt_inj hs hr hr').1]; exact hu'

/-- An endless search has no end. -/
theorem Hunt.not_endless (hs : Snug s) {p : Ptr} {o : Hunted} (hu : Hunt E s h p o) : ¬ Endless E s h p := by
  induction hu with
  | first h0 => rintro ⟨f, rfl, hf⟩; exact (hf 0).1 h0
  | broken _ hb => rintro ⟨f, rfl, hf⟩; obtain ⟨_, _, _, hr, _⟩ := hf 0; exact hb _ _ hr
  | lost _ hr' hs' =>
    rintro ⟨f, rfl, hf⟩; obtain ⟨_, _, _, hr, hse, _⟩ := hf 0
    rw [← (recordAt_inj hs hr hr').2, hse] at hs'; cases hs'
  | long _ hr' hs' =>
    rintro ⟨f, rfl, hf⟩; obtain ⟨_, _, _, hr, hse, _⟩ := hf 0
    rw [← (recordAt_inj hs hr hr').2, hse] at hs'; cases hs'
  | found _ hr' hs' =>
    rintro ⟨f, rfl, hf⟩; obtain ⟨_, _, _, hr, hse, hx⟩ := hf 0
    rw [← (recordAt_inj hs hr hr').2, hse] at hs'; cases hs'; exact hx rfl
  | next hp' _ ih =>
    rintro ⟨f, rfl, hf⟩
    exact ih ⟨fun i => f (i + 1), (hf 0).inj hs hp' rfl rfl, fun i => hf (i + 1)⟩

/-- The end of a search is determined. -/
theorem Hunt.unique (hs : Snug s) {p : Ptr} {o o' : Hunted} (h1 : Hunt E s h p o) (h2 : Hunt E s h p o') : o = o' := by
  induction h1 with
  | first h0 => cases h2 <;> first | rfl | (exfalso; first | contradiction | (rename_i hp _; exact hp.1 h0))
  | broken _ hb =>
    cases h2 with
    | first => rfl
    | broken => rfl
    | lost => rfl
    | long _ hr _ => exact absurd hr (hb _ _)
    | found _ hr _ => exact absurd hr (hb _ _)
    | next hp _ => obtain ⟨_, _, _, hr, _⟩ := hp; exact absurd hr (hb _ _)
  | lost hi hr hse =>
    cases h2 with
    | first => rfl
    | broken => rfl
    | lost => rfl
    | long _ hr' hs' => rw [← (recordAt_inj hs hr hr').2, hse] at hs'; cases hs'
    | found _ hr' hs' => rw [← (recordAt_inj hs hr hr').2, hse] at hs'; cases hs'
    | next hp _ => obtain ⟨_, _, _, hr', hs', _⟩ := hp; rw [← (recordAt_inj hs hr hr').2, hse] at hs'; cases hs'
  | long hi hr hse =>
    cases h2 with
    | first h0 => exact absurd h0 hi
    | broken _ hb => exact absurd hr (hb _ _)
    | lost _ hr' hs' => rw [← (recordAt_inj hs hr hr').2, hse] at hs'; cases hs'
    | long => rfl
    | found _ hr' hs' => rw [← (recordAt_inj hs hr hr').2, hse] at hs'; cases hs'
    | next hp _ => obtain ⟨_, _, _, hr', hs', _⟩ := hp; rw [← (recordAt_inj hs hr hr').2, hse] at hs'; cases hs'
  | found hi hr hse =>
    cases h2 with
    | first h0 => exact absurd h0 hi
    | broken _ hb => exact absurd hr (hb _ _)
    | lost _ hr' hs' => rw [← (recordAt_inj hs hr hr').2, hse] at hs'; cases hs'
    | long _ hr' hs' => rw [← (recordAt_inj hs hr hr').2, hse] at hs'; cases hs'
    | found _ hr' hs' => rw [(recordAt_inj hs hr hr').2]
    | next hp _ => obtain ⟨_, _, _, hr', hs', hx⟩ := hp; rw [← (recordAt_inj hs hr hr').2, hse] at hs'; cases hs'; exact absurd rfl hx
  | next hp _ ih => exact ih (h2.not_passes hs hp)

/-- The search for a root in any files. -/
theorem historyLoop_total (hs : Snug s) :
    (Hunt E s h s.lastMeta.metaPtr .missing ∧ ∃ s', historyLoop E h (totalBytes s.files + 2) s = .ok (s', none)) ∨
    (Hunt E s h s.lastMeta.metaPtr .dies ∧ historyLoop E h (totalBytes s.files + 2) s = .abort) ∨
    (∃ root s', Hunt E s h s.lastMeta.metaPtr (.found root) ∧ historyLoop E h (totalBytes s.files + 2) s = .ok (s', some (rootNode root h))) ∨
    (Endless E s h s.lastMeta.metaPtr ∧ historyLoop E h (totalBytes s.files + 2) s = .ub) := by
  rcases historyLoop_hunt (E := E) (h := h) (totalBytes s.files + 2) hs with a | a | a | ⟨a, g, g0, hg⟩
  · exact .inl a
  · exact .inr (.inl a)
  · exact .inr (.inr (.inl a))
  · exact .inr (.inr (.inr ⟨endless_of hs g0 hg, a⟩))

/-! ### Opening -/

theorem findMeta_slot {key : B32} {f : Bytes} {j : Nat} {prev root : Ptr} (hj : 38 * j + 38 ≤ f.length) (hv : ValidRec E key (slot f j))
    (hp : Points (slot f j) prev root) (hno : ∀ j', j < j' → 38 * j' + 38 ≤ f.length → ¬ ValidRec E key (slot f j')) (m : Meta) :
    ∃ m' : Meta, m'.rootNode = m.rootNode ∧ findMeta E key f (f.length / metaSize) m = .ok (some (38 * j), { m' with metaPtr := prev, rootPtr := root }) := by
  have hms : metaSize = 38 := rfl
  have hle : j + 1 ≤ f.length / metaSize := by rw [hms]; omega
  obtain ⟨m1, h1, h2, _⟩ := findMeta_skip (E := E) (key := key) hle (by rw [hms]; omega)
    (fun j' a b => hno j' (by omega) (by rw [hms] at b; omega)) m
  refine ⟨m1, h1, ?_⟩
  rw [h2, findMeta]
  have hl : (slot f j).length = 38 := length_slot (by rw [hms]; exact hj)
  obtain ⟨q, r, _, hu, e⟩ := metaRead_points E key m1 hl
  obtain ⟨rfl, rfl⟩ := hu _ _ hp
  have e' : metaRead E key m1 ((f.drop (metaSize * j)).take metaSize) = _ := e
  rw [e', Res.bind_ok]
  simp only [decide_eq_true hv, if_true, if_pos hv.1]
  rfl

theorem recover_slot {key : B32} {files : List Bytes} {i j : Nat} {prev root : Ptr} (hn : Newest E key files i j prev root) :
    recoverState E key files files.length Meta.init =
      .ok (⟨⟨i + 1, 38 * j, prev.size⟩, root, .null⟩, ⟨prev, root, .null⟩, cutAt files i j, i + 1) := by
  obtain ⟨f, hf, hj, hv, hp, hno, hafter⟩ := hn
  have hlt := (List.getElem?_eq_some_iff.1 hf).1
  obtain ⟨m, h1, h2, _⟩ := recover_drop (E := E) (key := key) (files := files) (k := i + 1) (n := files.length) hlt (Nat.le_refl _)
    (fun i' f' j' a _ hf' hl => hafter i' f' j' (by omega) hf' hl) Meta.init
  obtain ⟨m', h3, h4⟩ := findMeta_slot hj hv hp hno m
  have hd : files.getD i [] = f := by rw [List.getD_eq_getElem?_getD, hf]; rfl
  rw [h2, recoverState]
  simp only
  rw [hd, h4, Res.bind_ok]
  have hr : m'.rootNode = .null := by rw [h3, h1]; rfl
  obtain ⟨a, b, c⟩ := m'
  dsimp only at hr
  subst hr
  unfold cutAt
  rw [hd]
  rfl

theorem recover_none {key : B32} {files : List Bytes} (hn : NoRecord E key files) :
    ∃ lm, recoverState E key files files.length Meta.init = .ok (Meta.init, lm, [], 1) := by
  obtain ⟨m, _, h2, _⟩ := recover_drop (E := E) (key := key) (files := files) (k := 0) (n := files.length) (Nat.zero_le _) (Nat.le_refl _)
    (fun i' f' j' _ _ hf' hl => hn i' f' j' hf' hl) Meta.init
  exact ⟨m, h2⟩

/-- There is no commit record, or a newest one. -/
theorem newest_or_none (E : Env) (key : B32) (files : List Bytes) :
    NoRecord E key files ∨ ∃ i j prev root, Newest E key files i j prev root := by
  -- the last file with a record
  have file : ∀ k, k ≤ files.length → (∀ (i : Nat) (f : Bytes) (j : Nat), k ≤ i → files[i]? = some f → 38 * j + 38 ≤ f.length → ¬ ValidRec E key (slot f j)) ∨
      ∃ i f j, files[i]? = some f ∧ 38 * j + 38 ≤ f.length ∧ ValidRec E key (slot f j) ∧
        (∀ j', j < j' → 38 * j' + 38 ≤ f.length → ¬ ValidRec E key (slot f j')) ∧
        ∀ (i' : Nat) (f' : Bytes) (j' : Nat), i < i' → files[i']? = some f' → 38 * j' + 38 ≤ f'.length → ¬ ValidRec E key (slot f' j') := by
    intro k hk
    obtain ⟨d, hd⟩ := Nat.exists_eq_add_of_le hk
    induction d generalizing k with
    | zero =>
      left
      intro i f j hi hf
      have := (List.getElem?_eq_some_iff.1 hf).1
      omega
    | succ d ih =>
      rcases ih (k + 1) (by omega) (by omega) with h | h
      · have hk' : k < files.length := by omega
        generalize hf : files[k] = f
        have hf' : files[k]? = some f := by rw [List.getElem?_eq_getElem hk', hf]
        -- the last record of the file
        have last : ∀ e j, j + e = f.length → (∀ j', j ≤ j' → 38 * j' + 38 ≤ f.length → ¬ ValidRec E key (slot f j')) ∨
            ∃ j, 38 * j + 38 ≤ f.length ∧ ValidRec E key (slot f j) ∧ (∀ j', j < j' → 38 * j' + 38 ≤ f.length → ¬ ValidRec E key (slot f j')) := by
          intro e
          induction e with
          | zero => intro j hj; left; intro j' h1 h2; omega
          | succ e ih =>
            intro j hj
            rcases ih (j + 1) (by omega) with h | h
            · by_cases hv : 38 * j + 38 ≤ f.length ∧ ValidRec E key (slot f j)
              · exact .inr ⟨j, hv.1, hv.2, fun j' a b => h j' a b⟩
              · left
                intro j' h1 h2 h3
                rcases Nat.eq_or_lt_of_le h1 with rfl | h1
                · exact hv ⟨h2, h3⟩
                · exact h j' h1 h2 h3
            · exact .inr h
        rcases last f.length 0 (by omega) with h' | ⟨j, h1, h2, h3⟩
        · left
          intro i g j hi hg hl
          rcases Nat.eq_or_lt_of_le hi with rfl | hi
          · rw [hf'] at hg; cases hg
            exact h' j (Nat.zero_le _) hl
          · exact h i g j hi hg hl
        · exact .inr ⟨k, f, j, hf', h1, h2, h3, fun i' f' j' a => h i' f' j' a⟩
      · exact .inr h
  rcases file 0 (Nat.zero_le _) with h | ⟨i, f, j, h1, h2, h3, h4, h5⟩
  · exact .inl fun i f j => h i f j (Nat.zero_le _)
  · have hl : (slot f j).length = 38 := length_slot h2
    obtain ⟨q, r, hp, _⟩ := metaRead_points E key Meta.init hl
    exact .inr ⟨i, j, q, r, f, h1, h2, h3, hp, h4, h5⟩

end

end Urkel
