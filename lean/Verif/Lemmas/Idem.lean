import Verif.Lemmas.Recover
import Verif.Lemmas.Grew
/-
Opening a directory a second time, for arbitrary directories.
-/
namespace Urkel

/-- The record a scan found. -/
theorem findMeta_some {E : Env} {key : B32} {f : Bytes} {n : Nat} (hn : metaSize * n ≤ f.length) {m m' : Meta} {off : Nat}
    (e : findMeta E key f n m = .ok (some off, m')) :
    ∃ k mp rp, off = metaSize * k ∧ k < n ∧ m' = ⟨mp, rp, m.rootNode⟩ ∧
      ∀ m2 : Meta, metaRead E key m2 (slot f k) = .ok (true, { m2 with metaPtr := mp, rootPtr := rp }) := by
  induction n generalizing m with
  | zero => cases e
  | succ n ih =>
    have hsl : metaSize * n + metaSize ≤ f.length := by rw [Nat.mul_add] at hn; omega
    rw [findMeta] at e
    have hall : ∃ mp rp, ∀ m2, metaRead E key m2 (slot f n) = .ok (decide (ValidRec E key (slot f n)),
        if leNat ((slot f n).take 4) = metaMagic then { m2 with metaPtr := mp, rootPtr := rp } else m2) := by
      have hd := length_slot hsl
      have hd' : (slot f n).length = 38 := hd
      obtain ⟨mp, e1, _⟩ := ptrRead_ok (d := (slot f n).drop 4) (by simp; omega)
      obtain ⟨rp, e2, _⟩ := ptrRead_ok (d := ((slot f n).drop 4).drop 7) (by simp; omega)
      refine ⟨mp, rp, fun m2 => ?_⟩
      unfold metaRead
      simp only
      rw [takeN_ok (by omega), Res.bind_ok]
      simp only
      by_cases hmag : leNat ((slot f n).take 4) = metaMagic
      · have hb : (leNat ((slot f n).take 4) != metaMagic) = false := by simpa using hmag
        rw [hb]
        simp only [Bool.false_eq_true, if_false]
        rw [e1, Res.bind_ok]
        simp only
        rw [e2, Res.bind_ok]
        simp only
        rw [takeN_ok (by simp; omega), Res.bind_ok]
        simp only [Res.pure_eq, if_pos hmag, List.drop_drop]
        congr 2
        rw [Bool.eq_iff_iff]
        simp [ValidRec, hmag]
      · have hb : (leNat ((slot f n).take 4) != metaMagic) = true := by simpa using hmag
        rw [hb]
        simp [ValidRec, hmag]
    obtain ⟨mp, rp, hall⟩ := hall
    have e0 : metaRead E key m ((f.drop (metaSize * n)).take metaSize) = _ := hall m
    rw [e0, Res.bind_ok] at e
    simp only [decide_eq_true_eq] at e
    by_cases hv : ValidRec E key (slot f n)
    · rw [if_pos hv, if_pos hv.1] at e
      cases e
      refine ⟨n, mp, rp, rfl, by omega, rfl, fun m2 => ?_⟩
      rw [hall m2, if_pos hv.1]
      simp [hv]
    · rw [if_neg hv] at e
      obtain ⟨k, mp', rp', a, b, c, d⟩ := ih (by omega) e
      refine ⟨k, mp', rp', a, by omega, ?_, d⟩
      rw [c]; split <;> rfl

/-- What recovery returns: nothing found, or files that recovery leaves alone. -/
theorem recover_again {E : Env} {key : B32} {files : List Bytes} {n : Nat} (hn : n ≤ files.length) {m : Meta}
    {st lm : Meta} {fs : List Bytes} {idx : Nat} (e : recoverState E key files n m = .ok (st, lm, fs, idx)) :
    (st = Meta.init ∧ fs = [] ∧ idx = 1) ∨
    (fs.length = idx ∧ 1 ≤ idx ∧ recoverState E key fs fs.length m = .ok (st, lm, fs, idx)) := by
  induction n generalizing m with
  | zero =>
    cases e
    exact Or.inl ⟨rfl, rfl, rfl⟩
  | succ n ih =>
    rw [recoverState] at e
    simp only at e
    obtain ⟨⟨r, m1⟩, e1, e⟩ := Res.bind_eq_ok.1 e
    have hget : files[n]? = some (files.getD n []) := by
      rw [List.getD_eq_getElem?_getD, List.getElem?_eq_getElem (by omega)]; rfl
    generalize hf : files.getD n [] = f at hget e e1
    have hmul : metaSize * (f.length / metaSize) ≤ f.length := Nat.mul_div_le _ _
    cases r with
    | none =>
      simp only at e
      rcases ih (by omega) e with h | ⟨a, b, c⟩
      · exact Or.inl h
      · refine Or.inr ⟨a, b, ?_⟩
        -- the memory content left by skipped records does not matter
        have hm : m1.rootNode = m.rootNode := by
          have key' : ∀ (n : Nat) (m m1 : Meta), findMeta E key f n m = .ok (none, m1) → metaSize * n ≤ f.length → m1.rootNode = m.rootNode := by
            intro n
            induction n with
            | zero => intro m m1 e _; cases e; rfl
            | succ n ih =>
              intro m m1 e hn
              rw [findMeta] at e
              obtain ⟨mp, rp, _, _, e0⟩ := metaRead_eq E key m (length_slot (f := f) (n := n) (by rw [Nat.mul_add] at hn; omega))
              have e0' : metaRead E key m ((f.drop (metaSize * n)).take metaSize) = _ := e0
              rw [e0', Res.bind_ok] at e
              simp only [decide_eq_true_eq] at e
              split at e
              · cases e
              · rw [ih _ _ e (by rw [Nat.mul_add] at hn; omega)]
                split <;> rfl
          exact key' _ _ _ e1 hmul
        have indep : ∀ (a b : Meta), a.rootNode = b.rootNode → fs.length = idx → 1 ≤ idx → recoverState E key fs fs.length a = .ok (st, lm, fs, idx) →
            recoverState E key fs fs.length b = .ok (st, lm, fs, idx) := by
          intro a b hab hl h1 h
          cases hk : fs.length with
          | zero => omega
          | succ k =>
            rw [hk] at h
            rw [recoverState] at h ⊢
            simp only at h ⊢
            generalize fs.getD k [] = g at h ⊢
            obtain ⟨⟨r, m2⟩, e2, h⟩ := Res.bind_eq_ok.1 h
            cases r with
            | some off =>
              have hind : ∀ (n : Nat) (a b : Meta), a.rootNode = b.rootNode → metaSize * n ≤ g.length → ∀ off m2,
                  findMeta E key g n a = .ok (some off, m2) → findMeta E key g n b = .ok (some off, m2) := by
                intro n
                induction n with
                | zero => intro a b _ _ off m2 e; cases e
                | succ n ih =>
                  intro a b hab hn off m2 e
                  have hle : metaSize * n + metaSize ≤ g.length := by rw [Nat.mul_add] at hn; omega
                  obtain ⟨k, mp, rp, h1, h2, h3, h4⟩ := findMeta_some hn e
                  by_cases hkn : k = n
                  · subst hkn
                    rw [findMeta]
                    have h4' : metaRead E key b ((g.drop (metaSize * k)).take metaSize) = _ := h4 b
                    rw [h4', Res.bind_ok]
                    simp only [if_true, Res.pure_eq]
                    rw [h1, h3, hab]
                  · rw [findMeta] at e ⊢
                    obtain ⟨mp1, rp1, _, _, ea⟩ := metaRead_eq E key a (length_slot hle)
                    obtain ⟨mp2, rp2, _, _, eb⟩ := metaRead_eq E key b (length_slot hle)
                    have ea' : metaRead E key a ((g.drop (metaSize * n)).take metaSize) = _ := ea
                    have eb' : metaRead E key b ((g.drop (metaSize * n)).take metaSize) = _ := eb
                    rw [ea', Res.bind_ok] at e
                    rw [eb', Res.bind_ok]
                    simp only [decide_eq_true_eq] at e ⊢
                    split at e
                    · cases e
                      have hp : 0 < metaSize := by decide
                      have : n = k := Nat.eq_of_mul_eq_mul_left hp h1
                      omega
                    · next hv =>
                      rw [if_neg hv]
                      refine ih _ _ ?_ (by omega) _ _ e
                      split <;> simp [hab]
              rw [hind _ _ _ hab (Nat.mul_div_le _ _) _ _ e2, Res.bind_ok]
              exact h
            | none =>
              exfalso
              -- then the last file would have been dropped
              simp only at h
              have hle : ∀ (n : Nat) (m : Meta) (st lm : Meta) (fs' : List Bytes) (idx : Nat), recoverState E key fs n m = .ok (st, lm, fs', idx) →
                  fs'.length ≤ n := by
                intro n
                induction n with
                | zero => intro m st lm fs' idx h; cases h; simp
                | succ n ih =>
                  intro m st lm fs' idx h
                  rw [recoverState] at h
                  simp only at h
                  obtain ⟨⟨r, m3⟩, _, h⟩ := Res.bind_eq_ok.1 h
                  cases r with
                  | none => have := ih _ _ _ _ _ h; omega
                  | some off => cases h; simp; omega
              have := hle _ _ _ _ _ _ h
              omega
        exact indep m1 m hm a b c
    | some off =>
      cases e
      right
      obtain ⟨k, mp, rp, h1, h2, h3, h4⟩ := findMeta_some hmul e1
      have hin : metaSize * k + metaSize ≤ f.length := by
        have := Nat.mul_le_mul_left metaSize (show k + 1 ≤ f.length / metaSize from h2)
        rw [Nat.mul_add] at this; omega
      have hlen : (files.take n ++ [f.take (off + metaSize)]).length = n + 1 := by simp; omega
      refine ⟨hlen, by omega, ?_⟩
      rw [hlen, recoverState]
      have hg : (files.take n ++ [f.take (off + metaSize)]).getD n [] = f.take (off + metaSize) := by
        rw [List.getD_eq_getElem?_getD, List.getElem?_append_right (by simp; omega)]
        simp [Nat.min_eq_left (show n ≤ files.length by omega)]
      simp only [hg]
      have hl2 : (f.take (off + metaSize)).length / metaSize = k + 1 := by
        rw [List.length_take, Nat.min_eq_left (by omega), h1]
        have : metaSize = 38 := rfl
        rw [this]; omega
      rw [hl2, findMeta]
      have hs : ((f.take (off + metaSize)).drop (metaSize * k)).take metaSize = slot f k := by
        unfold slot
        rw [List.drop_take, h1, Nat.add_sub_cancel_left, List.take_take, Nat.min_self]
      rw [hs, h4 m, Res.bind_ok]
      simp only [if_true, Res.pure_eq, Res.bind_ok]
      rw [h3]
      have ht : (files.take n ++ [f.take (off + metaSize)]).take n = files.take n := by
        rw [List.take_append_of_le_length (by simp; omega), List.take_take, Nat.min_self]
      rw [ht, ← h1, List.take_take, Nat.min_self]

theorem Dir.key_again {d : Dir} {rand key : B32} (h : d.key rand = some key) (files : List Bytes) (rand' : B32) :
    Dir.key ⟨some (d.keyFile.getD rand.bytes), files⟩ rand' = some key := by
  unfold Dir.key at h ⊢
  cases hk : d.keyFile with
  | none =>
    rw [hk] at h
    simp only at h
    cases h
    simp only [Option.getD_none, rand.len, Nat.le_refl, dite_true]
    congr 1
    apply B32.ext
    simp [List.take_of_length_le, rand.len]
  | some b =>
    rw [hk] at h
    exact h

/-- `openStore` with the key file in one expression. -/
theorem openStore_def (E : Env) (d : Dir) (rand : B32) {key : B32} (hk : d.key rand = some key) : openStore E d rand = (do
    let (st, lm, files, index) ← recoverState E key d.files d.files.length Meta.init
    let files := if files.length < index then files ++ [[]] else files
    let cur := files.getD (index - 1) []
    let s : Store :=
      { key := key, files := files, index := index, curSize := cur.length,
        slab := { Slab.init with filePos := cur.length, fileIndex := index },
        cache := [], state := st, lastMeta := lm, faults := [], io := [] }
    let (s, r) ← storeReadRoot E s st.rootPtr
    match r with
    | none => pure (⟨some (d.keyFile.getD rand.bytes), s.files⟩, none)
    | some n => pure (⟨some (d.keyFile.getD rand.bytes), s.files⟩, some { s with state := { s.state with rootNode := n } })) := by
  unfold openStore
  rw [hk]
  cases d.keyFile <;> rfl

/-- Opening what opening left. -/
theorem openStore_again {E : Env} {d d' : Dir} {rand : B32} {r : Option Store} (h : openStore E d rand = .ok (d', r)) (rand' : B32) :
    openStore E d' rand' = .ok (d', r) ∨
    ∃ s, r = some s ∧ s.files = [[]] ∧ s.state = Meta.init ∧ s.cache = [] ∧ s.index = 1 ∧ s.curSize = 0 ∧
      openStore E d' rand' = .ok (d', some { s with lastMeta := Meta.init }) := by
  cases hk : d.key rand with
  | none =>
    unfold openStore at h
    rw [hk] at h
    cases h
    left
    have hk' : d.key rand' = none := by
      unfold Dir.key at hk ⊢
      cases hd : d.keyFile with
      | none => rw [hd] at hk; cases hk
      | some b => rw [hd] at hk; exact hk
    unfold openStore
    rw [hk']
  | some key =>
    rw [openStore_def E d rand hk] at h
    obtain ⟨⟨st, lm, fs, idx⟩, e1, h⟩ := Res.bind_eq_ok.1 h
    simp only at h
    rcases recover_again (Nat.le_refl _) e1 with ⟨rfl, rfl, rfl⟩ | ⟨hl, h1, e2⟩
    · right
      simp only [List.length_nil, Nat.zero_lt_one, if_true, List.nil_append] at h
      rw [storeReadRoot_null rfl] at h
      simp only [Res.bind_ok, Res.pure_eq] at h
      cases h
      refine ⟨_, rfl, rfl, rfl, rfl, rfl, rfl, ?_⟩
      rw [openStore_def E _ rand' (Dir.key_again hk _ rand')]
      have : recoverState E key [[]] (([[]] : List Bytes).length) Meta.init = .ok (Meta.init, Meta.init, [], 1) := rfl
      rw [this]
      simp only [Res.bind_ok, List.length_nil, Nat.zero_lt_one, if_true, List.nil_append]
      rw [storeReadRoot_null rfl]
      rfl
    · left
      rw [if_neg (by omega)] at h
      obtain ⟨⟨s2, n⟩, e3, h⟩ := Res.bind_eq_ok.1 h
      have hf := storeReadRoot_files e3
      simp only at hf
      have hd' : d' = ⟨some (d.keyFile.getD rand.bytes), fs⟩ := by
        cases n <;> cases h <;> simp only [hf]
      rw [hd', openStore_def E _ rand' (Dir.key_again hk _ rand')]
      simp only
      rw [e2]
      simp only [Res.bind_ok]
      rw [if_neg (by omega), e3]
      simp only [Res.bind_ok]
      rw [← hd']
      cases n with
      | none =>
        cases h
        simp only [Res.pure_eq, hf, Option.getD_some]
      | some n =>
        cases h
        simp only [Res.pure_eq, hf, Option.getD_some]

theorem treeGet_lastMeta (s : Store) (m : Meta) (k : B32) (want : Bool) (fuel : Nat) (n : Node) (d : Nat) :
    treeGet { s with lastMeta := m } k want fuel n d = treeGet s k want fuel n d := by
  have hres : ∀ h p, storeResolve { s with lastMeta := m } h p = storeResolve s h p := fun _ _ => rfl
  have hret : ∀ v p, storeRetrieve { s with lastMeta := m } v p = storeRetrieve s v p := fun _ _ => rfl
  induction fuel generalizing n d with
  | zero => rfl
  | succ fuel ih =>
    cases n <;> simp only [treeGet, ih, hres, hret]

/-- Looking for a root in a database without data. -/
theorem readHistory_blank {E : Env} {s : Store} (h1 : s.files = [[]]) (h2 : s.state = Meta.init) (h3 : s.cache = [])
    (h4 : s.index = 1) (h5 : s.curSize = 0) (h : B32) :
    readHistory E s h = .ok (s, if h = B32.zero then some .null else none) := by
  unfold readHistory
  by_cases hz : h = B32.zero
  · rw [if_pos hz, if_pos hz]
  · rw [if_neg hz, if_neg (by rw [h2]; exact hz), if_neg hz, h3]
    have hf : totalBytes s.files + 2 = 1 + 1 := by rw [h1]; rfl
    have hl : cacheLookup [] h = none := rfl
    simp only [hl, hf]
    rw [historyLoop]
    split
    · rfl
    · have : storeReadMeta E s s.lastMeta.metaPtr = .ok none := by
        have hr : storeRead s metaSize s.lastMeta.metaPtr.index s.lastMeta.metaPtr.pos = none := by
          unfold storeRead
          split
          · rfl
          · rw [h1, h4, h5]
            cases hg : ([[]] : List Bytes)[s.lastMeta.metaPtr.index - 1]? with
            | none => rfl
            | some f =>
              have hf0 : f.length = 0 := by
                cases hq : s.lastMeta.metaPtr.index - 1 with
                | zero => rw [hq] at hg; simp at hg; simp [← hg]
                | succ q => rw [hq] at hg; simp at hg
              have h38 : metaSize = 38 := rfl
              simp only [hf0, ite_self, h38]
              rw [if_neg (by omega), if_pos (by omega)]
        unfold storeReadMeta
        rw [hr]
      rw [this]; rfl

end Urkel
