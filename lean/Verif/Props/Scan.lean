import Verif.Model.Scan
import Verif.Lemmas.Idem
import Verif.Lemmas.Concrete
/-
C53: opening a database while system calls fail.
-/
namespace Urkel

theorem slabSize_eq : slabSize = metaSize * 27594 := by decide

theorem slot_sub (f : Bytes) (a n c : Nat) (h : c < n) :
    (((f.drop (metaSize * a)).take (metaSize * n)).drop (metaSize * c)).take metaSize = slot f (a + c) := by
  unfold slot
  rw [List.drop_take, List.take_take, List.drop_drop, ← Nat.mul_add, ← Nat.mul_sub]
  congr 1
  have := Nat.mul_le_mul_left metaSize (show 1 ≤ n - c by omega)
  omega

/-- A block of `n` records starting at record `a`, scanned from its end. -/
theorem scanSlab_eq (E : Env) (key : B32) (f : Bytes) (a n c : Nat) (hc : c ≤ n) (hf : metaSize * (a + c) ≤ f.length) (m : Meta) :
    ∃ m', m'.rootNode = m.rootNode ∧
      ((∃ o, scanSlab E key ((f.drop (metaSize * a)).take (metaSize * n)) (metaSize * c) (metaSize * (a + c)) m = .ok (some o, o, m') ∧
        findMeta E key f (a + c) m = .ok (some o, m')) ∨
       (scanSlab E key ((f.drop (metaSize * a)).take (metaSize * n)) (metaSize * c) (metaSize * (a + c)) m = .ok (none, metaSize * a, m') ∧
        findMeta E key f (a + c) m = findMeta E key f a m')) := by
  induction c generalizing m with
  | zero =>
    refine ⟨m, rfl, .inr ⟨?_, rfl⟩⟩
    rw [scanSlab, dif_neg (by have : metaSize = 38 := rfl; omega)]; rfl
  | succ c ih =>
    have hsl : metaSize * (a + c) + metaSize ≤ f.length := by
      have : metaSize * (a + (c + 1)) = metaSize * (a + c) + metaSize := by rw [← Nat.add_assoc, Nat.mul_succ]
      omega
    obtain ⟨mp, rp, -, -, e⟩ := metaRead_eq E key m (length_slot hsl)
    have e1 : metaSize * (c + 1) - metaSize = metaSize * c := by rw [Nat.mul_succ]; omega
    have e2 : metaSize * (a + (c + 1)) - metaSize = metaSize * (a + c) := by rw [← Nat.add_assoc, Nat.mul_succ]; omega
    have hs : scanSlab E key ((f.drop (metaSize * a)).take (metaSize * n)) (metaSize * (c + 1)) (metaSize * (a + (c + 1))) m =
        (do let (ok, m) ← metaRead E key m (slot f (a + c))
            if ok then pure (some (metaSize * (a + c)), metaSize * (a + c), m)
            else scanSlab E key ((f.drop (metaSize * a)).take (metaSize * n)) (metaSize * c) (metaSize * (a + c)) m) := by
      rw [scanSlab, dif_pos (by rw [Nat.mul_succ]; omega)]
      simp only [e1, e2]
      rw [slot_sub f a n c (by omega)]
    have hm : findMeta E key f (a + (c + 1)) m =
        (do let (ok, m) ← metaRead E key m (slot f (a + c))
            if ok then pure (some (metaSize * (a + c)), m) else findMeta E key f (a + c) m) := rfl
    rw [hs, hm, e]
    simp only [Res.bind_ok, decide_eq_true_eq]
    by_cases hv : ValidRec E key (slot f (a + c))
    · rw [if_pos hv, if_pos hv]
      refine ⟨_, ?_, .inl ⟨_, rfl, rfl⟩⟩
      split <;> rfl
    · rw [if_neg hv, if_neg hv]
      obtain ⟨m', r, h⟩ := ih (by omega) (by omega) (if leNat ((slot f (a + c)).take 4) = metaMagic then { m with metaPtr := mp, rootPtr := rp } else m)
      exact ⟨m', r.trans (by split <;> rfl), h⟩

/-- The scan by blocks, with no failing read, is the scan record by record. -/
theorem scanFile_eq (E : Env) (key : B32) (f : Bytes) (n : Nat) (hf : metaSize * n ≤ f.length) (m : Meta) :
    scanFile E key f none (metaSize * n) m = findMeta E key f n m := by
  induction n using Nat.strongRecOn generalizing m with
  | ind n ih =>
    have h38 : metaSize = 38 := rfl
    by_cases h0 : n = 0
    · subst h0
      rw [scanFile, if_neg (by omega)]; rfl
    rw [scanFile, if_pos (by have := Nat.mul_le_mul_left metaSize (show 1 ≤ n by omega); omega)]
    simp only [reduceCtorEq, if_false]
    by_cases hb : metaSize * n ≥ slabSize
    · rw [if_pos hb, if_pos hb]
      rw [slabSize_eq] at hb ⊢
      have hge : 27594 ≤ n := Nat.le_of_mul_le_mul_left hb (by decide)
      have hn : n = (n - 27594) + 27594 := by omega
      have hp : metaSize * n - metaSize * 27594 = metaSize * (n - 27594) := by rw [← Nat.mul_sub]
      obtain ⟨m', -, h⟩ := scanSlab_eq E key f (n - 27594) 27594 27594 (Nat.le_refl _) (by rw [← hn]; exact hf) m
      rw [← hn] at h
      rw [hp]
      rcases h with ⟨o, a, b⟩ | ⟨a, b⟩
      · rw [a, b]
      · rw [a, b]
        simp only
        rw [dif_pos (by omega)]
        exact ih (n - 27594) (by omega) (by omega) m'
    · rw [if_neg hb, if_neg hb]
      obtain ⟨m', -, h⟩ := scanSlab_eq E key f 0 n n (Nat.le_refl _) (by rw [Nat.zero_add]; exact hf) m
      rw [Nat.zero_add, Nat.mul_zero] at h
      rcases h with ⟨o, a, b⟩ | ⟨a, b⟩
      · rw [a, b]
      · rw [a, b]
        simp only
        rw [dif_pos (Nat.mul_pos (by decide) (by omega)), scanFile, if_neg (by omega)]; rfl

theorem mul_div_eq (n : Nat) : n - n % metaSize = metaSize * (n / metaSize) := by
  have := Nat.div_add_mod n metaSize; omega

/-- C53 (blocks): with no failing system call the code's scan finds exactly what the
record-by-record scan of Model/Store.lean finds, for files of every length. -/
theorem C53_scan (E : Env) (key : B32) (f : Bytes) (m : Meta) :
    findMetaIO E key f none m = findMeta E key f (f.length / metaSize) m := by
  unfold findMetaIO
  simp only
  rw [mul_div_eq]
  exact scanFile_eq E key f _ (Nat.mul_div_le _ _) m

theorem recoverIO_none (E : Env) (key : B32) (files : List Bytes) (φ : Nat → FileFault) (hφ : ∀ n, φ n = ⟨none, false, false⟩) (n : Nat) (m : Meta) :
    recoverIO E key files φ n m = (do let (st, lm, fs, i) ← recoverState E key files n m; pure (some (st, lm, i), fs)) := by
  induction n generalizing m with
  | zero => rfl
  | succ n ih =>
    rw [recoverIO, recoverState]
    simp only [hφ n]
    rw [C53_scan]
    cases findMeta E key (files.getD n []) ((files.getD n []).length / metaSize) m with
    | ok x =>
      obtain ⟨o, m'⟩ := x
      simp only [Res.bind_ok]
      cases o with
      | some o => rfl
      | none => exact ih m'
    | err e => rfl
    | abort => rfl
    | ub => rfl

/-- C53: with nothing failing this is the `openStore` all other theorems are about. -/
theorem C53_no_faults (E : Env) (d : Dir) (rand : B32) : openStoreIO E d rand .none = openStore E d rand := by
  unfold openStoreIO openStore
  simp only [OpenFaults.none, Bool.false_eq_true, if_false]
  cases d.key rand with
  | none => rfl
  | some key =>
    simp only
    rw [recoverIO_none E key d.files _ (fun _ => rfl)]
    cases recoverState E key d.files d.files.length Meta.init with
    | ok x => obtain ⟨a, b, c, e⟩ := x; rfl
    | err e => rfl
    | abort => rfl
    | ub => rfl

/-- Record `n` of file `j` is the newest valid commit record in the directory. -/
structure NewestRecord (E : Env) (key : B32) (files : List Bytes) (j n : Nat) : Prop where
  file : j < files.length
  inside : metaSize * n + metaSize ≤ (files.getD j []).length
  valid : ValidRec E key (slot (files.getD j []) n)
  last : ∀ i, n < i → metaSize * i + metaSize ≤ (files.getD j []).length → ¬ ValidRec E key (slot (files.getD j []) i)
  newest : ∀ j' i, j < j' → j' < files.length → metaSize * i + metaSize ≤ (files.getD j' []).length →
    ¬ ValidRec E key (slot (files.getD j' []) i)

/-- What the valid record says does not depend on what was in the output before. -/
theorem metaRead_valid (E : Env) (key : B32) {d : Bytes} (hd : d.length = metaSize) (hv : ValidRec E key d) :
    ∃ mp rp, ∀ m : Meta, metaRead E key m d = .ok (true, { m with metaPtr := mp, rootPtr := rp }) := by
  have e : findMeta E key d 1 Meta.init = .ok (some 0, ⟨(findMeta E key d 1 Meta.init |> fun r => match r with | .ok x => x.2.metaPtr | _ => Ptr.zero),
      (findMeta E key d 1 Meta.init |> fun r => match r with | .ok x => x.2.rootPtr | _ => Ptr.zero), .null⟩) := by
    obtain ⟨mp, rp, -, -, e⟩ := metaRead_eq E key Meta.init hd
    have hs : (d.drop (metaSize * 0)).take metaSize = d := by simp [← hd]
    simp only [findMeta]
    rw [hs, e]
    simp [hv, hv.1]
    rfl
  obtain ⟨k, mp, rp, -, hk, -, h⟩ := findMeta_some (by rw [hd]; exact Nat.le_refl _) e
  have : k = 0 := by omega
  subst this
  have hs : slot d 0 = d := by simp [slot, ← hd]
  rw [hs] at h
  exact ⟨mp, rp, h⟩

theorem slots_inside {f : Bytes} {i : Nat} (h : i < f.length / metaSize) : metaSize * i + metaSize ≤ f.length := by
  have h1 := Nat.mul_le_mul_left metaSize (show i + 1 ≤ f.length / metaSize from h)
  have h2 := Nat.mul_div_le f.length metaSize
  rw [Nat.mul_add] at h1; omega

/-- The scan of the file with the newest record. -/
theorem findMeta_newest {E : Env} {key : B32} {f : Bytes} {n : Nat} {mp rp : Ptr} (hin : metaSize * n + metaSize ≤ f.length)
    (hr : ∀ m : Meta, metaRead E key m (slot f n) = .ok (true, { m with metaPtr := mp, rootPtr := rp }))
    (hlast : ∀ i, n < i → metaSize * i + metaSize ≤ f.length → ¬ ValidRec E key (slot f i)) (m : Meta) :
    findMeta E key f (f.length / metaSize) m = .ok (some (metaSize * n), ⟨mp, rp, m.rootNode⟩) := by
  have hk : n + 1 ≤ f.length / metaSize := by
    rw [Nat.le_div_iff_mul_le (by decide), Nat.mul_comm, Nat.mul_add]; omega
  obtain ⟨m1, a, b, -⟩ := findMeta_skip hk (Nat.mul_div_le _ _) (fun i h1 h2 => hlast i h1 (slots_inside h2)) m
  rw [b, findMeta]
  have : metaRead E key m1 ((f.drop (metaSize * n)).take metaSize) = _ := hr m1
  rw [this]
  simp [a]

/-- What recovery finds, in terms of the newest record alone. -/
theorem recover_newest {E : Env} {key : B32} {files : List Bytes} {j n : Nat} {mp rp : Ptr} (h : NewestRecord E key files j n)
    (hr : ∀ m : Meta, metaRead E key m (slot (files.getD j []) n) = .ok (true, { m with metaPtr := mp, rootPtr := rp })) :
    recoverState E key files files.length Meta.init =
      .ok (⟨{ mp with index := j + 1, pos := metaSize * n }, rp, .null⟩, ⟨mp, rp, .null⟩,
        files.take j ++ [(files.getD j []).take (metaSize * n + metaSize)], j + 1) := by
  obtain ⟨m1, a, b, -⟩ := recover_drop (E := E) (key := key) (files := files) (k := j + 1) (n := files.length) h.file (Nat.le_refl _)
    (fun j' f i h1 h2 h3 h4 => by
      have : files.getD j' [] = f := by rw [List.getD_eq_getElem?_getD, h3]; rfl
      rw [← this] at h4 ⊢
      exact h.newest j' i h1 h2 h4) Meta.init
  rw [b, recoverState]
  simp only
  rw [findMeta_newest h.inside hr h.last m1]
  simp [a, Meta.init]

/-- A file without valid records yields none, whatever fails. -/
theorem scanFile_bad (E : Env) (key : B32) (f : Bytes) (hbad : ∀ i, metaSize * i + metaSize ≤ f.length → ¬ ValidRec E key (slot f i))
    (n : Nat) (hf : metaSize * n ≤ f.length) (fault : Option Nat) (m : Meta) :
    ∃ m', scanFile E key f fault (metaSize * n) m = .ok (none, m') ∧ m'.rootNode = m.rootNode := by
  induction n using Nat.strongRecOn generalizing m fault with
  | ind n ih =>
    have h38 : metaSize = 38 := rfl
    have hno : ∀ k, metaSize * k ≤ f.length → ∀ m o m', findMeta E key f k m ≠ .ok (some o, m') := by
      intro k hk m o m' e
      obtain ⟨i, mp, rp, -, hi, -, h⟩ := findMeta_some hk e
      have hin : metaSize * i + metaSize ≤ f.length := by
        have := Nat.mul_le_mul_left metaSize (show i + 1 ≤ k from hi)
        rw [Nat.mul_add] at this; omega
      obtain ⟨mp', rp', -, -, e'⟩ := metaRead_eq E key Meta.init (length_slot hin)
      rw [h Meta.init] at e'
      simp only [Res.ok.injEq, Prod.mk.injEq] at e'
      exact hbad i hin (by simpa using e'.1.symm)
    by_cases h0 : n = 0
    · subst h0
      rw [scanFile, if_neg (by omega)]; exact ⟨m, rfl, rfl⟩
    rw [scanFile, if_pos (by have := Nat.mul_le_mul_left metaSize (show 1 ≤ n by omega); omega)]
    by_cases hz : fault = some 0
    · rw [if_pos hz]; exact ⟨m, rfl, rfl⟩
    simp only [if_neg hz]
    by_cases hb : metaSize * n ≥ slabSize
    · rw [if_pos hb, if_pos hb]
      rw [slabSize_eq] at hb ⊢
      have hge : 27594 ≤ n := Nat.le_of_mul_le_mul_left hb (by decide)
      have hn : n = (n - 27594) + 27594 := by omega
      have hp : metaSize * n - metaSize * 27594 = metaSize * (n - 27594) := by rw [← Nat.mul_sub]
      obtain ⟨m', hm', h⟩ := scanSlab_eq E key f (n - 27594) 27594 27594 (Nat.le_refl _) (by rw [← hn]; exact hf) m
      rw [← hn] at h
      rw [hp]
      rcases h with ⟨o, a, b⟩ | ⟨a, b⟩
      · exact (hno n hf m o m' b).elim
      · rw [a]
        simp only
        rw [dif_pos (by omega)]
        obtain ⟨m2, c, d⟩ := ih (n - 27594) (by omega) (by omega) (fault.map (· - 1)) m'
        exact ⟨m2, c, d.trans hm'⟩
    · rw [if_neg hb, if_neg hb]
      obtain ⟨m', hm', h⟩ := scanSlab_eq E key f 0 n n (Nat.le_refl _) (by rw [Nat.zero_add]; exact hf) m
      rw [Nat.zero_add, Nat.mul_zero] at h
      rcases h with ⟨o, a, b⟩ | ⟨a, b⟩
      · exact (hno n hf m o m' b).elim
      · rw [a]
        simp only
        rw [dif_pos (Nat.mul_pos (by decide) (by omega)), scanFile, if_neg (by omega)]; exact ⟨m', rfl, hm'⟩

theorem findMetaIO_bad (E : Env) (key : B32) (f : Bytes) (hbad : ∀ i, metaSize * i + metaSize ≤ f.length → ¬ ValidRec E key (slot f i))
    (φ : Option ScanFault) (m : Meta) :
    ∃ m', findMetaIO E key f φ m = .ok (none, m') ∧ m'.rootNode = m.rootNode := by
  unfold findMetaIO
  have h := fun fault => scanFile_bad E key f hbad (f.length / metaSize) (Nat.mul_div_le _ _) fault m
  simp only [mul_div_eq]
  match φ with
  | some .openFail => exact ⟨m, rfl, rfl⟩
  | some .statFail => exact ⟨m, rfl, rfl⟩
  | some (.readFail k) => exact h (some k)
  | none => exact h none

/-- What recovery with failures leaves, if the file with the newest record can be read. -/
theorem recoverIO_newest {E : Env} {key : B32} {files : List Bytes} {j n : Nat} {mp rp : Ptr} (h : NewestRecord E key files j n)
    (hr : ∀ m : Meta, metaRead E key m (slot (files.getD j []) n) = .ok (true, { m with metaPtr := mp, rootPtr := rp }))
    (φ : Nat → FileFault) (hφ : (φ j).scan = none) (N : Nat) (h1 : j < N) (h2 : N ≤ files.length) (m : Meta) (hm : m.rootNode = .null) :
    (∃ i, j < i ∧ i ≤ N ∧ recoverIO E key files φ N m = .ok (none, files.take i)) ∨
    recoverIO E key files φ N m = .ok (some (⟨{ mp with index := j + 1, pos := metaSize * n }, rp, .null⟩, ⟨mp, rp, .null⟩, j + 1),
      files.take j ++ [if (φ j).trunc then files.getD j [] else (files.getD j []).take (metaSize * n + metaSize)]) := by
  induction N generalizing m with
  | zero => omega
  | succ N ih =>
    rw [recoverIO]
    simp only
    by_cases hj : j = N
    · subst hj
      right
      rw [hφ, C53_scan, findMeta_newest h.inside hr h.last m]
      simp [hm]
    · obtain ⟨m', e, hm'⟩ := findMetaIO_bad E key (files.getD N []) (fun i hi => h.newest N i (by omega) (by omega) hi) (φ N).scan m
      rw [e]
      simp only [Res.bind_ok]
      by_cases hu : (φ N).unlink = true
      · rw [if_pos hu]
        exact .inl ⟨N + 1, by omega, Nat.le_refl _, rfl⟩
      · rw [if_neg hu]
        rcases ih (by omega) (by omega) m' (hm'.trans hm) with ⟨i, a, b, c⟩ | c
        · exact .inl ⟨i, a, by omega, c⟩
        · exact .inr c

theorem getD_take {files : List Bytes} {i j : Nat} (h : j < i) : (files.take i).getD j [] = files.getD j [] := by
  rw [List.getD_eq_getElem?_getD, List.getD_eq_getElem?_getD, List.getElem?_take_of_lt h]

theorem slot_take {f : Bytes} {k i : Nat} (h : metaSize * i + metaSize ≤ k) : slot (f.take k) i = slot f i := by
  unfold slot
  rw [List.drop_take, List.take_take]
  congr 1; omega

/-- Dropping newer files and cutting off what follows keeps the newest record. -/
theorem NewestRecord.take {E : Env} {key : B32} {files : List Bytes} {j n : Nat} (h : NewestRecord E key files j n) (i : Nat) (hi : j < i) :
    NewestRecord E key (files.take i) j n := by
  have hg : ∀ j', j' < (files.take i).length → (files.take i).getD j' [] = files.getD j' [] := fun j' hj' =>
    getD_take (by rw [List.length_take] at hj'; omega)
  have hl : (files.take i).length ≤ files.length := by rw [List.length_take]; omega
  have hj : j < (files.take i).length := by rw [List.length_take]; have := h.file; omega
  refine ⟨hj, ?_, ?_, ?_, ?_⟩
  · rw [hg j hj]; exact h.inside
  · rw [hg j hj]; exact h.valid
  · rw [hg j hj]; exact h.last
  · intro j' i' a b
    rw [hg j' b]
    exact h.newest j' i' a (by omega)

theorem NewestRecord.cut {E : Env} {key : B32} {files : List Bytes} {j n : Nat} (h : NewestRecord E key files j n) (k : Nat)
    (hk : metaSize * n + metaSize ≤ k) :
    NewestRecord E key (files.take j ++ [(files.getD j []).take k]) j n := by
  have hlj : (files.take j).length = j := by rw [List.length_take]; have := h.file; omega
  have hg : (files.take j ++ [(files.getD j []).take k]).getD j [] = (files.getD j []).take k := by
    rw [List.getD_eq_getElem?_getD, List.getElem?_append_right (by omega), hlj]; simp
  have hll : (files.take j ++ [(files.getD j []).take k]).length = j + 1 := by rw [List.length_append, hlj]; rfl
  refine ⟨by omega, ?_, ?_, ?_, fun j' i' a b => by omega⟩
  · rw [hg, List.length_take]; have := h.inside; omega
  · rw [hg, slot_take hk]; exact h.valid
  · rw [hg]
    intro i a b
    rw [List.length_take] at b
    rw [slot_take (by omega)]
    exact h.last i a (by omega)

/-- The result of recovery depends on the files up to the newest record only. -/
theorem recover_same {E : Env} {key : B32} {files files' : List Bytes} {j n : Nat} (h : NewestRecord E key files j n)
    (h' : NewestRecord E key files' j n) (ht : files'.take j = files.take j)
    (hs : (files'.getD j []).take (metaSize * n + metaSize) = (files.getD j []).take (metaSize * n + metaSize)) :
    recoverState E key files' files'.length Meta.init = recoverState E key files files.length Meta.init := by
  obtain ⟨mp, rp, hr⟩ := metaRead_valid E key (length_slot h.inside) h.valid
  have hsl : slot (files'.getD j []) n = slot (files.getD j []) n := by
    rw [← slot_take (f := files'.getD j []) (Nat.le_refl _), hs, slot_take (Nat.le_refl _)]
  rw [recover_newest h hr, recover_newest h' (by rw [hsl]; exact hr), ht, hs]

theorem openStore_same {E : Env} {d d' : Dir} {b : Bytes} {key : B32} (hb : d.keyFile = some b) (hb' : d'.keyFile = some b) (rand : B32)
    (hk : d.key rand = some key)
    (h : recoverState E key d'.files d'.files.length Meta.init = recoverState E key d.files d.files.length Meta.init) :
    openStore E d' rand = openStore E d rand := by
  have hk' : d'.key rand = some key := by
    unfold Dir.key at hk ⊢
    rw [hb'] ; rw [hb] at hk; exact hk
  rw [openStore_def E d rand hk, openStore_def E d' rand hk', h, hb, hb']

theorem Dir.key_any {d : Dir} {b : Bytes} (hb : d.keyFile = some b) (rand rand' : B32) : d.key rand' = d.key rand := by
  unfold Dir.key; rw [hb]

/-- C53, as far as it is true: system calls may fail at any data files other than the
one with the newest commit record, `ftruncate` and `unlink` may fail anywhere, and so
may opening the current file. Whatever the call returns, the next `urkel_open` finds
exactly what it would have found before. Missing: failures at the file with the newest
record and at the key file, for which the claim is false (`C53_false_emfile`,
`C53_false_key`). -/
theorem C53_faults_partial {E : Env} {d d' : Dir} {rand : B32} {φ : OpenFaults} {r : Option Store} {b : Bytes} {key : B32} {j n : Nat}
    (hb : d.keyFile = some b) (hk : d.key rand = some key) (hn : NewestRecord E key d.files j n)
    (hex : φ.exists' = false) (hsc : (φ.file j).scan = none) (h : openStoreIO E d rand φ = .ok (d', r)) (rand' : B32) :
    openStore E d' rand' = openStore E d rand' := by
  have hk' : d.key rand' = some key := by rw [Dir.key_any hb rand rand', hk]
  obtain ⟨mp, rp, hr⟩ := metaRead_valid E key (length_slot hn.inside) hn.valid
  have key' : ∀ files', d' = ⟨some b, files'⟩ →
      recoverState E key files' files'.length Meta.init = recoverState E key d.files d.files.length Meta.init → openStore E d' rand' = openStore E d rand' := by
    intro files' e hrec
    subst e
    exact openStore_same hb rfl rand' hk' hrec
  unfold openStoreIO at h
  rw [hex] at h
  simp only [Bool.false_eq_true, if_false, hk, hb] at h
  rcases recoverIO_newest hn hr φ.file hsc d.files.length hn.file (Nat.le_refl _) Meta.init rfl with ⟨i, a, c, e⟩ | e
  · rw [e] at h
    cases h
    refine key' _ rfl (recover_same hn (hn.take i a) ?_ ?_)
    · rw [List.take_take]; congr 1; omega
    · rw [getD_take a]
  · rw [e] at h
    simp only [Res.bind_ok] at h
    have hlj : (d.files.take j).length = j := by rw [List.length_take]; have := hn.file; omega
    have fin : ∀ (f : Bytes), (f = d.files.getD j [] ∨ f = (d.files.getD j []).take (metaSize * n + metaSize)) → d' = ⟨some b, d.files.take j ++ [f]⟩ →
        openStore E d' rand' = openStore E d rand' := by
      intro f hf hd'
      have hN : NewestRecord E key (d.files.take j ++ [f]) j n := by
        rcases hf with rfl | rfl
        · have := hn.cut (max (d.files.getD j []).length (metaSize * n + metaSize)) (by omega)
          rw [List.take_of_length_le (l := d.files.getD j []) (by omega)] at this
          exact this
        · exact hn.cut _ (Nat.le_refl _)
      have hg : (d.files.take j ++ [f]).getD j [] = f := by
        rw [List.getD_eq_getElem?_getD, List.getElem?_append_right (by omega), hlj]; simp
      refine key' _ hd' (recover_same hn hN ?_ ?_)
      · exact List.take_left' hlj
      · rw [hg]
        rcases hf with rfl | rfl
        · rfl
        · rw [List.take_take, Nat.min_self]
    generalize hf : (if (φ.file j).trunc = true then d.files.getD j [] else (d.files.getD j []).take (metaSize * n + metaSize)) = f at h
    have hf' : f = d.files.getD j [] ∨ f = (d.files.getD j []).take (metaSize * n + metaSize) := by
      split at hf
      · exact .inl hf.symm
      · exact .inr hf.symm
    refine fin f hf' ?_
    split at h
    · cases h; rfl
    · rw [if_neg (by rw [List.length_append, hlj]; simp)] at h
      obtain ⟨⟨s2, n2⟩, e3, h⟩ := Res.bind_eq_ok.1 h
      have hfs := storeReadRoot_files e3
      simp only at hfs
      cases n2 <;> cases h <;> simp only [hfs]

/-- Only opening the data files for the scan fails (too many open files). -/
def OpenFaults.emfile : OpenFaults := ⟨false, fun _ => ⟨some .openFail, false, false⟩, false⟩

/-- Only the look for the key file fails. -/
def OpenFaults.noKey : OpenFaults := ⟨true, fun _ => ⟨Option.none, false, false⟩, false⟩

/-- A directory with a key file and one empty data file is an empty database. -/
theorem blank_open (E : Env) (b : Bytes) (rand key : B32) (hk : Dir.key ⟨some b, [[]]⟩ rand = some key) :
    ∃ db, dbOpen E ⟨some b, [[]]⟩ rand = .ok (⟨some b, [[]]⟩, .ok db) ∧ dbRoot db = B32.zero ∧ db.store.files = [[]] ∧ db.revert = false ∧
      db.store.state = Meta.init := by
  obtain ⟨s', e, -, -, hf, hr⟩ := open_empty (E := E) hk
    (by intro j f n hf h1 h2
        have : metaSize = 38 := rfl
        cases j with
        | zero => simp at hf; subst hf; simp at h2; omega
        | succ j => simp at hf)
    (by intro j f n hf h1 h2
        have : metaSize = 38 := rfl
        cases j with
        | zero => simp at hf; subst hf; simp at h2; omega
        | succ j => simp at hf)
  have hst : s'.state = Meta.init := by
    rw [openStore_def E _ rand hk] at e
    have hrec : recoverState E key [[]] (([[]] : List Bytes).length) Meta.init = .ok (Meta.init, Meta.init, [], 1) := rfl
    simp only at e
    rw [hrec] at e
    simp only [Res.bind_ok, List.length_nil, Nat.zero_lt_one, if_true, List.nil_append] at e
    rw [storeReadRoot_null rfl] at e
    cases e
    rfl
  refine ⟨⟨s', rootHash s', false⟩, ?_, hr, hf, rfl, hst⟩
  unfold dbOpen
  rw [e]
  rfl

/-- All scans fail to open their file: every data file is unlinked. -/
theorem recoverIO_emfile (E : Env) (key : B32) (files : List Bytes) (n : Nat) :
    recoverIO E key files OpenFaults.emfile.file n Meta.init = .ok (some (Meta.init, Meta.init, 1), []) := by
  induction n with
  | zero => rfl
  | succ n ih => exact ih

/-- C53 is false: for every directory that can be opened, if the process runs out of
file descriptors when recovery opens the data files, `urkel_open` succeeds, all data
files are gone, and every later open finds an empty database. -/
theorem C53_false_emfile (E : Env) (d : Dir) (rand key : B32) (hk : d.key rand = some key) :
    ∃ s d', openStoreIO E d rand .emfile = .ok (d', some s) ∧ d'.files = [[]] ∧
      ∀ rand', ∃ db, dbOpen E d' rand' = .ok (d', .ok db) ∧ dbRoot db = B32.zero := by
  have hk2 : ∀ rand', Dir.key ⟨some (d.keyFile.getD rand.bytes), [[]]⟩ rand' = some key := fun rand' => Dir.key_again hk _ rand'
  have e : ∃ s, openStoreIO E d rand .emfile = .ok (⟨some (d.keyFile.getD rand.bytes), [[]]⟩, some s) := by
    unfold openStoreIO
    simp only [OpenFaults.emfile, Bool.false_eq_true, if_false, hk]
    have := recoverIO_emfile E key d.files d.files.length
    simp only [OpenFaults.emfile] at this
    rw [this]
    simp only [Res.bind_ok, List.length_nil, Nat.zero_lt_one, if_true, List.nil_append]
    rw [storeReadRoot_null rfl]
    cases d.keyFile <;> exact ⟨_, rfl⟩
  obtain ⟨s, e⟩ := e
  refine ⟨s, _, e, rfl, fun rand' => ?_⟩
  obtain ⟨db, a, b, -⟩ := blank_open E _ rand' key (hk2 rand')
  exact ⟨db, a, b⟩

/-- Two committed versions are destroyed. -/
theorem C53_false : ∃ (s : Sys) (h1 h2 : B32), Logged toyEnv [(h2, demoC2), (h1, demoC1)] s ∧ Aligned s.db ∧ h2 ≠ B32.zero ∧
    (∃ db, dbOpen toyEnv s.db.dir B32.zero = .ok (s.db.dir, .ok db) ∧ dbRoot db = h2) ∧
    ∃ st d', openStoreIO toyEnv s.db.dir B32.zero .emfile = .ok (d', some st) ∧
      ∀ rand', ∃ db, dbOpen toyEnv d' rand' = .ok (d', .ok db) ∧ dbRoot db = B32.zero := by
  obtain ⟨s, h1, h2, g, -, -, hz, -⟩ := demo2
  obtain ⟨db', tx, a, b, -⟩ := C23_reopen_partial toyEnv_ok g.logged (Or.inl g.one) B32.zero
  have hk : s.db.dir.key B32.zero = some s.db.store.key := by
    unfold Dir.key Db.dir
    simp only [s.db.store.key.len, Nat.le_refl, dite_true]
    congr 1
    apply B32.ext
    simp [List.take_of_length_le, s.db.store.key.len]
  obtain ⟨st, d', e, -, f⟩ := C53_false_emfile toyEnv s.db.dir B32.zero _ hk
  exact ⟨s, h1, h2, g.logged, Or.inl g.one, hz, ⟨db', a, by rw [b]; rfl⟩, st, d', e, f⟩

theorem recoverIO_bad (E : Env) (key : B32) (files : List Bytes) (φ : Nat → FileFault) (hφ : ∀ n, (φ n).unlink = false)
    (hbad : ∀ j i, j < files.length → metaSize * i + metaSize ≤ (files.getD j []).length → ¬ ValidRec E key (slot (files.getD j []) i))
    (n : Nat) (hn : n ≤ files.length) (m : Meta) :
    ∃ m', recoverIO E key files φ n m = .ok (some (Meta.init, m', 1), []) := by
  induction n generalizing m with
  | zero => exact ⟨m, rfl⟩
  | succ n ih =>
    obtain ⟨m1, e, -⟩ := findMetaIO_bad E key (files.getD n []) (fun i hi => hbad n i (by omega) hi) (φ n).scan m
    rw [recoverIO]
    simp only
    rw [e]
    simp only [Res.bind_ok, hφ n, Bool.false_eq_true, if_false]
    exact ih (by omega) m1

/-- C53 is false also for the key file: if looking for it fails, a new key is written
over it; unless a record is valid under the new key by accident, all data files are
unlinked, and later opens find an empty database. -/
theorem C53_false_key (E : Env) (d : Dir) (rand : B32)
    (hbad : ∀ j i, j < d.files.length → metaSize * i + metaSize ≤ (d.files.getD j []).length → ¬ ValidRec E rand (slot (d.files.getD j []) i)) :
    ∃ s d', openStoreIO E d rand .noKey = .ok (d', some s) ∧ d'.files = [[]] ∧ d'.keyFile = some rand.bytes ∧
      ∀ rand', ∃ db, dbOpen E d' rand' = .ok (d', .ok db) ∧ dbRoot db = B32.zero := by
  have hk0 : Dir.key ⟨none, d.files⟩ rand = some rand := rfl
  have hk2 : ∀ rand', Dir.key ⟨some rand.bytes, [[]]⟩ rand' = some rand := fun rand' => Dir.key_again hk0 _ rand'
  have e : ∃ s, openStoreIO E d rand .noKey = .ok (⟨some rand.bytes, [[]]⟩, some s) := by
    unfold openStoreIO
    simp only [OpenFaults.noKey, if_true, hk0]
    obtain ⟨m', e⟩ := recoverIO_bad E rand d.files (fun _ => ⟨none, false, false⟩) (fun _ => rfl) hbad d.files.length (Nat.le_refl _) Meta.init
    rw [e]
    simp only [Res.bind_ok, List.length_nil, Nat.zero_lt_one, if_true, List.nil_append, Bool.false_eq_true, if_false]
    rw [storeReadRoot_null rfl]
    exact ⟨_, rfl⟩
  obtain ⟨s, e⟩ := e
  refine ⟨s, _, e, rfl, rfl, fun rand' => ?_⟩
  obtain ⟨db, a, b, -⟩ := blank_open E _ rand' rand (hk2 rand')
  exact ⟨db, a, b⟩

/-- An environment whose checksum depends on the key. -/
def keyedEnv : Env := { toyEnv with mac := fun k _ => k.bytes.take 20 }

/-- A file with one commit record under the key `keyOf 1`. -/
def keyedFile : Bytes := metaWrite keyedEnv (keyOf 1) Meta.init

/-- The hypotheses of `C53_faults_partial` and of `C53_false_key` are met: a record
under one key, junk in a second file that cannot be opened; not valid under key zero. -/
example : NewestRecord keyedEnv (keyOf 1) [keyedFile, [1, 2, 3]] 0 0 := by
  refine ⟨by decide, by decide, by decide, ?_, ?_⟩
  · intro i h1 h2
    have h38 : metaSize = 38 := rfl
    have hl : (([keyedFile, [1, 2, 3]] : List Bytes).getD 0 []).length = 38 := by decide
    rw [hl] at h2
    have := Nat.mul_le_mul_left metaSize (show 1 ≤ i from h1)
    omega
  · intro j' i h1 h2 h3
    have h38 : metaSize = 38 := rfl
    have : j' = 1 := by simp at h2; omega
    subst this
    have hl : (([keyedFile, [1, 2, 3]] : List Bytes).getD 1 []).length = 3 := by decide
    rw [hl] at h3
    omega

example : ¬ ValidRec keyedEnv B32.zero (slot keyedFile 0) := by decide

end Urkel
