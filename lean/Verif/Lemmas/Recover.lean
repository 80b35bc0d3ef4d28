import Verif.Lemmas.Commit
/-
Opening a directory: the scan for the newest commit record.
-/
namespace Urkel
open PTree

theorem metaRead_eq (E : Env) (key : B32) (m : Meta) {d : Bytes} (hd : d.length = metaSize) :
    ∃ mp rp, PtrOk mp ∧ PtrOk rp ∧
      metaRead E key m d = .ok (decide (ValidRec E key d),
        if leNat (d.take 4) = metaMagic then { m with metaPtr := mp, rootPtr := rp } else m) := by
  have hd' : d.length = 38 := hd
  unfold metaRead
  simp only
  rw [takeN_ok (by omega), Res.bind_ok]
  simp only
  obtain ⟨mp, e1, ok1⟩ := ptrRead_ok (d := d.drop 4) (by simp; omega)
  obtain ⟨rp, e2, ok2⟩ := ptrRead_ok (d := (d.drop 4).drop 7) (by simp; omega)
  refine ⟨mp, rp, ok1, ok2, ?_⟩
  by_cases hmag : leNat (d.take 4) = metaMagic
  · have hb : (leNat (d.take 4) != metaMagic) = false := by simpa using hmag
    rw [hb]
    simp only [Bool.false_eq_true, if_false]
    rw [e1, Res.bind_ok]
    simp only
    rw [e2, Res.bind_ok]
    simp only
    rw [takeN_ok (by simp; omega), Res.bind_ok]
    simp only [Res.pure_eq, if_pos hmag, List.drop_drop]
    congr 2
    rw [Bool.eq_iff_iff]
    simp [ValidRec, hmag]
  · have hb : (leNat (d.take 4) != metaMagic) = true := by simpa using hmag
    rw [hb]
    simp [ValidRec, hmag]

theorem length_slot {f : Bytes} {n : Nat} (h : metaSize * n + metaSize ≤ f.length) : (slot f n).length = metaSize := by
  unfold slot; simp; omega

/-- Skipping records that are not valid. -/
theorem findMeta_skip {E : Env} {key : B32} {f : Bytes} {k n : Nat} (hk : k ≤ n) (hn : metaSize * n ≤ f.length)
    (hbad : ∀ j, k ≤ j → j < n → ¬ ValidRec E key (slot f j)) (m : Meta) :
    ∃ m', m'.rootNode = m.rootNode ∧ findMeta E key f n m = findMeta E key f k m' ∧
      ((∀ j, k ≤ j → j < n → leNat ((slot f j).take 4) ≠ metaMagic) → m' = m) := by
  induction n generalizing m with
  | zero => have : k = 0 := by omega
            subst this; exact ⟨m, rfl, rfl, fun _ => rfl⟩
  | succ n ih =>
    by_cases hkn : k = n + 1
    · subst hkn; exact ⟨m, rfl, rfl, fun _ => rfl⟩
    · have hsl : metaSize * n + metaSize ≤ f.length := by
        rw [Nat.mul_add] at hn; omega
      obtain ⟨mp, rp, _, _, e⟩ := metaRead_eq E key m (length_slot hsl)
      have hb := hbad n (by omega) (by omega)
      obtain ⟨m', h1, h2, h3⟩ := ih (by omega) (by rw [Nat.mul_add] at hn; omega)
        (fun j a b => hbad j a (by omega))
        (if leNat ((slot f n).take 4) = metaMagic then { m with metaPtr := mp, rootPtr := rp } else m)
      refine ⟨m', ?_, ?_, ?_⟩
      · rw [h1]; split <;> rfl
      · rw [findMeta]
        have e' : metaRead E key m ((f.drop (metaSize * n)).take metaSize) = _ := e
        rw [e', Res.bind_ok]
        simp only [decide_eq_true_eq, if_neg hb]
        exact h2
      · intro hm
        rw [h3 (fun j a b => hm j a (by omega)), if_neg (hm n (by omega) (by omega))]

theorem findMeta_hit {E : Env} (hE : EnvOk E) {key : B32} {f : Bytes} {n : Nat} {r : Meta}
    (hs : slot f n = metaWrite E key r) (h1 : PtrOk r.metaPtr) (h2 : PtrOk r.rootPtr) (m : Meta) :
    findMeta E key f (n + 1) m =
      .ok (some (metaSize * n), { m with metaPtr := r.metaPtr, rootPtr := r.rootPtr }) := by
  rw [findMeta]
  have e : (f.drop (metaSize * n)).take metaSize = metaWrite E key r := hs
  rw [e, metaRead_write hE.mac key m h1 h2]
  simp

/-- Files without any valid record are dropped. -/
theorem recover_drop {E : Env} {key : B32} {files : List Bytes} {k n : Nat} (hk : k ≤ n) (hn : n ≤ files.length)
    (hbad : ∀ j f i, k ≤ j → j < n → files[j]? = some f → metaSize * i + metaSize ≤ f.length →
      ¬ ValidRec E key (slot f i)) (m : Meta) :
    ∃ m', m'.rootNode = m.rootNode ∧ recoverState E key files n m = recoverState E key files k m' ∧
      ((∀ j f i, k ≤ j → j < n → files[j]? = some f → metaSize * i + metaSize ≤ f.length →
        leNat ((slot f i).take 4) ≠ metaMagic) → m' = m) := by
  induction n generalizing m with
  | zero => have : k = 0 := by omega
            subst this; exact ⟨m, rfl, rfl, fun _ => rfl⟩
  | succ n ih =>
    by_cases hkn : k = n + 1
    · subst hkn; exact ⟨m, rfl, rfl, fun _ => rfl⟩
    · have hget : files[n]? = some (files.getD n []) := by
        rw [List.getD_eq_getElem?_getD, List.getElem?_eq_getElem (by omega)]; rfl
      generalize hf : files.getD n [] = f at hget
      have hmul : metaSize * (f.length / metaSize) ≤ f.length := Nat.mul_div_le _ _
      have hin : ∀ j, j < f.length / metaSize → metaSize * j + metaSize ≤ f.length := by
        intro j hj
        have := Nat.mul_le_mul_left metaSize (show j + 1 ≤ f.length / metaSize from hj)
        rw [Nat.mul_add] at this; omega
      obtain ⟨m1, a1, a2, a3⟩ := findMeta_skip (E := E) (key := key) (Nat.zero_le (f.length / metaSize)) hmul
        (fun j _ hj => hbad n f j (by omega) (by omega) hget (hin j hj)) m
      obtain ⟨m', h1, h2, h3⟩ := ih (by omega) (by omega) (fun j f i a b => hbad j f i a (by omega)) m1
      refine ⟨m', h1.trans a1, ?_, ?_⟩
      · rw [recoverState]
        simp only
        rw [hf, a2, findMeta]
        simp only [Res.bind_ok]
        exact h2
      · intro hm
        rw [h3 (fun j f i a b => hm j f i a (by omega))]
        exact a3 (fun j _ hj => hm n f j (by omega) (by omega) hget (hin j hj))

/-- What recovery finds when the last file, apart from trailing junk, ends with a
valid aligned record. -/
theorem recover_hit {E : Env} (hE : EnvOk E) {key : B32} {i extra : List Bytes} {l junk : Bytes} {r : Meta} {pos : Nat}
    (hpos : pos + metaSize = l.length) (hal : pos % metaSize = 0) (hrec : (l.drop pos).take metaSize = metaWrite E key r)
    (h1 : PtrOk r.metaPtr) (h2 : PtrOk r.rootPtr)
    (hnf : NoForge E key (i ++ [l]) (i ++ [l ++ junk] ++ extra)) :
    recoverState E key (i ++ [l ++ junk] ++ extra) (i ++ [l ++ junk] ++ extra).length Meta.init =
      .ok (⟨{ r.metaPtr with index := i.length + 1, pos := pos }, r.rootPtr, .null⟩,
        ⟨r.metaPtr, r.rootPtr, .null⟩, i ++ [l], i.length + 1) := by
  have hd := recover_drop (E := E) (key := key) (files := i ++ [l ++ junk] ++ extra) (k := i.length + 1)
    (n := (i ++ [l ++ junk] ++ extra).length) (by simp) (Nat.le_refl _) (by
      intro j f n hj _ hf hle
      refine hnf j f n hf ?_ hle
      rw [List.getD_eq_getElem?_getD, List.getElem?_eq_none (by simp; omega)]; simp) Meta.init
  obtain ⟨m1, a1, a2, _⟩ := hd
  rw [a2, recoverState]
  have hget : (i ++ [l ++ junk] ++ extra)[i.length]? = some (l ++ junk) := by
    rw [List.append_assoc, List.getElem?_append_right (by omega)]; simp
  have hgd : (i ++ [l ++ junk] ++ extra).getD i.length [] = l ++ junk := by
    rw [List.getD_eq_getElem?_getD, hget]; rfl
  simp only [hgd]
  have hm38 : (metaSize : Nat) = 38 := rfl
  have hposq : metaSize * (pos / metaSize) = pos := by
    have := Nat.div_add_mod pos metaSize; omega
  have hmul : metaSize * ((l ++ junk).length / metaSize) ≤ (l ++ junk).length := Nat.mul_div_le _ _
  have hlen : (l ++ junk).length = l.length + junk.length := List.length_append
  have hk : pos / metaSize + 1 ≤ (l ++ junk).length / metaSize := by
    rw [Nat.le_div_iff_mul_le (by decide), Nat.mul_comm, Nat.mul_add, hposq]; omega
  obtain ⟨m2, b1, b2, _⟩ := findMeta_skip (E := E) (key := key) (f := l ++ junk) (k := pos / metaSize + 1)
    (n := (l ++ junk).length / metaSize) hk hmul (by
      intro j hj1 hj2
      refine hnf i.length (l ++ junk) j hget ?_ ?_
      · have : (i ++ [l]).getD i.length [] = l := by simp [List.getD_eq_getElem?_getD]
        rw [this]
        have := Nat.mul_le_mul_left metaSize hj1
        rw [Nat.mul_add, hposq] at this; omega
      · have := Nat.mul_le_mul_left metaSize (show j + 1 ≤ _ from hj2)
        rw [Nat.mul_add] at this; omega) m1
  have hslot : slot (l ++ junk) (pos / metaSize) = metaWrite E key r := by
    unfold slot
    rw [hposq, List.drop_append_of_le_length (by omega), List.take_append_of_le_length (by simp; omega), hrec]
  rw [b2, findMeta_hit hE hslot h1 h2, Res.bind_ok]
  have hrn : m2.rootNode = .null := b1.trans a1
  simp only [hposq, Res.pure_eq]
  have e1 : (i ++ [l ++ junk] ++ extra).take i.length = i := by simp
  have e2 : (l ++ junk).take (pos + metaSize) = l := by rw [hpos]; simp
  rw [e1, e2, hrn]

/-! ### The store after opening -/

/-- A store just opened on given files. -/
theorem slabbed_open {E : Env} {s : Store} (hs : SOk s) (hsl : s.slab = { Slab.init with filePos := s.curSize, fileIndex := s.index })
    (hf : s.faults = []) (hc : s.curSize ≤ E.cfg.maxFile) : Slabbed E s s.files := by
  obtain ⟨i, l, e, hi, hl⟩ := hs.files_snoc
  refine ⟨[], [], ⟨hs, ?_, ?_, ?_, ?_, ?_, ?_, trivial, ?_, hf⟩, ?_⟩
  · rw [hsl]; rfl
  · rw [hsl]; rfl
  · rw [hsl]; rfl
  · rw [hsl]; rfl
  · rw [hsl]; rfl
  · simpa using hc
  · rw [hsl]; simp [Slab.init]
  · rw [vfOf_snoc e hi, e]; simp

/-- Opening reads back a store whose last commit record is aligned, whatever
invalid junk follows it. -/
theorem open_ok {E : Env} (hE : EnvOk E) {s : Store} {hist : List PTree} (hs : SInv E s hist) (hne : hist ≠ [])
    (hal : s.state.metaPtr.pos % metaSize = 0) {d : Dir} (hext : FExt s.files d.files)
    (hnf : NoForge E s.key s.files d.files) (rand : B32) (hkey : d.key rand = some s.key) :
    ∃ s', openStore E d rand = .ok (⟨some (d.keyFile.getD rand.bytes), s.files⟩, some s') ∧ SInv E s' hist ∧
      s'.key = s.key ∧ s'.files = s.files ∧ rootHash s' = rootHash s ∧
      s'.state.metaPtr.pos = s.state.metaPtr.pos := by
  obtain ⟨i, l, efiles, hidx, hcur⟩ := hs.slab.sok.files_snoc
  cases hist with
  | nil => exact (hne rfl).elim
  | cons t ts =>
    obtain ⟨hi1, r, hrd, ok1, ok2, hroot, hrest⟩ := hs.chain
    obtain ⟨tl1, tl2⟩ := hs.tail.resolve_left (by simp)
    have hlast : lastLen s.files = l.length := by rw [efiles, lastLen_snoc]
    have hdf : ∃ junk extra, d.files = i ++ [l ++ junk] ++ extra := by
      rcases hext with h | ⟨i', l', junk, extra, h1, h2⟩
      · exact ⟨[], [], by rw [← h, efiles]; simp⟩
      · rw [efiles] at h1
        obtain ⟨e1, e2⟩ := List.append_inj' h1 rfl
        simp only [List.cons.injEq, and_true] at e2
        subst e1; subst e2
        exact ⟨junk, extra, h2⟩
    obtain ⟨junk, extra, hd⟩ := hdf
    have hrec : (l.drop s.state.metaPtr.pos).take metaSize = metaWrite E s.key r := by
      unfold vrd at hrd
      simp only at hrd
      rw [if_neg (by omega), tl1, efiles] at hrd
      have hg : (i ++ [l])[(i ++ [l]).length - 1]? = some l := by
        rw [List.getElem?_append_right (by simp)]; simp
      rw [hg] at hrd
      simp only at hrd
      rw [if_neg (by decide), if_neg (by omega)] at hrd
      exact Option.some.inj hrd
    have hrecov := recover_hit hE (key := s.key) (i := i) (extra := extra) (l := l) (junk := junk) (r := r)
      (by omega) hal hrec ok1 ok2 (by rw [← hd, ← efiles]; exact hnf)
    rw [← hd] at hrecov
    have hgetd : (i ++ [l]).getD (i.length + 1 - 1) [] = l := by simp [List.getD_eq_getElem?_getD]
    generalize hs0 : (⟨s.key, i ++ [l], i.length + 1, l.length,
        { Slab.init with filePos := l.length, fileIndex := i.length + 1 }, [],
        ⟨{ r.metaPtr with index := i.length + 1, pos := s.state.metaPtr.pos }, r.rootPtr, .null⟩,
        ⟨r.metaPtr, r.rootPtr, .null⟩, [], []⟩ : Store) = s0
    have k0 : s0.key = s.key := by rw [← hs0]
    have k1 : s0.files = s.files := by rw [← hs0, efiles]
    have hsok : SOk s0 := by
      rw [← hs0]; exact ⟨by simp, by simp, by simp only [hgetd]⟩
    have hle := hs.le l (by rw [efiles]; simp)
    have hslab : Slabbed E s0 s0.files :=
      slabbed_open hsok (by rw [← hs0]) (by rw [← hs0]) (by rw [← hs0]; exact hle)
    have hkey' : d.key rand = some s0.key := by rw [k0, hkey]
    -- the root
    have hroot' : ∃ c n, storeReadRoot E s0 r.rootPtr = .ok ({ s0 with cache := c }, some n) ∧
        RootIs E.H (vrd s.files) n t ∧
        (∀ h p, (h, p) ∈ c → ∃ u ∈ t :: ts, h = u.hash E.H ∧ OnDisk E.H (vrd s.files) p u) ∧
        (t = .null ∨ (cacheLookup c (t.hash E.H)).isSome) := by
      have hc0 : s0.cache = [] := by rw [← hs0]
      rcases hroot with ⟨rfl, h0⟩ | hd
      · refine ⟨s0.cache, .null, storeReadRoot_null (by rw [h0]; rfl), Or.inl ⟨rfl, rfl⟩, ?_, Or.inl rfl⟩
        rw [hc0]; intro _ _ hm; cases hm
      · refine ⟨_, _, storeReadRoot_ok (by rw [hsok.rd_eq, k1]; exact hd), Or.inr ⟨_, rfl, hd⟩, ?_,
          Or.inr (cacheLookup_insert _ _ _ (t.hash E.H)).2.1⟩
        intro h p hm
        rw [hc0] at hm
        rcases cacheInsert_mem hm with hm | ⟨rfl, rfl⟩
        · cases hm
        · exact ⟨t, List.mem_cons_self, rfl, hd⟩
    obtain ⟨c, n, er, hri, hci, hcl⟩ := hroot'
    have hsl' : Slabbed E { s0 with cache := c, state := { s0.state with rootNode := n } } s0.files := by
      obtain ⟨c0, cs, i, e⟩ := hslab
      exact ⟨c0, cs, ⟨⟨i.sok.pos, i.sok.idx, i.sok.cur⟩, i.data, i.offs, i.start, i.fidx, i.fpos, i.fit, i.roll, i.ol,
        i.faults⟩, e⟩
    have hst : s0.state.metaPtr = { r.metaPtr with index := i.length + 1, pos := s.state.metaPtr.pos } := by rw [← hs0]
    have hlm : s0.lastMeta.metaPtr = r.metaPtr := by rw [← hs0]
    refine ⟨{ s0 with cache := c, state := { s0.state with rootNode := n } }, ?_, ?_, k0, k1, ?_, ?_⟩
    · unfold openStore
      rw [hkey]
      simp only [hrecov, Res.bind_ok]
      rw [if_neg (by simp), hgetd, hs0, er]
      simp only [Res.bind_ok, Res.pure_eq, k1]
      cases d.keyFile <;> rfl
    · refine ⟨by simp only; exact hsl', by simp only [k1]; exact hs.le, hs.top, hs.vals, ?_, ?_, ?_, ?_, ?_, ?_, ?_, by simp only [k1]; exact hs.ali⟩
      · simp only [hst]
        have a1 := hs.mptr.index; have a2 := hs.mptr.pos; have a3 := ok1.size
        have a4 : s.files.length = s.index := hs.slab.sok.idx
        refine ⟨?_, a2, a3⟩
        simp only; omega
      · simp only [hst, k0, k1]
        have hii : i.length + 1 = s.state.metaPtr.index := by rw [tl1, efiles]; simp
        refine ⟨⟨by simp, hrest.size⟩, r, ?_, ok1, ok2, hroot, hrest⟩
        simp only [hii]; exact hrd
      · simp only [k1, List.headD_cons]; exact hri
      · simp only [k1]; exact hci
      · refine ⟨[t], ts, rfl, ?_, ?_⟩
        · simp only [k0, k1, hlm]; exact hrest
        · intro u hu
          simp at hu; subst hu; exact hcl
      · simp only [k1]; exact hs.count
      · right
        simp only [hst, k1]
        exact ⟨by rw [efiles]; simp, tl2⟩
    · have e1 : rootHash s = t.hash E.H := hs.rootHash
      rw [e1]
      exact hri.hash
    · simp only [hst]

theorem ptrOk_zero : PtrOk Ptr.zero := ⟨by decide, by decide, by decide⟩

/-- Opening when nothing has been committed: a new directory, or one in which no
valid commit record can be found. -/
theorem open_empty {E : Env} {d : Dir} {rand key : B32} (hkey : d.key rand = some key)
    (hnf : NoForge E key [] d.files) (hnm : NoMagic [] d.files) :
    ∃ s', openStore E d rand = .ok (⟨some (d.keyFile.getD rand.bytes), [[]]⟩, some s') ∧ SInv E s' [] ∧
      s'.key = key ∧ s'.files = [[]] ∧ rootHash s' = B32.zero := by
  obtain ⟨m, _, e, hm⟩ := recover_drop (E := E) (key := key) (files := d.files) (Nat.zero_le d.files.length) (Nat.le_refl _)
    (fun j f i _ _ hf hl => hnf j f i hf (by simp) hl) Meta.init
  have hmi : m = Meta.init := hm (fun j f i _ _ hf hl => hnm j f i hf (by simp) hl)
  subst hmi
  refine ⟨⟨key, [[]], 1, 0, { Slab.init with filePos := 0, fileIndex := 1 }, [], Meta.init, Meta.init, [], []⟩,
    ?_, ?_, rfl, rfl, rfl⟩
  · unfold openStore
    rw [hkey]
    simp only [e, recoverState, Res.bind_ok]
    simp only [List.length_nil, Nat.zero_lt_one, if_true, List.nil_append]
    rw [storeReadRoot_null rfl]
    simp only [Res.bind_ok, Res.pure_eq]
    cases d.keyFile <;> rfl
  · refine ⟨?_, ?_, by simp, by simp, ptrOk_zero, rfl, Or.inl ⟨rfl, rfl⟩, ?_, ?_, by simp, Or.inl ⟨rfl, rfl⟩, fun _ => rfl⟩
    · exact slabbed_open ⟨by simp, by simp, by simp⟩ rfl rfl (by simp)
    · intro f hf; simp at hf; subst hf; simp
    · intro _ _ hm; cases hm
    · exact ⟨[], [], rfl, rfl, by simp⟩

end Urkel
