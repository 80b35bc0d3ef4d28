import Verif.Lemmas.Write
/-
The chain of commit records, the root cache and the history lookup.
-/
namespace Urkel
open PTree

/-- A stored root: null pointer for the empty tree, else a stored tree. -/
def RootAt (H : HashFn) (rd : Rd) (p : Ptr) (t : PTree) : Prop :=
  (t = .null ∧ p = nowhere) ∨ OnDisk H rd p t

theorem RootAt.mono {H : HashFn} {rd rd' : Rd} (hle : Rd.Le rd rd') {p : Ptr} {t : PTree}
    (h : RootAt H rd p t) : RootAt H rd' p t := h.imp id (·.mono hle)

/-- A root node held in memory by the store. -/
def RootIs (H : HashFn) (rd : Rd) (n : Node) (t : PTree) : Prop :=
  (t = .null ∧ n = .null) ∨ ∃ p, n = .hash (t.hash H) p ∧ OnDisk H rd p t

theorem RootIs.mono {H : HashFn} {rd rd' : Rd} (hle : Rd.Le rd rd') {n : Node} {t : PTree}
    (h : RootIs H rd n t) : RootIs H rd' n t :=
  h.imp id (fun ⟨p, e, d⟩ => ⟨p, e, d.mono hle⟩)

theorem RootIs.repr {H : HashFn} {rd : Rd} {n : Node} {t : PTree} (h : RootIs H rd n t) : Repr H rd n t := by
  rcases h with ⟨rfl, rfl⟩ | ⟨p, rfl, h⟩
  · rfl
  · exact ⟨h, rfl⟩

/-- Commit records found from `mp` backwards: the roots of `hist`, newest first. -/
def HistAt (E : Env) (key : B32) (rd : Rd) : Ptr → List PTree → Prop
  | mp, [] => mp = nowhere
  | mp, t :: ts => (1 ≤ mp.index ∧ mp.size = 0) ∧ ∃ m : Meta, rd ⟨mp.index, mp.pos, metaSize⟩ = some (metaWrite E key m) ∧
      PtrOk m.metaPtr ∧ PtrOk m.rootPtr ∧ RootAt E.H rd m.rootPtr t ∧ HistAt E key rd m.metaPtr ts

theorem HistAt.size {E : Env} {key : B32} {rd : Rd} {mp : Ptr} {hist : List PTree} (h : HistAt E key rd mp hist) : mp.size = 0 := by
  cases hist with
  | nil => rw [show mp = nowhere from h]; rfl
  | cons t ts => exact h.1.2

theorem HistAt.mono {E : Env} {key : B32} {rd rd' : Rd} (hle : Rd.Le rd rd') {mp : Ptr} {hist : List PTree}
    (h : HistAt E key rd mp hist) : HistAt E key rd' mp hist := by
  induction hist generalizing mp with
  | nil => exact h
  | cons t ts ih =>
    obtain ⟨a, m, b, c, d, e, f⟩ := h
    exact ⟨a, m, hle _ _ b, c, d, e.mono hle, ih f⟩

/-- The store between commits, with the list of committed trees, newest first. -/
structure SInv (E : Env) (s : Store) (hist : List PTree) : Prop where
  slab : Slabbed E s s.files
  le : FilesLe E.cfg.maxFile s.files
  top : ∀ t ∈ hist, t.Top
  vals : ∀ t ∈ hist, t.ValsLe 1023
  mptr : PtrOk s.state.metaPtr
  chain : HistAt E s.key (vrd s.files) s.state.metaPtr hist
  root : RootIs E.H (vrd s.files) s.state.rootNode (hist.headD .null)
  cache : ∀ h p, (h, p) ∈ s.cache → ∃ t ∈ hist, h = t.hash E.H ∧ OnDisk E.H (vrd s.files) p t
  last : ∃ newer older, hist = newer ++ older ∧ HistAt E s.key (vrd s.files) s.lastMeta.metaPtr older ∧
    ∀ t ∈ newer, t = .null ∨ (cacheLookup s.cache (t.hash E.H)).isSome
  count : hist.length ≤ totalBytes s.files
  tail : (hist = [] ∧ s.files = [[]]) ∨
    (s.state.metaPtr.index = s.files.length ∧ s.state.metaPtr.pos + metaSize = lastLen s.files)
  ali : s.files.length = 1 → lastLen s.files % metaSize = 0

theorem Slabbed.sok {E : Env} {s : Store} {vf : List Bytes} (h : Slabbed E s vf) : SOk s := by
  obtain ⟨_, _, hi, _⟩ := h; exact hi.sok

theorem Slabbed.nofault {E : Env} {s : Store} {vf : List Bytes} (h : Slabbed E s vf) : s.faults = [] := by
  obtain ⟨_, _, hi, _⟩ := h; exact hi.faults

theorem SInv.rd {E : Env} {s : Store} {hist : List PTree} (h : SInv E s hist) : s.rd = vrd s.files :=
  h.slab.sok.rd_eq

/-! ### Records -/

theorem length_metaWrite {E : Env} (hm : ∀ k d, (E.mac k d).length = 20) (key : B32) (m : Meta) :
    (metaWrite E key m).length = metaSize := by
  simp [metaWrite, hm, metaSize]

theorem metaRead_write {E : Env} (hm : ∀ k d, (E.mac k d).length = 20) (key : B32) {m : Meta} (m0 : Meta)
    (h1 : PtrOk m.metaPtr) (h2 : PtrOk m.rootPtr) :
    metaRead E key m0 (metaWrite E key m) =
      .ok (true, { m0 with metaPtr := m.metaPtr, rootPtr := m.rootPtr }) := by
  unfold metaRead metaWrite
  simp only
  have e18 : (leBytes 4 metaMagic ++ ptrWrite m.metaPtr ++ ptrWrite m.rootPtr).length = 18 := by simp
  rw [List.take_left' e18]
  simp only [List.append_assoc]
  rw [takeN_leBytes, Res.bind_ok]
  simp only [leNat_leBytes]
  have e1 : ((metaMagic % 256 ^ 4 : Nat) != metaMagic) = false := by decide
  rw [e1]
  simp only [Bool.false_eq_true, if_false]
  rw [ptrRead_write h1, Res.bind_ok]
  simp only
  rw [ptrRead_write h2, Res.bind_ok]
  simp only
  rw [takeN_ok (by rw [hm]; omega), Res.bind_ok]
  simp only [Res.pure_eq]
  rw [List.take_of_length_le (by rw [hm]; omega)]
  simp

theorem storeReadMeta_ok {E : Env} (hE : EnvOk E) {s : Store} {mp : Ptr} {m : Meta}
    (hr : s.rd ⟨mp.index, mp.pos, metaSize⟩ = some (metaWrite E s.key m)) (h1 : PtrOk m.metaPtr)
    (h2 : PtrOk m.rootPtr) :
    storeReadMeta E s mp = .ok (some { Meta.init with metaPtr := m.metaPtr, rootPtr := m.rootPtr }) := by
  have hr' : storeRead s metaSize mp.index mp.pos = some (metaWrite E s.key m) := hr
  simp only [storeReadMeta, hr', metaRead_write hE.mac s.key Meta.init h1 h2, Res.bind_ok, if_true, Res.pure_eq]

theorem storeReadRoot_null {E : Env} {s : Store} {p : Ptr} (h : p.index = 0) :
    storeReadRoot E s p = .ok (s, some .null) := by
  simp [storeReadRoot, h]

theorem storeReadRoot_ok {E : Env} {s : Store} {p : Ptr} {t : PTree}
    (h : OnDisk E.H s.rd p t) :
    storeReadRoot E s p =
      .ok ({ s with cache := cacheInsert s.cache (t.hash E.H) p }, some (.hash (t.hash E.H) p)) := by
  have hp := h.nptr
  have hlo := hp.lo; have hhi := hp.hi; have hidx := hp.idx
  unfold storeReadRoot
  rw [if_neg (by omega)]
  unfold storeReadNode
  rw [if_neg (by omega), storeReadInto_ok (by omega), Res.bind_ok]
  cases t with
  | null => exact h.elim
  | leaf k v =>
    obtain ⟨h1, h2, d, vp, h3, ⟨h4, _⟩, h5, h6⟩ := h
    have h3' : storeRead s p.size p.index p.pos = some d := h3
    have h6' : storeRead s vp.size vp.index vp.pos = some v := h6
    rw [h3']
    simp only [h4, Res.bind_ok, Res.pure_eq, storeRetrieve]
    rw [if_neg (by unfold valueSize; omega), storeReadInto_ok (by unfold valueSize; omega), h6']
    simp only [Res.bind_ok, Option.isNone_none, check_true, nodeHash, toHash, markPtr_id hp]
    rfl
  | node pre l r =>
    obtain ⟨h1, d, b, pl, pr, h3, h4, ⟨h5, _⟩, h6, h7⟩ := h
    have h3' : storeRead s p.size p.index p.pos = some d := h3
    rw [h3']
    simp only [h5, Res.bind_ok, Res.pure_eq, nodeHash, toHash, markPtr_id hp]
    rw [hashInternal_eq h4]

/-! ### Cache -/

theorem cacheLookup_mem {c : List (B32 × Ptr)} {h : B32} {p : Ptr} (e : cacheLookup c h = some p) : (h, p) ∈ c := by
  unfold cacheLookup at e
  induction c with
  | nil => cases e
  | cons a c ih =>
    obtain ⟨h', p'⟩ := a
    rw [List.lookup_cons] at e
    split at e
    · next e1 => simp only [beq_iff_eq] at e1; cases e; subst e1; exact List.mem_cons_self
    · exact List.mem_cons_of_mem _ (ih e)

theorem cacheInsert_mem {c : List (B32 × Ptr)} {h h' : B32} {p p' : Ptr} (e : (h', p') ∈ cacheInsert c h p) :
    (h', p') ∈ c ∨ (h' = h ∧ p' = p) := by
  unfold cacheInsert at e
  split at e
  · exact Or.inl e
  · rcases List.mem_cons.1 e with e | e
    · cases e; exact Or.inr ⟨rfl, rfl⟩
    · exact Or.inl e

theorem cacheLookup_insert (c : List (B32 × Ptr)) (h : B32) (p : Ptr) (h' : B32) :
    ((cacheLookup c h').isSome → cacheLookup (cacheInsert c h p) h' = cacheLookup c h') ∧
    (cacheLookup (cacheInsert c h p) h).isSome ∧
    (h' ≠ h → cacheLookup (cacheInsert c h p) h' = cacheLookup c h') := by
  unfold cacheInsert cacheLookup
  cases e : c.lookup h with
  | some q => exact ⟨fun _ => rfl, by simp [e], fun _ => rfl⟩
  | none =>
    simp only
    refine ⟨?_, ?_, ?_⟩
    · intro hs
      rw [List.lookup_cons]
      split
      · next e1 => simp only [beq_iff_eq] at e1; subst e1; rw [e] at hs; cases hs
      · rfl
    · rw [List.lookup_cons]; simp
    · intro hne
      rw [List.lookup_cons]
      have : (h' == h) = false := by simpa using hne
      rw [this]

/-! ### Looking up a root -/

/-- Same files and same head of history; only the cache and `last_meta` differ. -/
def SameData (s s' : Store) : Prop :=
  ∃ c m, s' = { s with cache := c, lastMeta := m }

theorem SameData.refl (s : Store) : SameData s s := ⟨s.cache, s.lastMeta, rfl⟩
theorem SameData.trans {a b c : Store} (h1 : SameData a b) (h2 : SameData b c) : SameData a c := by
  obtain ⟨_, _, rfl⟩ := h1; obtain ⟨x, y, rfl⟩ := h2; exact ⟨x, y, rfl⟩

theorem Slabbed.same {E : Env} {s s' : Store} {vf : List Bytes} (h : Slabbed E s vf) (hs : SameData s s') :
    Slabbed E s' vf := by
  obtain ⟨c, m, rfl⟩ := hs
  obtain ⟨c0, cs, i, e⟩ := h
  exact ⟨c0, cs, ⟨⟨i.sok.pos, i.sok.idx, i.sok.cur⟩, i.data, i.offs, i.start, i.fidx, i.fpos, i.fit, i.roll, i.ol,
    i.faults⟩, e⟩

theorem hash_null (H : HashFn) : PTree.hash H .null = B32.zero := rfl

/-- What can be read from a store, whatever the state of its buffer: the
committed trees, newest first, the current root and the root cache. -/
structure RInv (E : Env) (s : Store) (hist : List PTree) : Prop where
  top : ∀ t ∈ hist, t.Top
  vals : ∀ t ∈ hist, t.ValsLe 1023
  root : RootIs E.H s.rd s.state.rootNode (hist.headD .null)
  cache : ∀ h p, (h, p) ∈ s.cache → ∃ t ∈ hist, h = t.hash E.H ∧ OnDisk E.H s.rd p t
  last : ∃ newer older, hist = newer ++ older ∧ HistAt E s.key s.rd s.lastMeta.metaPtr older ∧
    ∀ t ∈ newer, t = .null ∨ (cacheLookup s.cache (t.hash E.H)).isSome
  count : hist.length ≤ totalBytes s.files

theorem SInv.readable {E : Env} {s : Store} {hist : List PTree} (h : SInv E s hist) : RInv E s hist := by
  have e := h.rd
  exact ⟨h.top, h.vals, by rw [e]; exact h.root, by rw [e]; exact h.cache, by rw [e]; exact h.last, h.count⟩

/-- Updating the cache and the position in the chain. -/
theorem RInv.update {E : Env} {s : Store} {hist : List PTree} (h : RInv E s hist) (c : List (B32 × Ptr)) (m : Meta)
    (hc : ∀ h p, (h, p) ∈ c → ∃ t ∈ hist, h = t.hash E.H ∧ OnDisk E.H s.rd p t)
    (hl : ∃ newer older, hist = newer ++ older ∧ HistAt E s.key s.rd m.metaPtr older ∧
      ∀ t ∈ newer, t = .null ∨ (cacheLookup c (t.hash E.H)).isSome) :
    RInv E { s with cache := c, lastMeta := m } hist :=
  ⟨h.top, h.vals, h.root, hc, hl, h.count⟩

theorem SInv.update {E : Env} {s : Store} {hist : List PTree} (h : SInv E s hist) (c : List (B32 × Ptr)) (m : Meta)
    (hc : ∀ h p, (h, p) ∈ c → ∃ t ∈ hist, h = t.hash E.H ∧ OnDisk E.H (vrd s.files) p t)
    (hl : ∃ newer older, hist = newer ++ older ∧ HistAt E s.key (vrd s.files) m.metaPtr older ∧
      ∀ t ∈ newer, t = .null ∨ (cacheLookup c (t.hash E.H)).isSome) :
    SInv E { s with cache := c, lastMeta := m } hist :=
  ⟨h.slab.same ⟨c, m, rfl⟩, h.le, h.top, h.vals, h.mptr, h.chain, h.root, hc, hl, h.count, h.tail, h.ali⟩

theorem SInv.same {E : Env} {s s' : Store} {hist : List PTree} (h : SInv E s hist) (hr : RInv E s' hist)
    (hs : SameData s s') : SInv E s' hist := by
  have hsl := h.slab.same hs
  obtain ⟨c, m, rfl⟩ := hs
  have e : ({ s with cache := c, lastMeta := m } : Store).rd = vrd s.files := hsl.sok.rd_eq
  have hc := hr.cache
  have hl := hr.last
  rw [e] at hc hl
  exact ⟨hsl, h.le, h.top, h.vals, h.mptr, h.chain, h.root, hc, hl, h.count, h.tail, h.ali⟩

theorem historyLoop_ok {E : Env} (hE : EnvOk E) (h : B32) (hz : h ≠ B32.zero) {hist : List PTree} (older newer : List PTree)
    (fuel : Nat) {s : Store} (hs : RInv E s hist) (hsplit : hist = newer ++ older)
    (hat : HistAt E s.key s.rd s.lastMeta.metaPtr older)
    (hnew : ∀ t ∈ newer, t = .null ∨ (cacheLookup s.cache (t.hash E.H)).isSome)
    (hmiss : cacheLookup s.cache h = none) (hfuel : older.length < fuel) :
    ∃ s' r, historyLoop E h fuel s = .ok (s', r) ∧ RInv E s' hist ∧ SameData s s' ∧
      (∀ n, r = some n → ∃ t ∈ hist, t.hash E.H = h ∧ RootIs E.H s.rd n t) ∧
      (r = none → ∀ t ∈ hist, t.hash E.H ≠ h) := by
  induction older generalizing newer fuel s with
  | nil =>
    cases fuel with
    | zero => simp at hfuel
    | succ fuel =>
      have : s.lastMeta.metaPtr.index = 0 := by rw [show s.lastMeta.metaPtr = nowhere from hat]; rfl
      refine ⟨s, none, by simp [historyLoop, this], hs, SameData.refl _, (fun _ e => (nomatch e)), ?_⟩
      intro _ t ht
      rw [hsplit, List.append_nil] at ht
      rintro rfl
      rcases hnew t ht with rfl | hc
      · exact hz rfl
      · rw [hmiss] at hc; cases hc
  | cons t older ih =>
    cases fuel with
    | zero => simp at hfuel
    | succ fuel =>
      obtain ⟨hidx, m, hrd, ok1, ok2, hroot, hrest⟩ := hat
      have hsplit' : hist = (newer ++ [t]) ++ older := by rw [hsplit]; simp
      have hmem : t ∈ hist := by rw [hsplit]; simp
      unfold historyLoop
      rw [if_neg (by omega), storeReadMeta_ok hE hrd ok1 ok2]
      simp only [Res.bind_ok]
      rcases hroot with ⟨rfl, h0⟩ | hd
      · -- empty tree
        rw [storeReadRoot_null (by rw [h0]; rfl)]
        simp only [Res.bind_ok]
        rw [if_neg (show ¬ rootNodeHash .null = h from Ne.symm hz)]
        have hs1 := hs.update s.cache { Meta.init with metaPtr := m.metaPtr, rootPtr := m.rootPtr } hs.cache
          ⟨newer ++ [.null], older, hsplit', hrest, by
            intro t ht
            rcases List.mem_append.1 ht with ht | ht
            · exact hnew t ht
            · simp at ht; exact Or.inl ht⟩
        obtain ⟨s', r, e, i, sd, f1, f2⟩ := ih (newer ++ [.null]) fuel hs1 hsplit' hrest (by
            intro t ht
            rcases List.mem_append.1 ht with ht | ht
            · exact hnew t ht
            · simp at ht; exact Or.inl ht) hmiss (by simpa using hfuel)
        exact ⟨s', r, e, i, SameData.trans ⟨_, _, rfl⟩ sd, f1, f2⟩
      · rw [storeReadRoot_ok hd]
        simp only [Res.bind_ok]
        have hcm : ∀ h' p', (h', p') ∈ cacheInsert s.cache (t.hash E.H) m.rootPtr →
            ∃ t ∈ hist, h' = t.hash E.H ∧ OnDisk E.H s.rd p' t := by
          intro h' p' hm
          rcases cacheInsert_mem hm with hm | ⟨rfl, rfl⟩
          · exact hs.cache _ _ hm
          · exact ⟨t, hmem, rfl, hd⟩
        have hnm : ∀ u ∈ newer ++ [t], u = .null ∨
            (cacheLookup (cacheInsert s.cache (t.hash E.H) m.rootPtr) (u.hash E.H)).isSome := by
          intro u hu
          rcases List.mem_append.1 hu with hu | hu
          · rcases hnew u hu with hu | hu
            · exact Or.inl hu
            · right; rw [(cacheLookup_insert _ _ _ _).1 hu]; exact hu
          · simp at hu; subst hu
            exact Or.inr (cacheLookup_insert _ _ _ (u.hash E.H)).2.1
        have hs1 := hs.update (cacheInsert s.cache (t.hash E.H) m.rootPtr)
          { Meta.init with metaPtr := m.metaPtr, rootPtr := m.rootPtr } hcm ⟨newer ++ [t], older, hsplit', hrest, hnm⟩
        by_cases heq : t.hash E.H = h
        · rw [if_pos (show rootNodeHash (.hash (t.hash E.H) m.rootPtr) = h from heq)]
          refine ⟨_, _, rfl, hs1, ⟨_, _, rfl⟩, ?_, (fun e => (nomatch e))⟩
          rintro n ⟨⟩
          exact ⟨t, hmem, heq, Or.inr ⟨_, rfl, hd⟩⟩
        · rw [if_neg (show ¬ rootNodeHash (.hash (t.hash E.H) m.rootPtr) = h from heq)]
          obtain ⟨s', r, e, i, sd, f1, f2⟩ := ih (newer ++ [t]) fuel hs1 hsplit' hrest hnm (by
            simp only
            rw [(cacheLookup_insert s.cache (t.hash E.H) m.rootPtr h).2.2 (Ne.symm heq)]; exact hmiss)
            (by simpa using hfuel)
          exact ⟨s', r, e, i, SameData.trans ⟨_, _, rfl⟩ sd, f1, f2⟩

theorem RootIs.hash {H : HashFn} {rd : Rd} {n : Node} {t : PTree} (h : RootIs H rd n t) :
    rootNodeHash n = t.hash H := by
  rcases h with ⟨rfl, rfl⟩ | ⟨p, rfl, _⟩ <;> rfl

theorem SInv.rootHash {E : Env} {s : Store} {hist : List PTree} (h : SInv E s hist) :
    rootHash s = (hist.headD .null).hash E.H := h.root.hash

theorem SInv.head_mem (hist : List PTree) : hist.headD .null ∈ PTree.null :: hist := by
  cases hist <;> simp

/-- Looking up a root hash: found exactly when some committed tree (or the empty
tree) has it. -/
theorem readHistory_readable {E : Env} (hE : EnvOk E) (h : B32) {hist : List PTree} {s : Store} (hs : RInv E s hist) :
    ∃ s' r, readHistory E s h = .ok (s', r) ∧ RInv E s' hist ∧ SameData s s' ∧
      (∀ n, r = some n → ∃ t ∈ PTree.null :: hist, t.hash E.H = h ∧ RootIs E.H s.rd n t) ∧
      (r = none → ∀ t ∈ PTree.null :: hist, t.hash E.H ≠ h) := by
  unfold readHistory
  by_cases hz : h = B32.zero
  · rw [if_pos hz]
    refine ⟨s, _, rfl, hs, SameData.refl _, ?_, (fun e => (nomatch e))⟩
    rintro n ⟨⟩
    exact ⟨.null, by simp, hz.symm, Or.inl ⟨rfl, rfl⟩⟩
  · rw [if_neg hz]
    by_cases hr : h = rootNodeHash s.state.rootNode
    · rw [if_pos (show h = rootNodeHash s.state.rootNode from hr)]
      refine ⟨s, _, rfl, hs, SameData.refl _, ?_, (fun e => (nomatch e))⟩
      rintro n ⟨⟩
      exact ⟨_, SInv.head_mem hist, by rw [hr, hs.root.hash], hs.root⟩
    · rw [if_neg (show ¬ h = rootNodeHash s.state.rootNode from hr)]
      cases hc : cacheLookup s.cache h with
      | some p =>
        refine ⟨s, _, rfl, hs, SameData.refl _, ?_, (fun e => (nomatch e))⟩
        rintro n ⟨⟩
        obtain ⟨t, ht, rfl, hd⟩ := hs.cache _ _ (cacheLookup_mem hc)
        exact ⟨t, List.mem_cons_of_mem _ ht, rfl, Or.inr ⟨p, rfl, hd⟩⟩
      | none =>
        obtain ⟨newer, older, h1, h2, h3⟩ := hs.last
        have hcount := hs.count
        have : older.length ≤ hist.length := by rw [h1]; simp
        obtain ⟨s', r, e, i, sd, f1, f2⟩ := historyLoop_ok hE h hz older newer (totalBytes s.files + 2) hs h1 h2 h3 hc (by omega)
        refine ⟨s', r, e, i, sd, ?_, ?_⟩
        · intro n hn
          obtain ⟨t, ht, a, b⟩ := f1 n hn
          exact ⟨t, List.mem_cons_of_mem _ ht, a, b⟩
        · intro hn t ht
          rcases List.mem_cons.1 ht with rfl | ht
          · exact Ne.symm hz
          · exact f2 hn t ht

theorem readHistory_ok {E : Env} (hE : EnvOk E) (h : B32) {hist : List PTree} {s : Store} (hs : SInv E s hist) :
    ∃ s' r, readHistory E s h = .ok (s', r) ∧ SInv E s' hist ∧ SameData s s' ∧
      (∀ n, r = some n → ∃ t ∈ PTree.null :: hist, t.hash E.H = h ∧ RootIs E.H (vrd s.files) n t) ∧
      (r = none → ∀ t ∈ PTree.null :: hist, t.hash E.H ≠ h) := by
  obtain ⟨s', r, e, i, sd, f, g⟩ := readHistory_readable hE h hs.readable
  rw [hs.rd] at f
  exact ⟨s', r, e, hs.same i sd, sd, f, g⟩

end Urkel
