import Verif.Lemmas.Db
/-
Commits that fail: what the files contain, and what can still be read.
-/
namespace Urkel
open PTree

/-- The same store with other plans of the operating system. -/
def Store.withF (s : Store) (fs : List (Option Fault)) : Store := { s with faults := fs }

/-- A step without faults from `s` to `s'`. -/
structure Clean (s s' : Store) : Prop where
  sok : SOk s'
  faults : s'.faults = []
  ext : FExt s.files s'.files
  same : SameMeta s s'

/-- A step from `s` that would have led to `s2` failed and left `s'`. -/
structure Broke (s s2 s' : Store) : Prop where
  from_old : FExt s.files s'.files
  to_new : FExt s'.files s2.files
  same : SameMeta s s'
  rd : Rd.Le s.rd s'.rd

theorem Clean.trans {a b c : Store} (h1 : Clean a b) (h2 : Clean b c) : Clean a c :=
  ⟨h2.sok, h2.faults, h1.ext.trans h2.ext, h1.same.trans h2.same⟩

theorem Clean.rd {a b : Store} (ha : SOk a) (h : Clean a b) : Rd.Le a.rd b.rd := by
  rw [ha.rd_eq, h.sok.rd_eq]; exact vrd_mono h.ext

theorem Broke.before {a b c x : Store} (ha : SOk a) (h1 : Clean a b) (h2 : Broke b c x) : Broke a c x :=
  ⟨h1.ext.trans h2.from_old, h2.to_new, h1.same.trans h2.same, (h1.rd ha).trans h2.rd⟩

theorem Broke.after {a b c x : Store} (h1 : Broke a b x) (h2 : Clean b c) : Broke a c x :=
  ⟨h1.from_old, h1.to_new.trans h2.ext, h1.same, h1.rd⟩

/-- Reading after the files have grown. -/
theorem rd_grow {s s' : Store} (h : SOk s) (hx : FExt s.files s'.files)
    (hi : (s'.index = s.index ∧ s.curSize ≤ s'.curSize) ∨ s'.index = s.index + 1) : Rd.Le s.rd s'.rd := by
  rw [h.rd_eq]
  intro p d hd
  unfold vrd at hd
  split at hd
  · cases hd
  · next h0 =>
    cases hf : s.files[p.index - 1]? with
    | none => rw [hf] at hd; cases hd
    | some f =>
      rw [hf] at hd
      simp only at hd
      have hlt := (List.getElem?_eq_some_iff.1 hf).1
      have hidx := h.idx
      obtain ⟨g, hg, rest, rfl⟩ := hx.get _ _ hf
      unfold Store.rd storeRead
      rw [if_neg (by omega), hg]
      simp only
      by_cases hz : p.size = 0
      · rw [if_pos hz] at hd ⊢; exact hd
      · rw [if_neg hz] at hd ⊢
        split at hd
        · cases hd
        · next hle =>
          have hbound : ¬ p.pos + p.size > (if p.index = s'.index then s'.curSize else (f ++ rest).length) := by
            split
            · next e =>
              rcases hi with ⟨a, b⟩ | a
              · have hc := h.cur
                have : s.files.getD (s.index - 1) [] = f := by
                  rw [List.getD_eq_getElem?_getD, ← a, ← e, hf]; rfl
                rw [this] at hc
                omega
              · omega
            · simp; omega
          rw [if_neg hbound]
          rw [List.drop_append_of_le_length (by omega), List.take_append_of_le_length (by simp; omega)]
          exact hd

theorem fext_snoc_append (i : List Bytes) (l d : Bytes) : FExt (i ++ [l]) (i ++ [l ++ d]) :=
  Or.inr ⟨i, l, d, [], rfl, by simp⟩

theorem fext_snoc_new (i : List Bytes) (l d : Bytes) : FExt (i ++ [l]) (i ++ [l] ++ [d]) :=
  Or.inr ⟨i, l, [], [d], rfl, by simp⟩

theorem fext_take (i : List Bytes) (l d : Bytes) (k : Nat) : FExt (i ++ [l ++ d.take k]) (i ++ [l ++ d]) := by
  refine Or.inr ⟨i, _, d.drop k, [], rfl, ?_⟩
  rw [List.append_assoc l]
  simp

/-- The bytes reaching the current file. -/
def wrBytes (s : Store) (d : Bytes) (fault : Option Fault) : Res (Store × Bool) :=
  if d.length = 0 then .ok (s, true)
  else match fault with
    | some (.writeFail k) => .ok ({ s with files := appendFile s.files s.index (d.take k), io := .append s.index (d.take k) :: s.io }, false)
    | some .mapFail =>
      .ok ({ s with files := appendFile s.files s.index d, curSize := s.curSize + d.length, io := .append s.index d :: s.io }, false)
    | _ =>
      .ok ({ s with files := appendFile s.files s.index d, curSize := s.curSize + d.length, io := .append s.index d :: s.io }, true)

theorem storeWrite_fit {E : Env} {s : Store} {d : Bytes} (fs : List (Option Fault)) (h : ¬ s.curSize + d.length > E.cfg.maxFile) :
    storeWrite E (s.withF fs) d = wrBytes (s.withF fs.tail) d fs.head?.join := by
  unfold storeWrite
  exact if_neg h

theorem ite_right {α : Type} {c : Prop} [i : Decidable c] [j : Decidable c] {x y z : α} (h : y = z) :
    @ite α c i x y = @ite α c j x z := by
  subst h
  congr

theorem storeWrite_roll {E : Env} {s : Store} {d : Bytes} (fs : List (Option Fault)) (h : s.curSize + d.length > E.cfg.maxFile)
    (hidx : s.files.length = s.index) :
    storeWrite E (s.withF fs) d =
      if fs.head?.join = some .openFail then .ok (s.withF fs.tail, false)
      else if s.index + 1 ≥ E.cfg.maxFiles then .abort
      else if fs.head?.join = some .syncFail then .ok ({ s with files := s.files ++ [[]], faults := fs.tail, io := .create (s.index + 1) :: s.io }, false)
      else wrBytes { s with files := s.files ++ [[]], index := s.index + 1, curSize := 0, faults := fs.tail, io := .sync s.index :: .create (s.index + 1) :: s.io } d fs.head?.join := by
  have e0 : (s.files ++ [[]]).getD s.index [] = [] := by
    rw [List.getD_eq_getElem?_getD, List.getElem?_append_right (by omega)]
    simp [hidx]
  have hle : s.files.length ≤ s.index := by omega
  unfold storeWrite
  refine (if_pos h).trans ?_
  refine ite_right ?_
  refine ite_right ?_
  simp only [Store.withF, hle, if_true, e0]
  refine ite_right ?_
  rfl

theorem Store.withF_self {s : Store} (h : s.faults = []) : s.withF [] = s := by
  cases s; simp only at h; subst h; rfl

/-- One write, with and without a fault. -/
theorem storeWrite_faults {E : Env} {s s2 : Store} {d : Bytes} (h : SOk s) (h0 : s.faults = [])
    (e : storeWrite E s d = .ok (s2, true)) :
    Clean s s2 ∧ s2.slab = s.slab ∧ ∀ fs, (∃ fs', storeWrite E (s.withF fs) d = .ok (s2.withF fs', true)) ∨
      ∃ s', storeWrite E (s.withF fs) d = .ok (s', false) ∧ s'.slab = s.slab ∧ Broke s s2 s' := by
  obtain ⟨i, l, ef, hil, hc⟩ := h.files_snoc
  have hidx := h.idx
  rw [← Store.withF_self h0] at e
  by_cases hroll : s.curSize + d.length > E.cfg.maxFile
  · -- a new file
    rw [storeWrite_roll [] hroll hidx, if_neg (by simp)] at e
    split at e
    · cases e
    · next hcap =>
      rw [if_neg (by simp)] at e
      have e1 : ∀ x, appendFile (s.files ++ [[]]) (s.index + 1) x = s.files ++ [x] := by
        intro x; rw [appendFile_snoc _ _ _ _ (by omega)]; simp
      have e2 : (s.files ++ [d]).getD s.index [] = d := by
        rw [List.getD_eq_getElem?_getD, List.getElem?_append_right (by omega)]
        simp [hidx]
      have hs2 : s2 = { s with files := s.files ++ [d], index := s.index + 1, curSize := d.length, faults := [], io := if d.length = 0 then .sync s.index :: .create (s.index + 1) :: s.io else .append (s.index + 1) d :: .sync s.index :: .create (s.index + 1) :: s.io } := by
        unfold wrBytes at e
        simp only [e1, List.head?_nil, Option.join_none, List.tail_nil, Nat.zero_add] at e
        split at e
        · next hd => cases e; have := List.length_eq_zero_iff.1 hd; subst this; rfl
        · next hd => cases e; rw [if_neg hd]
      have hx : FExt s.files s2.files := by rw [hs2]; simp only; rw [ef]; exact fext_snoc_new _ _ _
      have hnew : ∀ x, FExt s.files (s.files ++ [x]) := by intro x; rw [ef]; exact fext_snoc_new _ _ _
      refine ⟨⟨?_, by rw [hs2], hx, by rw [hs2]; exact ⟨rfl, rfl, rfl, rfl⟩⟩, by rw [hs2], ?_⟩
      · rw [hs2]; exact ⟨by simp, by simp [hidx], by simp only [Nat.add_sub_cancel, e2]⟩
      · intro fs
        rw [storeWrite_roll fs hroll hidx]
        by_cases ho : fs.head?.join = some .openFail
        · right
          rw [if_pos ho]
          exact ⟨_, rfl, rfl, ⟨FExt.refl _, hx, ⟨rfl, rfl, rfl, rfl⟩, fun p d hp => hp⟩⟩
        · rw [if_neg ho, if_neg hcap]
          by_cases hsy : fs.head?.join = some .syncFail
          · right
            rw [if_pos hsy]
            refine ⟨_, rfl, rfl, ⟨hnew _, ?_, ⟨rfl, rfl, rfl, rfl⟩, rd_grow h (hnew _) (Or.inl ⟨rfl, Nat.le_refl _⟩)⟩⟩
            rw [hs2]
            exact Or.inr ⟨s.files, [], d, [], rfl, by simp⟩
          · rw [if_neg hsy]
            unfold wrBytes
            simp only [e1, Nat.zero_add]
            split
            · next hd =>
              left
              have := List.length_eq_zero_iff.1 hd
              subst this
              exact ⟨fs.tail, by rw [hs2]; rfl⟩
            · next hd =>
              split
              · next k hk =>
                right
                refine ⟨_, rfl, rfl, ⟨hnew _, ?_, ⟨rfl, rfl, rfl, rfl⟩, rd_grow h (hnew _) (Or.inr rfl)⟩⟩
                rw [hs2]; simp only
                have := fext_take s.files [] d k
                simpa using this
              · right
                refine ⟨_, rfl, rfl, ⟨hnew _, ?_, ⟨rfl, rfl, rfl, rfl⟩, rd_grow h (hnew _) (Or.inr rfl)⟩⟩
                rw [hs2]; exact FExt.refl _
              · left
                exact ⟨fs.tail, by rw [hs2]; simp only [if_neg hd, Store.withF]⟩
  · rw [storeWrite_fit [] hroll] at e
    have e1 : ∀ x, appendFile s.files s.index x = i ++ [l ++ x] := by
      intro x; rw [ef, appendFile_snoc i l x _ hil]
    have e2 : ∀ x, (i ++ [x]).getD (s.index - 1) [] = x := by
      intro x
      rw [List.getD_eq_getElem?_getD, List.getElem?_append_right (by omega)]
      have : s.index - 1 - i.length = 0 := by omega
      simp [this]
    have hs2 : s2 = { s with files := i ++ [l ++ d], curSize := s.curSize + d.length, faults := [], io := if d.length = 0 then s.io else .append s.index d :: s.io } := by
      unfold wrBytes at e
      simp only [Store.withF, e1, List.head?_nil, Option.join_none, List.tail_nil] at e
      split at e
      · next hd => cases e; have := List.length_eq_zero_iff.1 hd; subst this; simp [← ef]
      · next hd => cases e; rw [if_neg hd]
    have hx : FExt s.files s2.files := by rw [hs2]; simp only; rw [ef]; exact fext_snoc_append _ _ _
    have hnew : ∀ x, FExt s.files (i ++ [l ++ x]) := by intro x; rw [ef]; exact fext_snoc_append _ _ _
    refine ⟨⟨?_, by rw [hs2], hx, by rw [hs2]; exact ⟨rfl, rfl, rfl, rfl⟩⟩, by rw [hs2], ?_⟩
    · rw [hs2]; exact ⟨h.pos, by simp; omega, by simp only [e2]; simp [hc]⟩
    · intro fs
      rw [storeWrite_fit fs hroll]
      unfold wrBytes
      simp only [Store.withF, e1]
      split
      · next hd =>
        left
        have := List.length_eq_zero_iff.1 hd
        subst this
        exact ⟨fs.tail, by rw [hs2]; simp [← ef]⟩
      · next hd =>
        split
        · next k hk =>
          right
          refine ⟨_, rfl, rfl, ⟨hnew _, ?_, ⟨rfl, rfl, rfl, rfl⟩, rd_grow h (hnew _) (Or.inl ⟨rfl, Nat.le_refl _⟩)⟩⟩
          rw [hs2]; exact fext_take _ _ _ _
        · right
          refine ⟨_, rfl, rfl, ⟨hnew _, ?_, ⟨rfl, rfl, rfl, rfl⟩, rd_grow h (hnew _) (Or.inl ⟨rfl, by simp⟩)⟩⟩
          rw [hs2]; exact FExt.refl _
        · left
          exact ⟨fs.tail, by rw [hs2]; simp only [if_neg hd]⟩

theorem flushLoop_faults {E : Env} {lens : List Nat} {data : Bytes} {i : Nat} {s s2 : Store} (h : SOk s) (h0 : s.faults = [])
    (e : flushLoop E lens data i s = .ok (s2, none)) :
    Clean s s2 ∧ s2.slab = s.slab ∧ ∀ fs, (∃ fs', flushLoop E lens data i (s.withF fs) = .ok (s2.withF fs', none)) ∨
      ∃ s' j, flushLoop E lens data i (s.withF fs) = .ok (s', some j) ∧ Broke s s2 s' := by
  induction lens generalizing data i s with
  | nil =>
    cases e
    exact ⟨⟨h, h0, FExt.refl _, SameMeta.refl _⟩, rfl, fun fs => Or.inl ⟨fs, rfl⟩⟩
  | cons len lens ih =>
    rw [flushLoop] at e
    obtain ⟨⟨s1, ok⟩, e1, e⟩ := Res.bind_eq_ok.1 e
    simp only at e
    cases ok with
    | false => rw [if_neg (by simp)] at e; cases e
    | true =>
      rw [if_pos rfl] at e
      obtain ⟨c1, sl1, f1⟩ := storeWrite_faults h h0 e1
      obtain ⟨c2, sl2, f2⟩ := ih c1.sok c1.faults e
      refine ⟨c1.trans c2, sl2.trans sl1, fun fs => ?_⟩
      rw [flushLoop]
      rcases f1 fs with ⟨fs', a⟩ | ⟨s', a, _, b⟩
      · rw [a]
        simp only [Res.bind_ok, if_true]
        rcases f2 fs' with a | ⟨s', j, a, b⟩
        · exact Or.inl a
        · exact Or.inr ⟨s', j, a, b.before h c1⟩
      · right
        rw [a]
        exact ⟨s', i, rfl, b.after c2⟩

theorem Broke.slab {s s2 s' : Store} (sl : Slab) (h : Broke s s2 s') : Broke s s2 { s' with slab := sl } :=
  ⟨h.from_old, h.to_new, h.same, h.rd⟩

theorem storeFlush_faults {E : Env} {s s2 : Store} (h : SOk s) (h0 : s.faults = []) (e : storeFlush E s = .ok (s2, true)) :
    Clean s s2 ∧ ∀ fs, (∃ fs', storeFlush E (s.withF fs) = .ok (s2.withF fs', true)) ∨
      ∃ s', storeFlush E (s.withF fs) = .ok (s', false) ∧ Broke s s2 s' := by
  unfold storeFlush at e
  simp only at e
  split at e
  · cases e
  · next hg =>
    obtain ⟨⟨s1, r⟩, e1, e⟩ := Res.bind_eq_ok.1 e
    cases r with
    | some j => cases e
    | none =>
      cases e
      obtain ⟨c, sl, f⟩ := flushLoop_faults h h0 e1
      refine ⟨⟨⟨c.sok.pos, c.sok.idx, c.sok.cur⟩, c.faults, c.ext, c.same⟩, fun fs => ?_⟩
      unfold storeFlush
      simp only [Store.withF]
      rcases f fs with ⟨fs', a⟩ | ⟨s', j, a, b⟩
      · left
        simp only [Store.withF] at a
        exact ⟨fs', (if_neg hg).trans (by rw [a]; rfl)⟩
      · right
        simp only [Store.withF] at a
        rw [a]
        exact ⟨_, if_neg hg, ⟨b.from_old, b.to_new, b.same, b.rd⟩⟩

/-- A step that fails cleanly. -/
def Crashes {α : Type} (F : Store → Res (Store × Option α)) : Prop :=
  ∀ s s2 a, SOk s → s.faults = [] → F s = .ok (s2, some a) →
    Clean s s2 ∧ ∀ fs, (∃ fs', F (s.withF fs) = .ok (s2.withF fs', some a)) ∨
      ∃ s', F (s.withF fs) = .ok (s', none) ∧ Broke s s2 s'

theorem flushAndHash_faults {E : Env} {n : Node} {wrote : Bool} : Crashes (fun s => flushAndHash E s n wrote) := by
  intro s s2 a h h0 e
  have e : flushAndHash E s n wrote = .ok (s2, some a) := e
  unfold flushAndHash at e
  have hn : ∀ fs, needsFlush E (s.withF fs) = needsFlush E s := fun _ => rfl
  by_cases hw : (wrote && needsFlush E s) = true
  · rw [if_pos hw] at e
    obtain ⟨⟨s1, ok⟩, e1, e⟩ := Res.bind_eq_ok.1 e
    cases ok with
    | false => cases e
    | true =>
      simp only [Bool.not_true, Bool.false_eq_true, if_false] at e
      obtain ⟨⟨x, n2⟩, en, e⟩ := Res.bind_eq_ok.1 e
      obtain ⟨o, eo, e⟩ := Res.bind_eq_ok.1 e
      cases e
      obtain ⟨c, f⟩ := storeFlush_faults h h0 e1
      refine ⟨c, fun fs => ?_⟩
      simp only [flushAndHash, hn]
      rw [if_pos hw]
      rcases f fs with ⟨fs', a⟩ | ⟨s', a, b⟩
      · left
        refine ⟨fs', ?_⟩
        rw [a]
        simp only [Res.bind_ok, Bool.not_true, Bool.false_eq_true, if_false, en]
        rw [eo]; rfl
      · right
        refine ⟨s', ?_, b⟩
        rw [a]; rfl
  · rw [if_neg hw] at e
    simp only [Res.pure_eq, Res.bind_ok, Bool.not_true, Bool.false_eq_true, if_false] at e
    obtain ⟨⟨x, n2⟩, en, e⟩ := Res.bind_eq_ok.1 e
    obtain ⟨o, eo, e⟩ := Res.bind_eq_ok.1 e
    cases e
    refine ⟨⟨h, h0, FExt.refl _, SameMeta.refl _⟩, fun fs => Or.inl ⟨fs, ?_⟩⟩
    simp only [flushAndHash, hn]
    rw [if_neg hw]
    simp only [Res.pure_eq, Res.bind_ok, Bool.not_true, Bool.false_eq_true, if_false, en]
    rw [eo]; rfl

theorem storeWriteNode_faults {E : Env} {s s2 : Store} {n n2 : Node} (h : SOk s) (h0 : s.faults = [])
    (e : storeWriteNode E s n = .ok (s2, n2)) :
    Clean s s2 ∧ ∀ fs, storeWriteNode E (s.withF fs) n = .ok (s2.withF fs, n2) := by
  unfold storeWriteNode at e
  obtain ⟨raw, e1, e⟩ := Res.bind_eq_ok.1 e
  split at e
  · obtain ⟨sl, e2, e⟩ := Res.bind_eq_ok.1 e
    cases e
    refine ⟨⟨⟨h.pos, h.idx, h.cur⟩, h0, FExt.refl _, SameMeta.refl _⟩, fun fs => ?_⟩
    unfold storeWriteNode
    rw [e1, Res.bind_ok]
    have e2' : slabWrite E (s.withF fs).slab raw = .ok sl := e2
    simp only [e2', Res.bind_ok]; rfl
  · obtain ⟨sl, e2, e⟩ := Res.bind_eq_ok.1 e
    cases e
    refine ⟨⟨⟨h.pos, h.idx, h.cur⟩, h0, FExt.refl _, SameMeta.refl _⟩, fun fs => ?_⟩
    unfold storeWriteNode
    rw [e1, Res.bind_ok]
    have e2' : slabWrite E (s.withF fs).slab raw = .ok sl := e2
    simp only [e2', Res.bind_ok]; rfl
  · cases e

theorem storeWriteValue_faults {E : Env} {s s2 : Store} {n n2 : Node} (h : SOk s) (h0 : s.faults = [])
    (e : storeWriteValue E s n = .ok (s2, n2)) :
    Clean s s2 ∧ ∀ fs, storeWriteValue E (s.withF fs) n = .ok (s2.withF fs, n2) := by
  unfold storeWriteValue at e
  split at e
  · obtain ⟨sl, e2, e⟩ := Res.bind_eq_ok.1 e
    cases e
    refine ⟨⟨⟨h.pos, h.idx, h.cur⟩, h0, FExt.refl _, SameMeta.refl _⟩, fun fs => ?_⟩
    unfold storeWriteValue
    have e2' : ∀ v, slabWrite E (s.withF fs).slab v = slabWrite E s.slab v := fun _ => rfl
    simp only [e2', e2, Res.bind_ok]; rfl
  · cases e

theorem treeWrite_faults {E : Env} (n : Node) : Crashes (treeWrite E n) := by
  induction n with
  | null =>
    intro s s2 a h h0 e
    cases e
    exact ⟨⟨h, h0, FExt.refl _, SameMeta.refl _⟩, fun fs => Or.inl ⟨fs, rfl⟩⟩
  | hash hh p =>
    intro s s2 a h h0 e
    cases e
    exact ⟨⟨h, h0, FExt.refl _, SameMeta.refl _⟩, fun fs => Or.inl ⟨fs, rfl⟩⟩
  | leaf hh p k v vp =>
    intro s s2 a h h0 e
    cases p with
    | some p => exact flushAndHash_faults (n := .leaf hh (some p) k v vp) (wrote := false) s s2 a h h0 e
    | none =>
      simp only [treeWrite] at e
      obtain ⟨⟨s1, n1⟩, e1, e⟩ := Res.bind_eq_ok.1 e
      simp only at e
      obtain ⟨⟨s3, n3⟩, e3, e⟩ := Res.bind_eq_ok.1 e
      simp only at e
      obtain ⟨c1, f1⟩ := storeWriteValue_faults h h0 e1
      obtain ⟨c3, f3⟩ := storeWriteNode_faults c1.sok c1.faults e3
      obtain ⟨c4, f4⟩ := flushAndHash_faults s3 s2 a c3.sok c3.faults e
      refine ⟨(c1.trans c3).trans c4, fun fs => ?_⟩
      simp only [treeWrite, f1 fs, f3 fs, Res.bind_ok]
      rcases f4 fs with a | ⟨s', a, b⟩
      · exact Or.inl a
      · exact Or.inr ⟨s', a, b.before h (c1.trans c3)⟩
  | internal hh p pre l r ihl ihr =>
    intro s s2 a h h0 e
    simp only [treeWrite] at e
    obtain ⟨⟨s1, l'⟩, e1, e⟩ := Res.bind_eq_ok.1 e
    cases l' with
    | none => cases e
    | some l' =>
      simp only at e
      obtain ⟨⟨s3, r'⟩, e3, e⟩ := Res.bind_eq_ok.1 e
      cases r' with
      | none => cases e
      | some r' =>
        simp only at e
        obtain ⟨c1, f1⟩ := ihl s s1 l' h h0 e1
        obtain ⟨c3, f3⟩ := ihr s1 s3 r' c1.sok c1.faults e3
        have hend : ∃ K : Store → Res (Store × Option Node), Crashes K ∧ K s3 = .ok (s2, some a) ∧
            ∀ fs fs' x, treeWrite E l (s.withF fs) = .ok (s1.withF fs', some l') → treeWrite E r (s1.withF fs') = .ok (x, some r') →
              treeWrite E (.internal hh p pre l r) (s.withF fs) = K x := by
          cases p with
          | some p =>
            exact ⟨_, flushAndHash_faults, e, fun fs fs' x a b => by simp only [treeWrite, a, b, Res.bind_ok]⟩
          | none =>
            refine ⟨fun x => do
              let (x, n) ← storeWriteNode E x (.internal hh none pre l' r')
              flushAndHash E x n true, ?_, e, fun fs fs' x a b => by simp only [treeWrite, a, b, Res.bind_ok]⟩
            intro s s2 a h h0 e
            obtain ⟨⟨s1, n1⟩, e1, e⟩ := Res.bind_eq_ok.1 e
            simp only at e
            obtain ⟨c1, f1⟩ := storeWriteNode_faults h h0 e1
            obtain ⟨c4, f4⟩ := flushAndHash_faults s1 s2 a c1.sok c1.faults e
            refine ⟨c1.trans c4, fun fs => ?_⟩
            simp only [f1 fs, Res.bind_ok]
            rcases f4 fs with a | ⟨s', a, b⟩
            · exact Or.inl a
            · exact Or.inr ⟨s', a, b.before h c1⟩
        obtain ⟨K, hK, eK, tie⟩ := hend
        obtain ⟨c4, f4⟩ := hK s3 s2 a c3.sok c3.faults eK
        refine ⟨(c1.trans c3).trans c4, fun fs => ?_⟩
        rcases f1 fs with ⟨fs', a1⟩ | ⟨s', a1, b1⟩
        · rcases f3 fs' with ⟨fs'', a2⟩ | ⟨s', a2, b2⟩
          · rw [tie fs fs' _ a1 a2]
            rcases f4 fs'' with a | ⟨s', a, b⟩
            · exact Or.inl a
            · exact Or.inr ⟨s', a, b.before h (c1.trans c3)⟩
          · right
            refine ⟨s', ?_, (b2.before h c1).after c4⟩
            simp only [treeWrite, a1, a2, Res.bind_ok, Res.pure_eq]
        · right
          refine ⟨s', ?_, b1.after (c3.trans c4)⟩
          simp only [treeWrite, a1, Res.bind_ok, Res.pure_eq]

/-- The flush and the sync at the end of a commit. -/
theorem flushSync_faults {E : Env} {s s2 : Store} (h : SOk s) (h0 : s.faults = []) (e : flushSync E s = .ok (s2, true)) :
    Clean s s2 ∧ ∀ fs, (∃ fs', flushSync E (s.withF fs) = .ok (s2.withF fs', true)) ∨
      ∃ s', flushSync E (s.withF fs) = .ok (s', false) ∧ Broke s s2 s' := by
  unfold flushSync at e
  obtain ⟨⟨s1, ok⟩, e1, e⟩ := Res.bind_eq_ok.1 e
  cases ok with
  | false => cases e
  | true =>
    obtain ⟨c, f⟩ := storeFlush_faults h h0 e1
    simp only [if_true] at e
    have cs : ∃ io, s2 = { s1 with io := io } := by
      obtain ⟨io, x⟩ := commitSync_ok (E := E) c.faults
      rw [x] at e; cases e; exact ⟨io, rfl⟩
    have cl : Clean s s2 := by
      obtain ⟨io, rfl⟩ := cs
      exact ⟨⟨c.sok.pos, c.sok.idx, c.sok.cur⟩, c.faults, c.ext, c.same⟩
    refine ⟨cl, fun fs => ?_⟩
    rcases f fs with ⟨fs', a⟩ | ⟨s', a, b⟩
    · unfold flushSync
      simp only [a, Res.bind_ok, if_true]
      have hc : commitSync E s1 = (s2, true) := by injection e
      unfold commitSync at hc ⊢
      by_cases hy : E.cfg.fsync = true
      · rw [if_pos hy] at hc
        rw [if_pos hy]
        rw [if_neg (by rw [c.faults]; simp)] at hc
        cases hc
        by_cases hf : fs'.head?.join = some .syncFail
        · right
          rw [if_pos (show (s1.withF fs').faults.head?.join = some .syncFail from hf)]
          have hrd : Rd.Le s.rd s1.rd := c.rd h
          exact ⟨_, rfl, ⟨c.ext, FExt.refl _, c.same, hrd⟩⟩
        · left
          rw [if_neg (show ¬ (s1.withF fs').faults.head?.join = some .syncFail from hf)]
          exact ⟨fs'.tail, rfl⟩
      · rw [if_neg hy] at hc
        rw [if_neg hy]
        cases hc
        exact Or.inl ⟨fs', rfl⟩
    · right
      refine ⟨s', by unfold flushSync; simp only [a, Res.bind_ok]; rfl, ?_⟩
      obtain ⟨io, rfl⟩ := cs
      exact ⟨b.from_old, b.to_new, b.same, b.rd⟩

/-- The flush at the end of a commit. -/
theorem storeCommit_faults {E : Env} {s s2 : Store} {root : Node} (h : SOk s) (h0 : s.faults = [])
    (e : storeCommit E s root = .ok (s2, true)) :
    SOk s2 ∧ s2.faults = [] ∧ FExt s.files s2.files ∧
    ∀ fs, (∃ fs', storeCommit E (s.withF fs) root = .ok (s2.withF fs', true)) ∨
      ∃ s', storeCommit E (s.withF fs) root = .ok (s', false) ∧ Broke s s2 s' := by
  unfold storeCommit at e
  obtain ⟨⟨s1, st⟩, e1, e⟩ := Res.bind_eq_ok.1 e
  simp only at e
  obtain ⟨⟨s3, ok⟩, e3, e⟩ := Res.bind_eq_ok.1 e
  have w : Clean s s1 ∧ ∀ fs, storeWriteMeta E (s.withF fs) root = .ok (s1.withF fs, st) := by
    unfold storeWriteMeta at e1
    obtain ⟨rp, a1, e1⟩ := Res.bind_eq_ok.1 e1
    obtain ⟨rn, a2, e1⟩ := Res.bind_eq_ok.1 e1
    obtain ⟨sl, a3, e1⟩ := Res.bind_eq_ok.1 e1
    obtain ⟨sl2, a4, e1⟩ := Res.bind_eq_ok.1 e1
    cases e1
    refine ⟨⟨⟨h.pos, h.idx, h.cur⟩, h0, FExt.refl _, SameMeta.refl _⟩, fun fs => ?_⟩
    have a3' : padSlab E (s.withF fs).slab = .ok sl := a3
    have a4' : slabWrite E sl (metaWrite E (s.withF fs).key { (s.withF fs).state with rootPtr := rp, rootNode := rn }) = .ok sl2 := a4
    simp only [storeWriteMeta, a1, a2, a3', Res.bind_ok, a4']
    rfl
  obtain ⟨c1, f1⟩ := w
  cases ok with
  | false => cases e
  | true =>
    cases e
    obtain ⟨c3, f3⟩ := flushSync_faults c1.sok c1.faults e3
    refine ⟨⟨c3.sok.pos, c3.sok.idx, c3.sok.cur⟩, c3.faults, c1.ext.trans c3.ext, fun fs => ?_⟩
    unfold storeCommit
    rw [f1 fs]
    simp only [Res.bind_ok]
    rcases f3 fs with ⟨fs', a⟩ | ⟨s', a, b⟩
    · left
      exact ⟨fs', by rw [a]; rfl⟩
    · right
      refine ⟨s', by rw [a]; rfl, ?_⟩
      have b := b.before h c1
      exact ⟨b.from_old, b.to_new, b.same, b.rd⟩

/-- A commit that would succeed either succeeds in the same way or fails and
leaves a prefix of the bytes it would have written. -/
theorem txCommit_faults {E : Env} {db db2 : Db} {tx tx2 : Tx} (h : SOk db.store) (h0 : db.store.faults = [])
    (e : txCommit E db tx = .ok (db2, tx2, .ok ())) (fs : List (Option Fault)) :
    (∃ fs', txCommit E { db with store := db.store.withF fs } tx = .ok ({ db2 with store := db2.store.withF fs' }, tx2, .ok ())) ∨
    ∃ s', txCommit E { db with store := db.store.withF fs } tx = .ok ({ db with store := s' }, ⟨none⟩, .error .EBADWRITE) ∧
      Broke db.store db2.store s' := by
  unfold txCommit at e
  obtain ⟨n, en, e⟩ := Res.bind_eq_ok.1 e
  obtain ⟨⟨s1, r⟩, e1, e⟩ := Res.bind_eq_ok.1 e
  cases r with
  | none => cases e
  | some root =>
    simp only at e
    obtain ⟨⟨s2, ok⟩, e2, e⟩ := Res.bind_eq_ok.1 e
    cases ok with
    | false => cases e
    | true =>
      cases e
      obtain ⟨c1, f1⟩ := treeWrite_faults n db.store s1 root h h0 e1
      obtain ⟨o2, z2, x2, f2⟩ := storeCommit_faults c1.sok c1.faults e2
      unfold txCommit
      simp only [en, Res.bind_ok]
      rcases f1 fs with ⟨fs', a⟩ | ⟨s', a, b⟩
      · rw [a]
        simp only [Res.bind_ok]
        rcases f2 fs' with ⟨fs'', a2⟩ | ⟨s', a2, b2⟩
        · left
          exact ⟨fs'', by rw [a2]; rfl⟩
        · right
          refine ⟨s', by rw [a2]; rfl, b2.before h c1⟩
      · right
        refine ⟨s', by rw [a]; rfl, b.from_old, b.to_new.trans x2, b.same, b.rd⟩

/-- What can be read stays readable. -/
theorem RInv.broke {E : Env} {s s2 s' : Store} {hist : List PTree} (h : RInv E s hist) (hb : Broke s s2 s') : RInv E s' hist := by
  obtain ⟨k1, k2, k3, k4⟩ := hb.same
  refine ⟨h.top, h.vals, by rw [k3]; exact h.root.mono hb.rd, ?_, ?_, ?_⟩
  · intro x p hm
    rw [k2] at hm
    obtain ⟨t, a, b, c⟩ := h.cache x p hm
    exact ⟨t, a, b, c.mono hb.rd⟩
  · obtain ⟨newer, older, a, b, c⟩ := h.last
    rw [k1, k2, k4]
    exact ⟨newer, older, a, b.mono hb.rd, c⟩
  · refine Nat.le_trans h.count ?_
    rcases hb.from_old with e | ⟨i, l, junk, extra, e1, e2⟩
    · rw [e]; exact Nat.le_refl _
    · rw [e1, e2]
      simp only [totalBytes, List.map_append, List.sum_append, List.map_cons, List.map_nil, List.sum_cons, List.sum_nil,
        List.length_append]
      omega

end Urkel
