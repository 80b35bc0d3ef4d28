import Verif.Model.FileMap
import Mathlib.Data.List.Nodup
import Mathlib.Data.List.Perm.Basic
/-
C40: open file handles are bounded and eviction is safe.
-/
namespace Urkel

/-- The handles in the table. -/
def Handles.live (s : Handles) : List Nat := s.items.filterMap id

/-- Handles are accounted for: the counter is the number of handles in the table, no
handle is in it twice, a handle is either in the table or closed, and no handle is
closed twice. -/
structure Handles.Tidy (s : Handles) : Prop where
  size : s.size = s.live.length
  nodup : (s.live ++ s.closed).Nodup
  all : ∀ f, f < s.fresh ↔ f ∈ s.live ++ s.closed

/-- The file being appended to is open, in its slot, and slot 0 is empty. -/
structure Handles.Current (s : Handles) : Prop where
  pos : 1 ≤ s.index
  cur : ∃ f, s.current = some f ∧ fmLookup s s.index = some f
  zero : fmLookup s 0 = none

theorem live_set_none : ∀ {l : List (Option Nat)} {i f : Nat}, l[i]?.join = some f → (l.filterMap id).Perm (f :: (l.set i none).filterMap id)
  | [], _, _, h => by simp at h
  | o :: l, 0, f, h => by
    simp at h; subst h
    simp
  | o :: l, i + 1, f, h => by
    have ih := live_set_none (l := l) (i := i) (f := f) (by simpa using h)
    cases o with
    | none => simpa using ih
    | some g =>
      simp only [List.set_cons_succ, List.filterMap_cons, id]
      exact (ih.cons g).trans (List.Perm.swap f g _)

theorem live_set_some : ∀ {l : List (Option Nat)} {i f : Nat}, i < l.length → l[i]?.join = none →
    ((l.set i (some f)).filterMap id).Perm (f :: l.filterMap id)
  | [], _, _, h, _ => by simp at h
  | o :: l, 0, f, _, h => by
    simp at h; subst h
    simp
  | o :: l, i + 1, f, hl, h => by
    have ih := live_set_some (l := l) (i := i) (f := f) (by simpa using hl) (by simpa using h)
    cases o with
    | none => simpa using ih
    | some g =>
      simp only [List.set_cons_succ, List.filterMap_cons, id]
      exact (ih.cons g).trans (List.Perm.swap f g _)

theorem lookup_set {l : List (Option Nat)} {i j : Nat} {o : Option Nat} :
    (l.set i o)[j]?.join = if i = j ∧ i < l.length then o else l[j]?.join := by
  rw [List.getElem?_set]
  by_cases h : i = j
  · subst h
    by_cases hl : i < l.length
    · simp [hl]
    · simp [hl]
  · simp [h]

/-- How many files the eviction loop may choose from. -/
def choices (index : Nat) : List (Option Nat) → Nat → Nat
  | [], _ => 0
  | none :: rest, i => choices index rest (i + 1)
  | some _ :: rest, i => (if i = index then 0 else 1) + choices index rest (i + 1)

theorem evictPick_some (index : Nat) : ∀ (l : List (Option Nat)) (i tries : Nat), tries < choices index l i →
    ∃ j, evictPick index l i tries = some j ∧ i ≤ j ∧ j ≠ index ∧ ∃ f, l[j - i]?.join = some f
  | [], _, _, h => by simp [choices] at h
  | none :: l, i, tries, h => by
    obtain ⟨j, e, h1, h2, f, h3⟩ := evictPick_some index l (i + 1) tries h
    refine ⟨j, e, by omega, h2, f, ?_⟩
    rw [show j - i = (j - (i + 1)) + 1 by omega]; simpa using h3
  | some g :: l, i, tries, h => by
    rw [choices] at h
    rw [evictPick]
    split
    · next hi =>
      rw [if_pos hi] at h
      obtain ⟨j, e, h1, h2, f, h3⟩ := evictPick_some index l (i + 1) tries (by omega)
      refine ⟨j, e, by omega, h2, f, ?_⟩
      rw [show j - i = (j - (i + 1)) + 1 by omega]; simpa using h3
    · next hi =>
      rw [if_neg hi] at h
      split
      · exact ⟨i, rfl, Nat.le_refl _, hi, g, by simp⟩
      · obtain ⟨j, e, h1, h2, f, h3⟩ := evictPick_some index l (i + 1) (tries - 1) (by omega)
        refine ⟨j, e, by omega, h2, f, ?_⟩
        rw [show j - i = (j - (i + 1)) + 1 by omega]; simpa using h3

theorem choices_eq (index : Nat) : ∀ (l : List (Option Nat)) (i : Nat),
    choices index l i + (if i ≤ index ∧ (l[index - i]?.join).isSome then 1 else 0) = (l.filterMap id).length
  | [], i => by simp [choices]
  | o :: l, i => by
    have ih := choices_eq index l (i + 1)
    by_cases hi : i = index
    · subst hi
      have hn : ¬ (i + 1 ≤ i ∧ (l[i - (i + 1)]?.join).isSome = true) := by omega
      rw [if_neg hn] at ih
      cases o with
      | none =>
        rw [if_neg (by simp), choices, List.filterMap_cons]
        simpa using ih
      | some g =>
        rw [if_pos (by simp), choices, if_pos rfl, List.filterMap_cons]
        simp only [id, List.length_cons]
        have : (l.filterMap fun x => x) = l.filterMap id := rfl
        rw [this]; omega
    · have : (i ≤ index ∧ ((o :: l)[index - i]?.join).isSome = true) ↔ (i + 1 ≤ index ∧ (l[index - (i + 1)]?.join).isSome = true) := by
        by_cases hle : i + 1 ≤ index
        · rw [show index - i = (index - (i + 1)) + 1 by omega]
          simp [hle]; omega
        · constructor <;> rintro ⟨a, _⟩ <;> omega
      simp only [this]
      cases o with
      | none => simp only [choices]; simpa using ih
      | some g => 
        simp only [choices, hi, if_false, List.filterMap_cons, id, List.length_cons]
        have : (l.filterMap fun x => x) = l.filterMap id := rfl
        rw [this]; omega

/-- Closing a file that is not the current one. -/
theorem closeFile_other {s : Handles} (ht : s.Tidy) (hc : s.Current) {i f : Nat} (hi : fmLookup s i = some f) (hne : i ≠ s.index) :
    ∃ s', closeFile s i = .ok s' ∧ s'.Tidy ∧ s'.Current ∧ s'.size + 1 = s.size ∧ s'.index = s.index ∧ s'.current = s.current ∧
      s'.closed = f :: s.closed ∧ s'.fresh = s.fresh ∧ s'.items.length = s.items.length ∧
      (∀ j, j ≠ i → fmLookup s' j = fmLookup s j) := by
  have hp := live_set_none hi
  have hlen := hp.length_eq
  simp only [List.length_cons] at hlen
  have hsz := ht.size
  unfold Handles.live at hsz
  obtain ⟨c, hcur, hcl⟩ := hc.cur
  have hd : (s.live).Nodup := (List.nodup_append.1 ht.nodup).1
  have hcf : c ≠ f := by
    rintro rfl
    -- the same handle in two slots
    have hp2 := hp.nodup_iff.1 hd
    have hm : c ∈ (s.items.set i none).filterMap id := by
      have : (s.items.set i none)[s.index]?.join = some c := by
        rw [lookup_set, if_neg (by rintro ⟨h, _⟩; exact hne h)]; exact hcl
      refine List.mem_filterMap.2 ⟨some c, ?_, rfl⟩
      cases e : (s.items.set i none)[s.index]? with
      | none => rw [e] at this; simp at this
      | some o => rw [e] at this; simp at this; subst this; exact List.mem_of_getElem? e
    exact (List.nodup_cons.1 hp2).1 hm
  have e1 : fmRemove s i = .ok ({ s with items := s.items.set i none, size := s.size - 1 }, some f) := by
    unfold fmRemove
    have : s.items[i]?.join = some f := hi
    rw [this]
    simp only
    rw [if_neg (by omega)]
  refine ⟨_, by rw [closeFile, e1, Res.bind_ok]; simp only [Res.pure_eq]; rfl, ?_⟩
  have hc2 : ¬ (s.current = some f) := by rw [hcur]; simpa using hcf
  rw [if_neg hc2]
  have hlook : ∀ j, j ≠ i → fmLookup { s with items := s.items.set i none, size := s.size - 1, closed := f :: s.closed } j = fmLookup s j := by
    intro j hj
    simp only [fmLookup]
    rw [lookup_set, if_neg (by rintro ⟨h, _⟩; exact hj h.symm)]
  refine ⟨⟨?_, ?_, ?_⟩, ⟨hc.pos, ⟨c, hcur, ?_⟩, ?_⟩, ?_, rfl, rfl, rfl, rfl, by simp, hlook⟩
  · simp only [Handles.live]; omega
  · simp only [Handles.live]
    have := (List.Perm.append_right s.closed hp).nodup_iff.1 ht.nodup
    exact ((List.perm_middle (l₁ := (s.items.set i none).filterMap id)).nodup_iff).2 this
  · intro g
    rw [ht.all g]
    have := (List.Perm.append_right s.closed hp).mem_iff (a := g)
    unfold Handles.live
    rw [this]
    exact ((List.perm_middle (l₁ := (s.items.set i none).filterMap id)).mem_iff (a := g)).symm
  · rw [← hcl]; exact hlook _ (by simpa using hne.symm)
  · by_cases h0 : i = 0
    · subst h0; rw [hc.zero] at hi; cases hi
    · exact (hlook 0 (fun h => h0 h.symm)).trans hc.zero
  · simp only; omega

theorem evict_ok : ∀ (fuel : Nat) {s : Handles}, s.Tidy → s.Current → s.size < fuel →
    ∃ s', evict fuel s = .ok s' ∧ s'.Tidy ∧ s'.Current ∧ s'.size ≤ maxOpenFiles ∧ s'.index = s.index ∧ s'.current = s.current ∧
      s'.fresh = s.fresh ∧ s'.items.length = s.items.length ∧ (∀ f, fmLookup s s.index = some f → f ∉ s'.closed) ∧
      (∀ j, fmLookup s j = none → fmLookup s' j = none) ∧ s.closed <:+ s'.closed ∧ (s.size ≤ maxOpenFiles → s' = s) := by
  intro fuel
  induction fuel with
  | zero => intro s _ _ h; omega
  | succ fuel ih =>
    intro s ht hc hf
    rw [evict]
    have live_cur : ∀ f, fmLookup s s.index = some f → f ∉ s.closed := by
      intro f hf hm
      have hin : f ∈ s.live := by
        refine List.mem_filterMap.2 ⟨some f, ?_, rfl⟩
        unfold fmLookup at hf
        cases e : s.items[s.index]? with
        | none => rw [e] at hf; simp at hf
        | some o => rw [e] at hf; simp at hf; subst hf; exact List.mem_of_getElem? e
      exact (List.nodup_append.1 ht.nodup).2.2 f hin f hm rfl
    split
    · next hbig =>
      unfold maxOpenFiles at hbig
      simp only [drawRand]
      -- there is something to choose
      have hch : choices s.index (s.items.drop 1) 1 + 1 = s.size := by
        have h1 := choices_eq s.index (s.items.drop 1) 1
        obtain ⟨c, _, hcl⟩ := hc.cur
        have h2 : (s.items.drop 1)[s.index - 1]?.join = some c := by
          rw [List.getElem?_drop, show 1 + (s.index - 1) = s.index by have := hc.pos; omega]; exact hcl
        rw [if_pos ⟨hc.pos, by rw [h2]; rfl⟩] at h1
        rw [h1, ht.size, Handles.live]
        cases e : s.items with
        | nil => rfl
        | cons o l =>
          have hz := hc.zero
          unfold fmLookup at hz
          rw [e] at hz
          simp at hz
          subst hz
          simp
      obtain ⟨j, e, hj1, hj2, f, hj3⟩ := evictPick_some s.index (s.items.drop 1) 1 (s.rand.headD 0 % (s.size - 1))
        (by have := Nat.mod_lt (s.rand.headD 0) (show 0 < s.size - 1 by omega); omega)
      rw [e]
      simp only
      rw [List.getElem?_drop, show 1 + (j - 1) = j by omega] at hj3
      obtain ⟨s1, e1, ht1, hc1, hs1, hi1, hcu1, hcl1, hfr1, hl1, hlk1⟩ :=
        closeFile_other (s := { s with rand := s.rand.tail }) ⟨ht.size, ht.nodup, ht.all⟩ ⟨hc.pos, hc.cur, hc.zero⟩ hj3 hj2
      rw [e1, Res.bind_ok]
      obtain ⟨s2, e2, ht2, hc2, hs2, hi2, hcu2, hfr2, hl2, hlive, hnone, hsuf, _⟩ := ih ht1 hc1 (by simp only at hs1; omega)
      refine ⟨s2, e2, ht2, hc2, hs2, hi2.trans hi1, hcu2.trans hcu1, hfr2.trans hfr1, hl2.trans hl1, ?_, ?_, ?_, ?_⟩
      · intro g hg
        refine hlive g ?_
        rw [hi1, hlk1 _ (by simpa using hj2.symm)]; exact hg
      · intro k hk
        apply hnone
        by_cases h : k = j
        · subst h
          unfold fmLookup at hk
          rw [hj3] at hk; cases hk
        · rw [hlk1 k h]; exact hk
      · rw [hcl1] at hsuf
        exact (List.suffix_cons _ _).trans hsuf
      · intro h; unfold maxOpenFiles at h; omega
    · next hsmall =>
      exact ⟨s, rfl, ht, hc, by omega, rfl, rfl, rfl, rfl, live_cur, fun _ h => h, List.suffix_refl _, fun _ => rfl⟩

theorem live_grow (l : List (Option Nat)) (n : Nat) : ((l ++ List.replicate n none).filterMap id) = l.filterMap id := by
  rw [List.filterMap_append]
  have : (List.replicate n (none : Option Nat)).filterMap id = [] := by
    induction n with
    | zero => rfl
    | succ n ih => rw [List.replicate_succ, List.filterMap_cons]; exact ih
  rw [this, List.append_nil]

theorem lookup_grow (l : List (Option Nat)) (n j : Nat) : ((l ++ List.replicate n none)[j]?).join = (l[j]?).join := by
  by_cases h : j < l.length
  · rw [List.getElem?_append_left h]
  · rw [List.getElem?_append_right (by omega), List.getElem?_eq_none (l := l) (by omega)]
    cases e : (List.replicate n (none : Option Nat))[j - l.length]? with
    | none => rfl
    | some o =>
      have := List.mem_of_getElem? e
      rw [List.mem_replicate] at this
      rw [this.2]; rfl

/-- Inserting a fresh handle in a free slot. -/
theorem fmInsert_ok {maxFiles : Nat} {s : Handles} {i : Nat} (ht : s.Tidy) (hi : i < maxFiles) (hfree : fmLookup s i = none) :
    ∃ s', fmInsert maxFiles s i s.fresh = .ok s' ∧ Handles.Tidy { s' with fresh := s.fresh + 1 } ∧ s'.index = s.index ∧
      s'.current = s.current ∧ fmLookup s' i = some s.fresh ∧ (∀ j, j ≠ i → fmLookup s' j = fmLookup s j) ∧
      s'.size = s.size + 1 ∧ s'.closed = s.closed := by
  obtain ⟨items, eit, hlen, hlive, hlook⟩ : ∃ items, fmGrow maxFiles s.items i = .ok items ∧ i < items.length ∧
      items.filterMap id = s.items.filterMap id ∧ ∀ j : Nat, (items[j]?).join = (s.items[j]?).join := by
    rw [fmGrow]
    split
    · next h =>
      refine ⟨_, by rw [check_of (by simpa using hi), Res.bind_ok]; rfl, ?_, live_grow _ _, lookup_grow _ _⟩
      simp; omega
    · next h => exact ⟨_, rfl, by omega, rfl, fun _ => rfl⟩
  have hf : (items[i]?).join = none := (hlook i).trans hfree
  have hp := live_set_some (f := s.fresh) hlen hf
  refine ⟨{ s with items := items.set i (some s.fresh), size := s.size + 1 }, ?_, ⟨?_, ?_, ?_⟩, rfl, rfl, ?_, ?_, rfl, rfl⟩
  · rw [fmInsert, eit, Res.bind_ok, hf]; rfl
  · simp only [Handles.live]
    rw [hp.length_eq, hlive, List.length_cons, ht.size]; rfl
  · simp only [Handles.live]
    refine (List.Perm.append_right s.closed hp).nodup_iff.2 ?_
    rw [hlive, List.cons_append, List.nodup_cons]
    refine ⟨fun h => ?_, ht.nodup⟩
    exact Nat.lt_irrefl _ ((ht.all s.fresh).2 h)
  · intro g
    have := (List.Perm.append_right s.closed hp).mem_iff (a := g)
    simp only [Handles.live]
    rw [this, hlive, List.cons_append, List.mem_cons]
    have h := ht.all g
    unfold Handles.live at h
    rw [← h]; omega
  · simp only [fmLookup]; rw [lookup_set, if_pos ⟨rfl, hlen⟩]
  · intro j hj
    simp only [fmLookup]
    rw [lookup_set, if_neg (by rintro ⟨h, _⟩; exact hj h.symm), hlook j]

/-- Opening a file. -/
theorem openFile_ok {maxFiles : Nat} {s : Handles} (ht : s.Tidy) (hc : s.Current) (i : Nat) (write opens : Bool)
    (hmax : s.index + 1 < maxFiles) :
    ∃ s' f, openFile maxFiles s i write opens = .ok (s', f) ∧ s'.Tidy ∧ s'.Current ∧ s'.index = s.index ∧ s'.current = s.current ∧
      (∀ g, f = some g → fmLookup s' i = some g) ∧ (write = true → s.size ≤ 32 → s'.size ≤ 33) ∧ s'.size ≤ s.size + 1 := by
  rw [openFile]
  split
  · exact ⟨s, none, rfl, ht, hc, rfl, rfl, fun _ h => (nomatch h), fun _ h => by omega, by omega⟩
  next hrange =>
  split
  · next f hf => exact ⟨s, some f, rfl, ht, hc, rfl, rfl, fun g h => by rw [← h]; exact hf, fun _ h => by omega, by omega⟩
  next hfree =>
  split
  · exact ⟨s, none, rfl, ht, hc, rfl, rfl, fun _ h => (nomatch h), fun _ h => by omega, by omega⟩
  obtain ⟨s1, e1, ht1, hc1, hi1, hcu1, hfr1, hsz1, hnone1⟩ : ∃ s1, evictIf write s = .ok s1 ∧
      s1.Tidy ∧ s1.Current ∧ s1.index = s.index ∧ s1.current = s.current ∧ s1.fresh = s.fresh ∧ s1.size ≤ s.size ∧
      fmLookup s1 i = none := by
    rw [evictIf]
    split
    · obtain ⟨s1, e1, h1, h2, h3, h4, h5, h6, _, _, h7, _, h8⟩ := evict_ok (evictFuel s) ht hc (Nat.lt_succ_self _)
      refine ⟨s1, e1, h1, h2, h4, h5, h6, ?_, h7 i hfree⟩
      by_cases h : s.size ≤ maxOpenFiles
      · rw [h8 h]; exact Nat.le_refl _
      · omega
    · exact ⟨s, rfl, ht, hc, rfl, rfl, rfl, by omega, hfree⟩
  obtain ⟨s2, e2, ht2, hi2, hcu2, hl2, hlk2, hsz2, _⟩ := fmInsert_ok (maxFiles := maxFiles) (i := i) ht1 (by omega) hnone1
  refine ⟨{ s2 with fresh := s.fresh + 1 }, some s.fresh, ?_, ?_, ?_, hi2.trans hi1, hcu2.trans hcu1, ?_, ?_, ?_⟩
  · rw [← hfr1] at *
    simp only
    rw [e1, Res.bind_ok, e2]; rfl
  · rw [← hfr1]; exact ht2
  · obtain ⟨c, hcu, hcl⟩ := hc1.cur
    have hne : s1.index ≠ i := by rintro rfl; rw [hcl] at hnone1; cases hnone1
    refine ⟨by rw [show (_ : Handles).index = s1.index from hi2]; exact hc1.pos, ⟨c, ?_, ?_⟩, ?_⟩
    · exact hcu2.trans hcu
    · change fmLookup s2 s2.index = _
      rw [hi2, hlk2 _ hne]; exact hcl
    · change fmLookup s2 0 = _
      rw [hlk2 0 (by omega)]; exact hc1.zero
  · intro g hg
    cases hg
    rw [← hfr1]; exact hl2
  · intro _ h; simp only; omega
  · simp only; omega

/-- Closing the current file. -/
theorem closeFile_cur {s : Handles} (ht : s.Tidy) {i f : Nat} (hi : fmLookup s i = some f) (hcur : s.current = some f) :
    ∃ s', closeFile s i = .ok s' ∧ s'.Tidy ∧ s'.size + 1 = s.size ∧ s'.closed = f :: s.closed ∧
      (∀ j, j ≠ i → fmLookup s' j = fmLookup s j) := by
  have hp := live_set_none hi
  have hlen := hp.length_eq
  simp only [List.length_cons] at hlen
  have hsz := ht.size
  unfold Handles.live at hsz
  have e1 : fmRemove s i = .ok ({ s with items := s.items.set i none, size := s.size - 1 }, some f) := by
    unfold fmRemove
    have : s.items[i]?.join = some f := hi
    rw [this]
    simp only
    rw [if_neg (by omega)]
  refine ⟨_, by rw [closeFile, e1, Res.bind_ok]; simp only [Res.pure_eq]; rfl, ?_⟩
  rw [if_pos hcur]
  refine ⟨⟨?_, ?_, ?_⟩, ?_, rfl, ?_⟩
  · simp only [Handles.live]; omega
  · simp only [Handles.live]
    have := (List.Perm.append_right s.closed hp).nodup_iff.1 ht.nodup
    exact ((List.perm_middle (l₁ := (s.items.set i none).filterMap id)).nodup_iff).2 this
  · intro g
    change g < s.fresh ↔ _
    rw [ht.all g]
    have := (List.Perm.append_right s.closed hp).mem_iff (a := g)
    unfold Handles.live
    rw [this]
    exact ((List.perm_middle (l₁ := (s.items.set i none).filterMap id)).mem_iff (a := g)).symm
  · simp only; omega
  · intro j hj
    simp only [fmLookup]
    rw [lookup_set, if_neg (by rintro ⟨h, _⟩; exact hj h.symm)]

theorem rollover_ok {maxFiles : Nat} {s : Handles} (ht : s.Tidy) (hc : s.Current) (opens syncs : Bool) (hmax : s.index + 1 < maxFiles) :
    ∃ s' b, rollover maxFiles s opens syncs = .ok (s', b) ∧ s'.Tidy ∧ s'.Current ∧ s'.index = s.index + b.toNat ∧
      (b = true → opens = false → ∃ f, fmLookup s (s.index + 1) = some f) ∧ (b = true → syncs = true) ∧
      (b = true → ∃ c, s.current = some c ∧ c ∈ s'.closed) ∧ (b = false → s'.current = s.current) := by
  obtain ⟨s1, f, e1, ht1, hc1, hi1, hcu1, hl1, _, _⟩ := openFile_ok (maxFiles := maxFiles) ht hc (s.index + 1) true opens hmax
  rw [rollover]
  simp only
  cases f with
  | none =>
    refine ⟨s1, false, by rw [e1]; rfl, ht1, hc1, by simp [hi1], fun h => (nomatch h), fun h => (nomatch h), fun h => (nomatch h), fun _ => hcu1⟩
  | some g =>
    cases syncs with
    | false =>
      refine ⟨s1, false, by rw [e1]; rfl, ht1, hc1, by simp [hi1], fun h => (nomatch h), fun h => (nomatch h), fun h => (nomatch h), fun _ => hcu1⟩
    | true =>
      obtain ⟨c, hcu, hcl⟩ := hc1.cur
      obtain ⟨s2, e2, ht2, _, hcl2, hlk2⟩ := closeFile_cur ht1 hcl hcu
      refine ⟨{ s2 with current := some g, index := s.index + 1 }, true, ?_, ⟨ht2.size, ht2.nodup, ht2.all⟩, ⟨by simp, ⟨g, rfl, ?_⟩, ?_⟩, rfl, ?_,
        fun _ => rfl, fun _ => ⟨c, by rw [← hcu1]; exact hcu, ?_⟩, fun h => (nomatch h)⟩
      · rw [e1, Res.bind_ok]
        simp only [Bool.not_true, Bool.false_eq_true, if_false]
        rw [e2]; rfl
      · change fmLookup s2 (s.index + 1) = _
        rw [hlk2 _ (by omega)]; exact hl1 g rfl
      · change fmLookup s2 0 = _
        rw [hlk2 0 (by have := hc1.pos; omega)]; exact hc1.zero
      · intro _ hop
        subst hop
        rw [openFile] at e1
        split at e1
        · exact absurd (congrArg Prod.snd (Res.ok.inj e1)) (by simp)
        split at e1
        · next f hf => exact ⟨f, hf⟩
        · simp at e1
      · change c ∈ s2.closed
        rw [hcl2]; exact List.mem_cons_self ..

/-- How many rollovers there are in a sequence of events. -/
def rolls : List FileOp → Nat
  | [] => 0
  | .roll .. :: ops => rolls ops + 1
  | .read .. :: ops => rolls ops
  | .commitEnd :: ops => rolls ops

theorem fileRun_ok {maxFiles : Nat} : ∀ (ops : List FileOp) {s : Handles}, s.Tidy → s.Current → s.index + rolls ops + 1 < maxFiles →
    ∃ s', fileRun maxFiles s ops = .ok s' ∧ s'.Tidy ∧ s'.Current ∧ s'.index ≤ s.index + rolls ops
  | [], s, ht, hc, _ => ⟨s, rfl, ht, hc, by omega⟩
  | .read i opens :: ops, s, ht, hc, h => by
    rw [rolls] at h ⊢
    obtain ⟨s1, f, e1, ht1, hc1, hi1, _⟩ := openFile_ok (maxFiles := maxFiles) ht hc i false opens (by omega)
    obtain ⟨s2, e2, ht2, hc2, hi2⟩ := fileRun_ok (maxFiles := maxFiles) ops ht1 hc1 (by omega)
    exact ⟨s2, by rw [fileRun, fileStep, e1]; exact e2, ht2, hc2, by omega⟩
  | .roll opens syncs :: ops, s, ht, hc, h => by
    rw [rolls] at h ⊢
    obtain ⟨s1, b, e1, ht1, hc1, hi1, _⟩ := rollover_ok (maxFiles := maxFiles) ht hc opens syncs (by omega)
    have hb : b.toNat ≤ 1 := by cases b <;> simp
    obtain ⟨s2, e2, ht2, hc2, hi2⟩ := fileRun_ok (maxFiles := maxFiles) ops ht1 hc1 (by omega)
    exact ⟨s2, by rw [fileRun, fileStep, e1]; exact e2, ht2, hc2, by omega⟩
  | .commitEnd :: ops, s, ht, hc, h => by
    rw [rolls] at h ⊢
    obtain ⟨s1, e1, ht1, hc1, _, hi1, _⟩ := evict_ok (evictFuel s) ht hc (Nat.lt_succ_self _)
    obtain ⟨s2, e2, ht2, hc2, hi2⟩ := fileRun_ok (maxFiles := maxFiles) ops ht1 hc1 (by omega)
    exact ⟨s2, by rw [fileRun, fileStep, e1]; exact e2, ht2, hc2, by omega⟩

theorem handlesInit_ok {maxFiles index : Nat} (rand : List Nat) (h1 : 1 ≤ index) (h2 : index < maxFiles) :
    ∃ s, handlesInit maxFiles index rand = .ok s ∧ s.Tidy ∧ s.Current ∧ s.index = index ∧ s.size = 1 := by
  have ht : Handles.Tidy ⟨[], 0, index, none, rand, 0, []⟩ := ⟨rfl, by simp [Handles.live], by simp [Handles.live]⟩
  obtain ⟨s, e, ht', hi, _, hl, hlk, hsz, _⟩ := fmInsert_ok (maxFiles := maxFiles) (i := index) ht h2 (by simp [fmLookup])
  refine ⟨{ s with fresh := 1, current := some 0 }, ?_, ⟨ht'.size, ht'.nodup, ht'.all⟩, ⟨by rw [show (_ : Handles).index = index from hi]; exact h1, ⟨0, rfl, ?_⟩, ?_⟩, hi, hsz⟩
  · rw [handlesInit, openFile, if_neg (by simp only; omega)]
    have : fmLookup ⟨[], 0, index, none, rand, 0, []⟩ index = none := by simp [fmLookup]
    rw [this]
    simp only [Bool.not_true, Bool.false_eq_true, if_false, evictIf, if_true]
    have e3 : evict (evictFuel ⟨[], 0, index, none, rand, 0, []⟩) ⟨[], 0, index, none, rand, 0, []⟩ = .ok ⟨[], 0, index, none, rand, 0, []⟩ := rfl
    rw [e3, Res.bind_ok, e]; rfl
  · change fmLookup s s.index = _
    rw [hi]; exact hl
  · change fmLookup s 0 = _
    rw [hlk 0 (by omega)]; simp [fmLookup]

/-- C40: eviction, from any state in which handles are accounted for and the file
being appended to is open, for every sequence of random numbers: it ends, at most 32
files stay open, the file being appended to stays open, and handles stay accounted
for (nothing is closed twice or lost). -/
theorem C40_eviction (s : Handles) (ht : s.Tidy) (hc : s.Current) :
    ∃ s', evict (evictFuel s) s = .ok s' ∧ s'.Tidy ∧ s'.Current ∧ s'.live.length ≤ 32 ∧ s'.index = s.index ∧ s'.current = s.current ∧
      ∀ f, s.current = some f → f ∈ s'.live ∧ f ∉ s'.closed := by
  obtain ⟨s', e, h1, h2, h3, h4, h5, _, _, h6, _⟩ := evict_ok (evictFuel s) ht hc (Nat.lt_succ_self _)
  refine ⟨s', e, h1, h2, by rw [← h1.size]; exact h3, h4, h5, ?_⟩
  intro f hf
  obtain ⟨g, hg, hl⟩ := hc.cur
  rw [hf] at hg; cases hg
  have hn := h6 f hl
  refine ⟨?_, hn⟩
  obtain ⟨g, hg, hl'⟩ := h2.cur
  rw [h5, hf] at hg; cases hg
  unfold fmLookup at hl'
  refine List.mem_filterMap.2 ⟨some f, ?_, rfl⟩
  cases e : s'.items[s'.index]? with
  | none => rw [e] at hl'; simp at hl'
  | some o => rw [e] at hl'; simp at hl'; subst hl'; exact List.mem_of_getElem? e

/-- C40: from opening the database on, whatever files are read, whether opening them
and syncing succeeds or not, however often appending rolls over to a new file and
whatever the random numbers are: nothing aborts, the counter never goes below zero,
eviction always ends, the file being appended to is open, no handle is closed twice
or lost, and after every commit at most 32 files are open. The hypothesis leaves
room for the rollovers in the limit on the number of files (see C40_limit). -/
theorem C40_handles (maxFiles index : Nat) (rand : List Nat) (ops : List FileOp) (h1 : 1 ≤ index)
    (hmax : index + rolls ops + 1 < maxFiles) :
    ∃ s0 s, handlesInit maxFiles index rand = .ok s0 ∧ fileRun maxFiles s0 ops = .ok s ∧ s.Tidy ∧ s.Current ∧
      ∃ s', fileStep maxFiles s .commitEnd = .ok s' ∧ s'.Tidy ∧ s'.Current ∧ s'.live.length ≤ 32 := by
  obtain ⟨s0, e0, ht0, hc0, hi0, _⟩ := handlesInit_ok (maxFiles := maxFiles) rand h1 (by omega)
  obtain ⟨s, e, ht, hc, _⟩ := fileRun_ok (maxFiles := maxFiles) ops ht0 hc0 (by omega)
  obtain ⟨s', e', ht', hc', hs', _⟩ := C40_eviction s ht hc
  exact ⟨s0, s, e0, e, ht, hc, s', e', ht', hc', hs'⟩

/-- C40: at the limit: rolling over into file number 0x7fff, which is allowed by the
check on the index, creates the file and aborts the process. -/
theorem C40_limit (s : Handles) (hi : s.index + 1 = 0x7fff) (ht : s.Tidy) (hc : s.Current) (hl : s.items.length ≤ s.index + 1) (syncs : Bool) :
    rollover 0x7fff s true syncs = .abort := by
  have hfree : fmLookup s (s.index + 1) = none := by
    unfold fmLookup; rw [List.getElem?_eq_none (by omega)]; rfl
  obtain ⟨s1, e1, _, _, _, _, _, _, hlen, _⟩ := evict_ok (evictFuel s) ht hc (Nat.lt_succ_self _)
  rw [rollover]
  simp only
  rw [openFile, if_neg (by omega), hfree]
  simp only [Bool.not_true, Bool.false_eq_true, if_false, evictIf, if_true]
  rw [e1, Res.bind_ok, fmInsert, fmGrow, if_pos (by omega)]
  have : decide (s.index + 1 < 0x7fff) = false := by simp [hi]
  rw [this]; rfl

/-- The hypotheses are met with more than 32 files: a database in its 41st file,
reads of forty older ones, a rollover and the end of a commit. -/
theorem C40_example : ∃ s0 s, handlesInit 0x7fff 41 [7, 1, 4, 9, 12, 3, 2, 25, 0] = .ok s0 ∧
    fileRun 0x7fff s0 (((List.range 40).map fun i => FileOp.read (i + 1) true) ++ [.roll true true]) = .ok s ∧
    s.live.length = 32 ∧ s.closed.length = 10 ∧ s.index = 42 ∧
    ∃ s', fileStep 0x7fff s .commitEnd = .ok s' ∧ s'.live.length = 32 := by
  let r := (handlesInit 0x7fff 41 [7, 1, 4, 9, 12, 3, 2, 25, 0]).bind fun s0 =>
    (fileRun 0x7fff s0 (((List.range 40).map fun i => FileOp.read (i + 1) true) ++ [.roll true true])).bind fun s =>
    (fileStep 0x7fff s .commitEnd).bind fun s' => .ok (s0, s, s')
  have h : (match r with | .ok (_, s, s') => decide (s.live.length = 32 ∧ s.closed.length = 10 ∧ s.index = 42 ∧ s'.live.length = 32) | _ => false) = true := by
    decide +kernel
  have hr : ∃ x, r = .ok x := by
    cases e : r with
    | ok x => exact ⟨x, rfl⟩
    | _ => rw [e] at h; simp at h
  obtain ⟨⟨s0, s, s'⟩, hx⟩ := hr
  rw [hx] at h
  simp only [decide_eq_true_eq] at h
  obtain ⟨s0', e0, hx⟩ := Res.bind_eq_ok.1 hx
  obtain ⟨s1', e1, hx⟩ := Res.bind_eq_ok.1 hx
  obtain ⟨s2', e2, hx⟩ := Res.bind_eq_ok.1 hx
  simp only [Res.ok.injEq, Prod.mk.injEq] at hx
  obtain ⟨rfl, rfl, rfl⟩ := hx
  exact ⟨_, _, e0, e1, h.1, h.2.1, h.2.2.1, _, e2, h.2.2.2⟩

end Urkel
