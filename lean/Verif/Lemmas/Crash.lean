import Verif.Lemmas.Db
/-
Opening a crash image of a healthy database.
-/
namespace Urkel
open PTree

/-- Where the last commit record is, and that it is what the scan looks for. -/
theorem SInv.last_record {E : Env} {s : Store} {hist : List PTree} (hs : SInv E s hist) (hne : hist ≠ [])
    (hal : lastLen s.files % metaSize = 0) :
    ∃ (i : List Bytes) (l : Bytes) (r : Meta), s.files = i ++ [l] ∧ s.state.metaPtr.pos + metaSize = l.length ∧
      s.state.metaPtr.pos % metaSize = 0 ∧ (l.drop s.state.metaPtr.pos).take metaSize = metaWrite E s.key r ∧
      PtrOk r.metaPtr ∧ PtrOk r.rootPtr := by
  obtain ⟨i, l, efiles, hidx, hcur⟩ := hs.slab.sok.files_snoc
  cases hist with
  | nil => exact (hne rfl).elim
  | cons t ts =>
    obtain ⟨hi1, r, hrd, ok1, ok2, hroot, hrest⟩ := hs.chain
    obtain ⟨tl1, tl2⟩ := hs.tail.resolve_left (by simp)
    have hlast : lastLen s.files = l.length := by rw [efiles, lastLen_snoc]
    have hrec : (l.drop s.state.metaPtr.pos).take metaSize = metaWrite E s.key r := by
      unfold vrd at hrd
      simp only at hrd
      rw [if_neg (by omega), tl1, efiles] at hrd
      have hg : (i ++ [l])[(i ++ [l]).length - 1]? = some l := by
        rw [List.getElem?_append_right (by simp)]; simp
      rw [hg] at hrd
      simp only at hrd
      rw [if_neg (by decide), if_neg (by omega)] at hrd
      exact Option.some.inj hrd
    refine ⟨i, l, r, efiles, by omega, ?_, hrec, ok1, ok2⟩
    have h38 : metaSize = 38 := rfl
    rw [h38] at hal tl2 ⊢
    omega

theorem FExt.snoc {i : List Bytes} {l : Bytes} {b : List Bytes} (h : FExt (i ++ [l]) b) :
    ∃ junk extra, b = i ++ [l ++ junk] ++ extra := by
  rcases h with h | ⟨i', l', junk, extra, h1, h2⟩
  · exact ⟨[], [], by rw [← h]; simp⟩
  · obtain ⟨e1, e2⟩ := List.append_inj' h1 rfl
    simp only [List.cons.injEq, and_true] at e2
    subst e1; subst e2
    exact ⟨junk, extra, h2⟩

/-- A healthy store with nothing committed has one empty file. -/
theorem SInv.no_commit {E : Env} {s : Store} (hs : SInv E s []) : s.files = [[]] := by
  rcases hs.tail with ⟨_, h⟩ | ⟨h1, h2⟩
  · exact h
  · exfalso
    have h3 : s.state.metaPtr.index = 0 := (by rw [show s.state.metaPtr = nowhere from hs.chain]; rfl)
    obtain ⟨i, l, e, _⟩ := hs.slab.sok.files_snoc
    rw [e] at h1
    simp at h1; omega

theorem recover_image {E : Env} (hE : EnvOk E) {s : Store} {hist : List PTree} (hs : SInv E s hist)
    (hal : lastLen s.files % metaSize = 0) {fs : List Bytes} (hext : FExt s.files fs)
    (hnf : NoForge E s.key s.files fs) (hnm : hist = [] → NoMagic s.files fs) :
    recoverState E s.key fs fs.length Meta.init = recoverState E s.key s.files s.files.length Meta.init := by
  cases hh : hist with
  | nil =>
    subst hh
    have hf := hs.no_commit
    have len0 : ∀ j, (([[]] : List Bytes).getD j []).length = 0 := by
      intro j; cases j <;> simp
    obtain ⟨m, _, e, hm⟩ := recover_drop (E := E) (key := s.key) (files := fs) (Nat.zero_le fs.length) (Nat.le_refl _)
      (fun j f i _ _ hg hl => hnf j f i hg (by rw [hf, len0]; omega) hl) Meta.init
    have hmi : m = Meta.init := hm (fun j f i _ _ hg hl => hnm rfl j f i hg (by rw [hf, len0]; omega) hl)
    rw [e, hmi, hf]
    rfl
  | cons t ts =>
    obtain ⟨i, l, r, e, h1, h2, h3, h4, h5⟩ := hs.last_record (by simp [hh]) hal
    rw [e] at hext
    obtain ⟨junk, extra, ef⟩ := hext.snoc
    have a := recover_hit hE (key := s.key) (i := i) (extra := extra) (l := l) (junk := junk) (r := r) h1 h2 h3 h4 h5
      (by rw [← ef, ← e]; exact hnf)
    have b := recover_hit hE (key := s.key) (i := i) (extra := []) (l := l) (junk := []) (r := r) h1 h2 h3 h4 h5
      (by simp only [List.append_nil]; exact noForge_self _ _ _)
    simp only [List.append_nil] at b
    rw [← ef] at a
    rw [← e] at a b
    rw [a, b]

/-- Opening a crash image gives exactly what opening the old files gives. -/
theorem open_image {E : Env} (hE : EnvOk E) {s : Store} {hist : List PTree} (hs : SInv E s hist)
    (hal : lastLen s.files % metaSize = 0) {fs : List Bytes} (hext : FExt s.files fs)
    (hnf : NoForge E s.key s.files fs) (hnm : hist = [] → NoMagic s.files fs) (kf : Option Bytes) (rand : B32)
    (hk : Dir.key ⟨kf, fs⟩ rand = some s.key) :
    openStore E ⟨kf, fs⟩ rand = openStore E ⟨kf, s.files⟩ rand := by
  have hk' : Dir.key ⟨kf, s.files⟩ rand = some s.key := hk
  unfold openStore
  rw [hk, hk']
  simp only [recover_image hE hs hal hext hnf hnm]

/-- A slot that is complete before a file grows does not change. -/
theorem slot_append {f d : Bytes} {n : Nat} (h : metaSize * n + metaSize ≤ f.length) : slot (f ++ d) n = slot f n := by
  unfold slot
  rw [List.drop_append_of_le_length (by omega), List.take_append_of_le_length (by simp; omega)]

theorem FExt.eq_of_last {a b : List Bytes} (h : FExt a b) {f g : Bytes} {j : Nat} (hj : j + 1 = b.length) (ha : a[j]? = some f)
    (hb : b[j]? = some g) (hl : g.length ≤ f.length) : a = b := by
  rcases h with h | ⟨i, l, junk, extra, rfl, rfl⟩
  · exact h
  · have hlt := (List.getElem?_eq_some_iff.1 ha).1
    simp only [List.length_append, List.length_cons, List.length_nil] at hj hlt
    have hx : extra = [] := List.length_eq_zero_iff.1 (by omega)
    subst hx
    have hji : j = i.length := by simp at hj; omega
    subst hji
    simp at ha hb
    subst ha; subst hb
    simp at hl
    have : junk = [] := List.length_eq_zero_iff.1 (by omega)
    simp [this]

/-- Nothing in a crash image imitates a record, if it is a proper one or the last
commit record is not aligned. -/
theorem image_clean {E : Env} {key : B32} {old new f : List Bytes} (h : CrashImage old new f) (ho : OnlyOwnRecord E key old new)
    (hne : f ≠ new ∨ lastLen new % metaSize ≠ 0) : NoForge E key old f ∧ (old = [[]] → NoMagic old f) := by
  have key' : ∀ (j : Nat) (g : Bytes) (n : Nat), f[j]? = some g → (old.getD j []).length ≤ metaSize * n → metaSize * n + metaSize ≤ g.length →
      ¬ ValidRec E key (slot g n) ∧ (old = [[]] → leNat ((slot g n).take 4) ≠ metaMagic) := by
    intro j g n hg h1 h2
    obtain ⟨_, hd, d, rfl⟩ := h.2.get j g hg
    have := ho j (g ++ d) n hd h1 (by simp; omega) (by
      rintro ⟨a, b⟩
      rcases hne with hne | hne
      · exact hne (h.2.eq_of_last a hg hd (by simp at b ⊢; omega))
      · refine hne ?_
        have : lastLen new = metaSize * n + metaSize := by
          unfold lastLen
          rw [List.getLast?_eq_getElem?, ← a, Nat.add_sub_cancel, hd, b]; rfl
        rw [this, show metaSize * n + metaSize = metaSize * (n + 1) from rfl, Nat.mul_mod_right])
    rw [slot_append h2] at this
    exact this
  exact ⟨fun j g n a b c => (key' j g n a b c).1, fun e j g n a b c => (key' j g n a b c).2 e⟩

/-- `OnlyOwnRecord` with bounded quantifiers, for concrete files. -/
theorem onlyOwn_of {E : Env} {key : B32} {old new : List Bytes}
    (h : ∀ j, j < new.length → ∀ n, n < (new.getD j []).length → (old.getD j []).length ≤ metaSize * n →
      metaSize * n + metaSize ≤ (new.getD j []).length → ¬ (j + 1 = new.length ∧ metaSize * n + metaSize = (new.getD j []).length) →
      ¬ ValidRec E key (slot (new.getD j []) n) ∧ leNat ((slot (new.getD j []) n).take 4) ≠ metaMagic) :
    OnlyOwnRecord E key old new := by
  intro j f n hf h1 h2 h3
  have hj := (List.getElem?_eq_some_iff.1 hf).1
  have e : new.getD j [] = f := by rw [List.getD_eq_getElem?_getD, hf]; rfl
  have h38 : metaSize = 38 := rfl
  have := h j hj n (by rw [e]; rw [h38] at h2; omega) h1 (by rw [e]; exact h2) (by rw [e]; exact h3)
  rw [e] at this
  exact ⟨this.1, fun _ => this.2⟩

end Urkel
