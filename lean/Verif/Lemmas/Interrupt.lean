import Verif.Lemmas.Crash
import Verif.Lemmas.Idem
import Verif.Lemmas.Trace
import Verif.Spec.Histories
/-
Recovery after a killed recovery.
-/
namespace Urkel

theorem findMeta_indep {E : Env} {key : B32} {g : Bytes} {n : Nat} (hn : metaSize * n ≤ g.length) {a b m : Meta}
    (hab : a.rootNode = b.rootNode) {r : Option Nat} (e : findMeta E key g n a = .ok (r, m)) :
    m.rootNode = a.rootNode ∧ ∃ m', findMeta E key g n b = .ok (r, m') ∧ m'.rootNode = m.rootNode ∧ (r ≠ none → m' = m) := by
  induction n generalizing a b with
  | zero => cases e; exact ⟨rfl, b, rfl, hab.symm, fun h => (h rfl).elim⟩
  | succ n ih =>
    have hle : metaSize * n + metaSize ≤ g.length := by rw [Nat.mul_add] at hn; omega
    rw [findMeta] at e ⊢
    have hd := length_slot hle
    have hd' : (slot g n).length = 38 := hd
    obtain ⟨mp, e1, _⟩ := ptrRead_ok (d := (slot g n).drop 4) (by simp; omega)
    obtain ⟨rp, e2, _⟩ := ptrRead_ok (d := ((slot g n).drop 4).drop 7) (by simp; omega)
    have hall : ∀ m2, metaRead E key m2 (slot g n) = .ok (decide (ValidRec E key (slot g n)),
        if leNat ((slot g n).take 4) = metaMagic then { m2 with metaPtr := mp, rootPtr := rp } else m2) := by
      intro m2
      unfold metaRead
      simp only
      rw [takeN_ok (by omega), Res.bind_ok]
      simp only
      by_cases hmag : leNat ((slot g n).take 4) = metaMagic
      · have hb : (leNat ((slot g n).take 4) != metaMagic) = false := by simpa using hmag
        rw [hb]
        simp only [Bool.false_eq_true, if_false]
        rw [e1, Res.bind_ok]
        simp only
        rw [e2, Res.bind_ok]
        simp only
        rw [takeN_ok (by simp; omega), Res.bind_ok]
        simp only [Res.pure_eq, if_pos hmag, List.drop_drop]
        congr 2
        rw [Bool.eq_iff_iff]
        simp [ValidRec, hmag]
      · have hb : (leNat ((slot g n).take 4) != metaMagic) = true := by simpa using hmag
        rw [hb]
        simp [ValidRec, hmag]
    have ea : metaRead E key a ((g.drop (metaSize * n)).take metaSize) = _ := hall a
    have eb : metaRead E key b ((g.drop (metaSize * n)).take metaSize) = _ := hall b
    rw [ea, Res.bind_ok] at e
    rw [eb, Res.bind_ok]
    simp only [decide_eq_true_eq] at e ⊢
    split at e
    · next hv =>
      cases e
      rw [if_pos hv, if_pos hv.1, if_pos hv.1, hab]
      exact ⟨rfl, _, rfl, rfl, fun _ => rfl⟩
    · next hv =>
      rw [if_neg hv]
      obtain ⟨h1, m', h2, h3, h4⟩ := ih (by omega)
        (a := if leNat ((slot g n).take 4) = metaMagic then { a with metaPtr := mp, rootPtr := rp } else a)
        (b := if leNat ((slot g n).take 4) = metaMagic then { b with metaPtr := mp, rootPtr := rp } else b)
        (by split <;> exact hab) e
      refine ⟨?_, m', h2, h3, h4⟩
      rw [h1]; split <;> rfl

/-- What was in memory before matters only if recovery finds nothing. -/
theorem recover_indep {E : Env} {key : B32} {files : List Bytes} {n : Nat} {a b : Meta}
    (hab : a.rootNode = b.rootNode) {st lm : Meta} {fs : List Bytes} {idx : Nat}
    (e : recoverState E key files n a = .ok (st, lm, fs, idx)) :
    ∃ lm', recoverState E key files n b = .ok (st, lm', fs, idx) ∧ (fs ≠ [] → lm' = lm) := by
  induction n generalizing a b with
  | zero => cases e; exact ⟨b, rfl, fun h => (h rfl).elim⟩
  | succ n ih =>
    rw [recoverState] at e ⊢
    simp only at e ⊢
    obtain ⟨⟨r, m⟩, e1, e⟩ := Res.bind_eq_ok.1 e
    obtain ⟨h1, m', h2, h3, h4⟩ := findMeta_indep (Nat.mul_div_le _ _) hab e1
    rw [h2, Res.bind_ok]
    cases r with
    | none => exact ih h3.symm e
    | some off =>
      rw [h4 (by simp)]
      cases e
      exact ⟨_, rfl, fun _ => rfl⟩

theorem recover_prefix {E : Env} {key : B32} {files : List Bytes} {n : Nat} (hn : n ≤ files.length) (m : Meta) :
    recoverState E key (files.take n) n m = recoverState E key files n m := by
  have h : ∀ k, k ≤ n → ∀ m, recoverState E key (files.take n) k m = recoverState E key files k m := by
    intro k
    induction k with
    | zero => intro _ m; rfl
    | succ k ih =>
      intro hk m
      rw [recoverState, recoverState]
      have : (files.take n).getD k [] = files.getD k [] := by
        rw [List.getD_eq_getElem?_getD, List.getD_eq_getElem?_getD, List.getElem?_take, if_pos (by omega)]
      rw [this, List.take_take, Nat.min_eq_left (by omega)]
      dsimp only
      refine congrArg (Res.bind _) (funext fun x => ?_)
      obtain ⟨r, m⟩ := x
      cases r
      · exact ih (by omega) m
      · rfl
  exact h n (Nat.le_refl _) m

/-- No slot of any file starts with the magic number. -/
def NoMagicAt (F : List Bytes) : Prop :=
  ∀ (j : Nat) (f : Bytes) (n : Nat), F[j]? = some f → metaSize * n + metaSize ≤ f.length → leNat ((slot f n).take 4) ≠ metaMagic

/-- A killed recovery does not change what recovery finds. -/
theorem trace_recover {E : Env} {key : B32} {files : List Bytes} {n : Nat} (hn : n ≤ files.length) {m : Meta}
    (hm : m.rootNode = Meta.init.rootNode) {st lm : Meta} {fs : List Bytes} {idx : Nat}
    (e : recoverState E key files n m = .ok (st, lm, fs, idx)) {tr : List (List Bytes)}
    (et : recoverTrace E key files n m = .ok tr) {F : List Bytes} (hF : F ∈ tr) :
    (∃ lm', recoverState E key F F.length Meta.init = .ok (st, lm', fs, idx) ∧ (fs ≠ [] → lm' = lm)) ∧
    (F = [[]] ∨ F = fs ∨ ∃ k, F = files.take k) := by
  induction n generalizing m tr with
  | zero =>
    cases e; cases et
    rw [List.mem_singleton] at hF
    subst hF
    exact ⟨⟨Meta.init, rfl, fun h => (h rfl).elim⟩, Or.inl rfl⟩
  | succ n ih =>
    have e' := e
    rw [recoverState] at e
    rw [recoverTrace] at et
    simp only at e et
    obtain ⟨⟨r, m1⟩, e1, e⟩ := Res.bind_eq_ok.1 e
    rw [e1, Res.bind_ok] at et
    obtain ⟨h1, _⟩ := findMeta_indep (b := m) (Nat.mul_div_le _ _) rfl e1
    cases r with
    | some off =>
      cases et
      rw [List.mem_singleton] at hF
      cases e
      rcases recover_again hn e' with ⟨_, h, _⟩ | ⟨_, _, h⟩
      · simp at h
      · subst hF
        exact ⟨recover_indep hm h, Or.inr (Or.inl rfl)⟩
    | none =>
      simp only at e et
      obtain ⟨rest, e2, et⟩ := Res.bind_eq_ok.1 et
      cases et
      rcases List.mem_cons.1 hF with rfl | hF
      · refine ⟨?_, Or.inr (Or.inr ⟨n, rfl⟩)⟩
        rw [List.length_take, Nat.min_eq_left (by omega), recover_prefix (by omega)]
        exact recover_indep (h1.trans hm) e
      · exact ih (by omega) (h1.trans hm) e e2 hF

theorem NoMagicAt.recover {E : Env} {key : B32} {F : List Bytes} (h : NoMagicAt F) :
    recoverState E key F F.length Meta.init = .ok (Meta.init, Meta.init, [], 1) := by
  obtain ⟨m, _, e, hm⟩ := recover_drop (E := E) (key := key) (files := F) (Nat.zero_le F.length) (Nat.le_refl _)
    (fun j f i _ _ hg hl hv => h j f i hg hl hv.1) Meta.init
  rw [e, hm (fun j f i _ _ hg hl => h j f i hg hl)]
  rfl

/-- Killed opens do not change what recovery finds, nor what it remembers if there is no
trace of a record when it finds nothing. -/
theorem opensCut_recover {E : Env} {key : B32} {F F' : List Bytes} (h : OpensCut E key F F') {st lm : Meta} {fs : List Bytes}
    {idx : Nat} (e : recoverState E key F F.length Meta.init = .ok (st, lm, fs, idx)) (hm : fs = [] → NoMagicAt F) :
    recoverState E key F' F'.length Meta.init = .ok (st, lm, fs, idx) := by
  induction h with
  | nil F => exact e
  | @cons F F1 F2 hc _ ih =>
    obtain ⟨tr, et, hF⟩ := hc
    obtain ⟨⟨lm', e1, h1⟩, h2⟩ := trace_recover (Nat.le_refl _) rfl e et hF
    by_cases hfs : fs = []
    · subst hfs
      have hno := hm rfl
      have hno1 : NoMagicAt F1 := by
        intro j f n hj hl
        rcases h2 with rfl | rfl | ⟨k, rfl⟩
        · have : f = [] := by
            cases j with
            | zero => simpa using hj.symm
            | succ j => simp at hj
          subst this
          simp [metaSize] at hl
        · simp at hj
        · rw [List.getElem?_take] at hj
          split at hj
          · exact hno j f n hj hl
          · cases hj
      have a := hno.recover (E := E) (key := key)
      rw [e] at a
      cases a
      exact ih hno1.recover (fun _ => hno1)
    · refine ih ?_ (fun h => (hfs h).elim)
      rw [e1, h1 hfs]

/-- What the first open of an image does, an open after killed ones does. -/
theorem openStore_of_recover {E : Env} {key : B32} {F F' : List Bytes} {kf : Option Bytes} {rand : B32}
    (hk : Dir.key ⟨kf, F⟩ rand = some key)
    (h : recoverState E key F' F'.length Meta.init = recoverState E key F F.length Meta.init) :
    openStore E ⟨kf, F'⟩ rand = openStore E ⟨kf, F⟩ rand := by
  have hk' : Dir.key ⟨kf, F'⟩ rand = some key := hk
  unfold openStore
  rw [hk, hk']
  simp only [h]

end Urkel
