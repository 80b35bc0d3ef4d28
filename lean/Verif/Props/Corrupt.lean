import Verif.Lemmas.HistLen
import Verif.Model.Corrupt
import Verif.Props.Destroy
import Verif.Props.Tail
/-
C76, continued: `urkel__corrupt`.
-/
namespace Urkel

/-- The file system has the database `c`, and no other numbered files, in the directory `d`. -/
def HoldsDb (fs : Fs) (d : Bytes) (c : Dir) : Prop :=
  fs.at d = some .dir ∧ DirAt fs d c ∧
    ∀ (name : Bytes) (k : Nat), IsName name k → k < 2 ^ 32 → fs.at (inDir d name) ≠ none → 1 ≤ k ∧ k ≤ c.files.length

theorem corruptLoop_ok {pfx : Bytes} (hp : 0 ∉ pfx) (hpl : pfx.length ≤ 1013) : ∀ (names : List Bytes) (t : Bytes) (found : Bool),
    (∀ n ∈ names, 0 ∉ n) → (pfx ++ [47] ++ t).length = pathMax + 1 →
    ∃ t' f', corruptLoop (pfx.length + 1) names (pfx ++ [47] ++ t) found = .ok (pfx ++ [47] ++ t', f') ∧
      (((∀ n ∈ names, ∀ k, k < 2 ^ 32 → ¬ IsName n k) ∧ t' = t ∧ f' = found) ∨
        ∃ a n b k, names = a ++ n :: b ∧ k < 2 ^ 32 ∧ IsName n k ∧ (∀ m ∈ b, ∀ k, k < 2 ^ 32 → ¬ IsName m k) ∧ f' = true ∧
          cstr (pfx ++ [47] ++ t') = inDir pfx n) := by
  intro names
  induction names with
  | nil => intro t found _ _; exact ⟨t, found, rfl, .inl ⟨(fun _ h => nomatch h), rfl, rfl⟩⟩
  | cons n names ih =>
    intro t found hz hl
    have hn := hz n (.head _)
    obtain ⟨r, e, hr⟩ := C37_parse n (fun c hc h => hn (h ▸ hc))
    rw [corruptLoop, e]
    dsimp only
    cases r with
    | none =>
      rw [if_neg (by simp)]
      have hno : ∀ k, k < 2 ^ 32 → ¬ IsName n k := fun k hk h => nomatch (hr k).2 ⟨h, hk⟩
      obtain ⟨t', f', e1, h⟩ := ih t found (fun m hm => hz m (.tail _ hm)) hl
      refine ⟨t', f', e1, ?_⟩
      rcases h with ⟨h1, h2, h3⟩ | ⟨a, m, b, k, rfl, h2⟩
      · refine .inl ⟨fun m hm => ?_, h2, h3⟩
        rcases List.mem_cons.1 hm with rfl | hm
        · exact hno
        · exact h1 m hm
      · exact .inr ⟨n :: a, m, b, k, rfl, h2⟩
    | some k =>
      rw [if_pos (by rfl : (some k).isSome = true)]
      obtain ⟨hk, hlt⟩ := (hr k).1 rfl
      obtain ⟨t1, e1, hl1, hc⟩ := write_name hp hn hl (by rw [hk.1, pathMax]; omega)
      rw [e1]
      dsimp only
      obtain ⟨t', f', e2, h⟩ := ih t1 true (fun m hm => hz m (.tail _ hm)) hl1
      refine ⟨t', f', e2, .inr ?_⟩
      rcases h with ⟨h1, h2, h3⟩ | ⟨a, m, b, k, rfl, h2⟩
      · exact ⟨[], n, names, k, rfl, hlt, hk, h1, h3, by rw [h2]; exact hc⟩
      · exact ⟨n :: a, m, b, k, rfl, h2⟩

theorem storeCorrupt_eq (W : CFaults) {pfx buf : Bytes} (hp : 0 ∉ pfx) (hpl : pfx.length ≤ 1013) {fs : Fs} (hz : fs.Strings) (hb : buf.length = pathMax + 1) :
    (storeCorrupt W fs pfx buf = .ok (false, fs) ∧ (W.scanFails = true ∨ W.statFails = true ∨ W.truncFails = true ∨ fs.at pfx ≠ some .dir ∨
      (∀ n k, k < 2 ^ 32 → IsName n k → fs.at (inDir pfx n) = none) ∨
      ∃ n k, k < 2 ^ 32 ∧ IsName n k ∧ fs.at (inDir pfx n) ≠ none ∧ (∀ m j, j < 2 ^ 32 → IsName m j → fs.at (inDir pfx m) ≠ none → j ≤ k) ∧
        ∀ data, fs.at (inDir pfx n) = some (.file data) → data = [])) ∨
    ∃ n k data, fs.at pfx = some .dir ∧ k < 2 ^ 32 ∧ IsName n k ∧ fs.at (inDir pfx n) = some (.file data) ∧ data ≠ [] ∧
      (∀ m j, j < 2 ^ 32 → IsName m j → fs.at (inDir pfx m) ≠ none → j ≤ k) ∧
      storeCorrupt W fs pfx buf = .ok (true, (fs.remove (inDir pfx n)).put (inDir pfx n) (.file (data.take (data.length - 1)))) := by
  have h0 : wrMany buf 0 (pfx ++ [0]) = .ok (pfx ++ [0] ++ buf.drop (pfx.length + 1)) := by
    rw [wrMany_ok _ _ _ (by rw [hb, pathMax]; simp; omega)]
    simp
  have h1 : wrAt (pfx ++ [0] ++ buf.drop (pfx.length + 1)) pfx.length 47 = .ok (pfx ++ [47] ++ buf.drop (pfx.length + 1)) := by
    unfold wrAt
    rw [if_pos (by simp)]
    simp
  have hl : (pfx ++ [47] ++ buf.drop (pfx.length + 1)).length = pathMax + 1 := by
    simp only [List.length_append, List.length_singleton, List.length_drop, hb]
    rw [pathMax]; omega
  have hmem : ∀ n, n ∈ scandir (fs.names pfx) ↔ fs.at (inDir pfx n) ≠ none ∧ 47 ∉ n ∧ n ≠ [] := by
    intro n
    rw [(scandir_perm _).mem_iff, Fs.names_iff]
  have hnz : ∀ n ∈ scandir (fs.names pfx), 0 ∉ n := by
    intro n hn h0
    exact hz _ ((hmem n).1 hn).1 (by simp [inDir, h0])
  have hnm : ∀ m j, IsName m j → fs.at (inDir pfx m) ≠ none → m ∈ scandir (fs.names pfx) := by
    intro m j hm hne
    refine (hmem m).2 ⟨hne, fun h => ?_, fun h => ?_⟩
    · have := hm.2.1 _ h; revert this; simp [Digit]
    · have := hm.1; rw [h] at this; cases this
  obtain ⟨t', f', e, h⟩ := corruptLoop_ok hp hpl _ _ false hnz hl
  unfold storeCorrupt
  rw [if_neg (by rw [pathMax]; omega), h0, Res.bind_ok, h1, Res.bind_ok]
  by_cases hs : W.scanFails = true ∨ fs.at pfx ≠ some .dir
  · rw [if_pos hs]
    refine .inl ⟨rfl, ?_⟩
    rcases hs with hs | hs
    · exact .inl hs
    · exact .inr (.inr (.inr (.inl hs)))
  rw [if_neg hs, e, Res.bind_ok]
  dsimp only
  rcases h with ⟨hno, _, rfl⟩ | ⟨a, n, b, k, hsplit, hk, hn, hno, rfl, hc⟩
  · refine .inl ⟨rfl, .inr (.inr (.inr (.inr (.inl fun n k hk hn => ?_))))⟩
    exact Classical.byContradiction fun h => hno n (hnm n k hn h) k hk hn
  rw [if_neg (by simp), hc]
  by_cases hst : W.statFails = true
  · rw [if_pos hst]; exact .inl ⟨rfl, .inr (.inl hst)⟩
  rw [if_neg hst]
  have hmax : ∀ m j, j < 2 ^ 32 → IsName m j → fs.at (inDir pfx m) ≠ none → j ≤ k := by
    intro m j hj hm hne
    have hin := hnm m j hm hne
    rw [hsplit] at hin
    have hsorted := scandir_sorted (fs.names pfx)
    rw [hsplit] at hsorted
    rcases List.mem_append.1 hin with hin | hin
    · have hle := (List.pairwise_append.1 hsorted).2.2 m hin n (.head _)
      obtain ⟨d1, d2⟩ := strcmp_decimal (hm.1.trans hn.1.symm) hm.2.1 hn.2.1
      rw [hm.2.2, hn.2.2] at d1 d2
      rcases Int.lt_or_eq_of_le hle with hc | hc
      · exact Nat.le_of_lt (d1.1 hc)
      · exact Nat.le_of_eq (d2.1 hc)
    · rcases List.mem_cons.1 hin with rfl | hin
      · rw [← hm.2.2, ← hn.2.2]
      · exact (hno m hin j hj hm).elim
  have hex : fs.at (inDir pfx n) ≠ none := ((hmem n).1 (by rw [hsplit]; simp)).1
  cases hat : fs.at (inDir pfx n) with
  | none => exact (hex hat).elim
  | some x =>
    cases x with
    | dir => exact .inl ⟨rfl, .inr (.inr (.inr (.inr (.inr ⟨n, k, hk, hn, hex, hmax, fun d h => by rw [hat] at h; cases h⟩))))⟩
    | file data =>
      dsimp only
      by_cases hd : data.length = 0
      · rw [if_pos hd]
        exact .inl ⟨rfl, .inr (.inr (.inr (.inr (.inr ⟨n, k, hk, hn, hex, hmax, fun d h => by
          rw [hat] at h; cases h; exact List.length_eq_zero_iff.1 hd⟩))))⟩
      rw [if_neg hd]
      unfold Fs.truncate
      by_cases htr : W.truncFails = true
      · rw [if_pos htr]; exact .inl ⟨rfl, .inr (.inr (.inl htr))⟩
      rw [if_neg htr, hat]
      refine .inr ⟨n, k, data, ?_, hk, hn, hat, (fun h => hd (by rw [h]; rfl)), hmax, rfl⟩
      exact Classical.byContradiction fun h => hs (.inr h)

/-- C76: `urkel__corrupt` changes nothing but the numbered file with the highest number, from
which it takes one byte, and that only if it returns 1. -/
theorem C76_untouched (W : CFaults) {pfx buf : Bytes} (hp : 0 ∉ pfx) (hpl : pfx.length ≤ 1013) {fs : Fs} (hz : fs.Strings)
    (hb : buf.length = pathMax + 1) : ∃ r fs', storeCorrupt W fs pfx buf = .ok (r, fs') ∧ (r = false → fs' = fs) ∧
      (r = true → ∃ n k data, k < 2 ^ 32 ∧ IsName n k ∧ (∀ m j, j < 2 ^ 32 → IsName m j → fs.at (inDir pfx m) ≠ none → j ≤ k) ∧
        fs.at (inDir pfx n) = some (.file data) ∧ data ≠ [] ∧
        ∀ p, fs'.at p = if p = inDir pfx n then some (.file data.dropLast) else fs.at p) := by
  rcases storeCorrupt_eq W hp hpl hz hb with ⟨e, _⟩ | ⟨n, k, data, _, h1, h2, h3, h4, h5, e⟩
  · exact ⟨_, _, e, fun _ => rfl, fun h => nomatch h⟩
  · refine ⟨_, _, e, (fun h => nomatch h), fun _ => ⟨n, k, data, h1, h2, h5, h3, h4, fun p => ?_⟩⟩
    rw [Fs.at_put, Fs.at_remove, ← List.dropLast_eq_take]
    split <;> rfl

/-- C76: on the directory of a database, without failing system calls, `urkel__corrupt`
returns 1 exactly if the last data file has any bytes, and then takes its last byte. -/
theorem C76_cut {pfx buf : Bytes} (hp : 0 ∉ pfx) (hpl : pfx.length ≤ 1013) {fs : Fs} (hz : fs.Strings)
    (hb : buf.length = pathMax + 1) {c : Dir} (hc : HoldsDb fs pfx c) :
    (c.files.getLastD [] = [] → storeCorrupt {} fs pfx buf = .ok (false, fs)) ∧
    ∀ i l x, c.files = i ++ [l ++ [x]] → ∃ fs', storeCorrupt {} fs pfx buf = .ok (true, fs') ∧ HoldsDb fs' pfx ⟨c.keyFile, i ++ [l]⟩ := by
  obtain ⟨hdir, ⟨hk, hle, hfiles⟩, honly⟩ := hc
  have hname : ∀ j f, c.files[j]? = some f → ∃ name, IsName name (j + 1) ∧ j + 1 < 2 ^ 32 ∧ fs.at (inDir pfx name) = some (.file f) := by
    intro j f hj
    have hlt := (List.getElem?_eq_some_iff.1 hj).1
    obtain ⟨name, h1, h2, h3, h4⟩ := hfiles j hlt
    rw [hj] at h4
    exact ⟨name, ⟨h1, h2, h3⟩, by omega, h4⟩
  constructor
  · intro hlast
    rcases storeCorrupt_eq {} hp hpl hz hb with ⟨e, _⟩ | ⟨n, k, data, _, h1, h2, h3, h4, h5, e⟩
    · exact e
    · exfalso
      obtain ⟨b1, b2⟩ := honly n k h2 h1 (by rw [h3]; exact fun h => nomatch h)
      have hne : c.files ≠ [] := by intro h; rw [h] at b2; simp at b2; omega
      obtain ⟨i, l, hi⟩ := snoc_cases hne
      rw [hi, List.getLastD_concat] at hlast
      subst hlast
      obtain ⟨name, c1, c2, c3⟩ := hname i.length [] (by rw [hi]; simp)
      have := h5 name _ c2 c1 (by rw [c3]; exact fun h => nomatch h)
      have hk' : k = i.length + 1 := by rw [hi] at b2; simp at b2; omega
      subst hk'
      rw [h2.inj c1, c3] at h3
      cases h3
      exact h4 rfl
  · intro i l x hi
    obtain ⟨name, c1, c2, c3⟩ := hname i.length (l ++ [x]) (by rw [hi]; simp)
    have hlen : c.files.length = i.length + 1 := by rw [hi]; simp
    have htop : ∀ n k, k < 2 ^ 32 → IsName n k → fs.at (inDir pfx n) ≠ none → (∀ m j, j < 2 ^ 32 → IsName m j → fs.at (inDir pfx m) ≠ none → j ≤ k) → n = name := by
      intro n k h1 h2 h3 h5
      obtain ⟨b1, b2⟩ := honly n k h2 h1 h3
      have := h5 name _ c2 c1 (by rw [c3]; exact fun h => nomatch h)
      have hk' : k = i.length + 1 := by omega
      subst hk'
      exact h2.inj c1
    rcases storeCorrupt_eq {} hp hpl hz hb with ⟨e, h⟩ | ⟨n, k, data, _, h1, h2, h3, h4, h5, e⟩
    · exfalso
      rcases h with h | h | h | h | h | ⟨n, k, h1, h2, h3, h5, h6⟩
      · cases h
      · cases h
      · cases h
      · exact h hdir
      · have := h _ _ c2 c1
        rw [c3] at this; cases this
      · rw [htop n k h1 h2 h3 h5] at h6
        have := h6 _ c3
        simp at this
    · refine ⟨_, e, ?_⟩
      have hn := htop n k h1 h2 (by rw [h3]; exact fun h => nomatch h) h5
      subst hn
      rw [c3] at h3
      cases h3
      have hat : ∀ p, ((fs.remove (inDir pfx n)).put (inDir pfx n) (.file ((l ++ [x]).take ((l ++ [x]).length - 1)))).at p =
          if p = inDir pfx n then some (.file l) else fs.at p := by
        intro p
        rw [Fs.at_put, Fs.at_remove, ← List.dropLast_eq_take, List.dropLast_concat]
        split <;> rfl
      refine ⟨?_, ⟨?_, ?_, ?_⟩, ?_⟩
      · rw [hat, if_neg (show pfx ≠ inDir pfx n from (inDir_ne pfx n).symm)]; exact hdir
      · rw [hat, if_neg]
        · exact hk
        · intro h
          have := inDir_inj h
          have h10 := c1.1
          rw [← this] at h10
          revert h10; decide +kernel
      · simp only [List.length_append, List.length_singleton] at hlen ⊢
        omega
      · intro k hk
        simp only [List.length_append, List.length_singleton] at hk
        obtain ⟨nm, n1, n2, n3, n4⟩ := hfiles k (by omega)
        refine ⟨nm, n1, n2, n3, ?_⟩
        rw [hat]
        by_cases hkl : k = i.length
        · subst hkl
          have : nm = n := IsName.inj (n := i.length + 1) ⟨n1, n2, n3⟩ c1
          rw [if_pos (by rw [this])]
          simp
        · rw [if_neg, n4, hi]
          · rw [List.getElem?_append_left (by omega), List.getElem?_append_left (by omega)]
          · intro h
            rw [inDir_inj h] at n3
            have := c1.2.2
            unfold decimal at this
            omega
      · intro nm k m1 m2 m3
        rw [hat] at m3
        simp only [List.length_append, List.length_singleton]
        by_cases h : inDir pfx nm = inDir pfx n
        · rw [inDir_inj h] at m1
          have := m1.2.2.symm.trans c1.2.2
          omega
        · rw [if_neg h] at m3
          have := honly nm k m1 m2 m3
          omega

/-- C76: with a prefix of 1014 bytes the buffer overflows as soon as the directory has a
numbered file; longer prefixes are refused. -/
theorem C76_overflow {pfx buf : Bytes} (hp : 0 ∉ pfx) {fs : Fs} (hz : fs.Strings) (hb : buf.length = pathMax + 1) :
    (pfx.length = 1014 → fs.at pfx = some .dir → (∃ n k, k < 2 ^ 32 ∧ IsName n k ∧ fs.at (inDir pfx n) ≠ none) → storeCorrupt {} fs pfx buf = .ub) ∧
    (1014 < pfx.length → storeCorrupt {} fs pfx buf = .ok (false, fs)) := by
  refine ⟨fun hlen hdir ⟨n, k, hk, hn, hne⟩ => ?_, fun hlen => ?_⟩
  · have h0 : wrMany buf 0 (pfx ++ [0]) = .ok (pfx ++ [0] ++ buf.drop (pfx.length + 1)) := by
      rw [wrMany_ok _ _ _ (by rw [hb, pathMax]; simp; omega)]
      simp
    have h1 : wrAt (pfx ++ [0] ++ buf.drop (pfx.length + 1)) pfx.length 47 = .ok (pfx ++ [47] ++ buf.drop (pfx.length + 1)) := by
      unfold wrAt
      rw [if_pos (by simp)]
      simp
    have hl : (pfx ++ [47] ++ buf.drop (pfx.length + 1)).length = pathMax + 1 := by
      simp only [List.length_append, List.length_singleton, List.length_drop, hb]
      rw [pathMax]; omega
    have hmem : ∀ n, n ∈ scandir (fs.names pfx) ↔ fs.at (inDir pfx n) ≠ none ∧ 47 ∉ n ∧ n ≠ [] := by
      intro n
      rw [(scandir_perm _).mem_iff, Fs.names_iff]
    have hnz : ∀ n ∈ scandir (fs.names pfx), 0 ∉ n := by
      intro n hn h0
      exact hz _ ((hmem n).1 hn).1 (by simp [inDir, h0])
    have hin : n ∈ scandir (fs.names pfx) := by
      refine (hmem n).2 ⟨hne, fun h => ?_, fun h => ?_⟩
      · have := hn.2.1 _ h; revert this; simp [Digit]
      · have := hn.1; rw [h] at this; cases this
    have go : ∀ (names : List Bytes) (f : Bool), (∀ n ∈ names, 0 ∉ n) → n ∈ names →
        corruptLoop (pfx.length + 1) names (pfx ++ [47] ++ buf.drop (pfx.length + 1)) f = .ub := by
      intro names
      induction names with
      | nil => intro f _ h; cases h
      | cons m names ih =>
        intro f hz hm
        obtain ⟨r, e, hr⟩ := C37_parse m (fun c hc h => hz m (.head _) (h ▸ hc))
        rw [corruptLoop, e]
        dsimp only
        cases r with
        | none =>
          rw [if_neg (by simp)]
          refine ih f (fun a ha => hz a (.tail _ ha)) ?_
          rcases List.mem_cons.1 hm with rfl | hm
          · exact nomatch (hr k).2 ⟨hn, hk⟩
          · exact hm
        | some j =>
          rw [if_pos (by rfl : (some j).isSome = true)]
          obtain ⟨hj, _⟩ := (hr j).1 rfl
          rw [wrMany_ub _ _ _ (by rw [hl, pathMax]; simp [hj.1]; omega) (by rw [hl, pathMax]; omega)]
    unfold storeCorrupt
    rw [if_neg (by rw [pathMax]; omega), h0, Res.bind_ok, h1, Res.bind_ok, if_neg (by simp [hdir]), go _ _ hnz hin]
    rfl
  · unfold storeCorrupt
    exact if_pos (by rw [pathMax]; omega)

/-- C76: `urkel__corrupt` works on the directory the prefix stands for. -/
theorem C76_target (W : CFaults) (fs : Fs) (path cwd : Option Bytes) (junk buf : Bytes) (hp : 0 ∉ path.getD [])
    (hd : ∀ d, cwd = some d → d.head? = some 47 ∧ 0 ∉ d) (hj : 8193 ≤ junk.length) :
    urkelCorrupt W fs path cwd junk buf =
      (match targetOf path cwd with
        | none => .ok (false, fs)
        | some pfx => storeCorrupt W fs pfx buf) := by
  unfold urkelCorrupt targetOf
  rw [C54_resolve path cwd junk hp hd hj]
  have hc : ∀ q : Bytes, 0 ∉ q → cstr (Path.normal q ++ [0]) = Path.normal q := by
    intro q hq
    have := cstr_eq (t := []) (normal_no_zero hq)
    rwa [List.append_nil] at this
  split
  · simp only [Res.bind_ok, hc _ hp]
  · cases cwd with
    | none => rfl
    | some d =>
      obtain ⟨_, hd0⟩ := hd d rfl
      have ha : 0 ∉ absolute d (path.getD []) := by
        unfold absolute
        split
        · exact hp
        · split
          · exact hd0
          · simp [hd0, hp]
      dsimp only
      split
      · rfl
      · simp only [Res.bind_ok, hc _ ha]

/-! ### The last commit -/

/-- A commit changes the files. -/
theorem commit_grows {E : Env} (hE : EnvOk E) {s s' : Sys} {log : List (B32 × Contents)} {x : B32 × Contents} (h : Logged E log s) (h' : Logged E (x :: log) s')
    (hk : s'.db.store.key = s.db.store.key) : s'.db.store.files ≠ s.db.store.files ∧ ∃ i l b, s'.db.store.files = i ++ [l ++ [b]] := by
  obtain ⟨sp, hist, hs, e1, _⟩ := h.sim hE
  obtain ⟨sp', hist', hs', e1', _⟩ := h'.sim hE
  have l1 : hist.length = log.length := by
    have := congrArg List.length (hs.hist.symm.trans e1)
    simpa using this
  have l2 : hist'.length = log.length + 1 := by
    have := congrArg List.length (hs'.hist.symm.trans e1')
    simpa using this
  have h38 : metaSize = 38 := rfl
  rcases hs'.db.inv.tail with ⟨h, _⟩ | ⟨t1, t2⟩
  · rw [h] at l2; simp at l2
  constructor
  · intro he
    rcases hs.db.inv.tail with ⟨_, h⟩ | ⟨u1, u2⟩
    · rw [he, h] at t2
      simp [lastLen, h38] at t2
    · have c1 := hs.db.inv.chain
      have c2 := hs'.db.inv.chain
      rw [hk, he] at c2
      rw [he] at t1 t2
      have := HistAt.len_unique hE c1 c2 (u1.trans t1.symm) (by omega)
      omega
  · obtain ⟨i, f, e, _⟩ := hs'.db.inv.slab.sok.files_snoc
    rw [e, lastLen_snoc, h38] at t2
    have hf : f ≠ [] := by rintro rfl; simp at t2
    refine ⟨i, f.dropLast, f.getLast hf, ?_⟩
    rw [e, List.dropLast_append_getLast]

/-- Calls that do not commit leave the files as they are. -/
theorem other_same {E : Env} (hE : EnvOk E) {s s' : Sys} (hr : Reachable E s) {op : Op} {r : Ret} (ha : Allowed E s op)
    (e : step E s op = .ok (s', r)) (hno : r ≠ .unit ∨ ∀ c, ¬ Commits E s op c) : s'.db.store.files = s.db.store.files := by
  by_cases hop : ∃ rand, op = .reopen rand
  · obtain ⟨rand, rfl⟩ := hop
    obtain ⟨sp, hist, hs⟩ := hr.sim hE
    obtain ⟨db', e', _, hf, hk, _⟩ := reopen_ok hE hs.db ha rand
    simp only [step, e', Res.bind_ok, Res.pure_eq] at e
    cases e
    exact hf
  · have hop' : ∀ rand, op ≠ .reopen rand := fun rand h => hop ⟨rand, h⟩
    by_cases hw : op.Writes
    · obtain ⟨sp, hist, h⟩ := hr.sim hE
      cases op with
      | commit id =>
        obtain ⟨hu, ⟨c, hc⟩, _⟩ := commit_unit hE hr ha e
        exact (hno.elim (fun h => h hu) fun h => h c hc).elim
      | insert1 k v =>
        obtain ⟨hlen, hcan⟩ := ha
        obtain ⟨db', tx, t, ks, e1, hs, htx, hsn, hv, hk, hroom⟩ := canCommit1_tree hE h hcan
        have hio := txCreate_sameIo e1
        have hcm : Commits E s (.insert1 k v) (Contents.set t.find k (some v)) := ⟨db', tx, t.find, e1, htx.shows hs.db, rfl⟩
        rcases hlen with hlen | hlen
        · obtain ⟨tx', e3, ht'⟩ := txInsert_ok hs.db htx k (v := v) (by omega)
          obtain ⟨it, ifd⟩ := Top.insert htx.top k v
          obtain ⟨db2, tx2, e4, hd2, ht2, hc, _⟩ := txCommit_ok hE hs.db ht' (vals_set htx.top it ifd hv (by rintro _ ⟨⟩; exact hlen))
            (room_of ht'.top (vals_set htx.top it ifd hv (by rintro _ ⟨⟩; exact hlen)) (ks := k :: ks) (fun k' hk' => by
              rw [ifd, Contents.set_apply] at hk'
              split at hk'
              · next e => simp [e]
              · exact List.mem_cons_of_mem _ (hk k' hk')) (by simpa using hroom))
          simp only [step, urkelInsert, e1, Res.bind_ok, e3, e4, txDestroy_ok ht2, Res.pure_eq] at e
          cases e
          exact (hno.elim (fun h => h rfl) fun h => h _ hcm).elim
        · simp only [step, urkelInsert, e1, Res.bind_ok, txInsert_big hlen, txDestroy_ok htx, Res.pure_eq] at e
          cases e
          exact hio.1
      | remove1 k =>
        obtain ⟨db', tx, t, ks, e1, hs, htx, hsn, hv, hk, hroom⟩ := canCommit1_tree hE h ha
        have hio := txCreate_sameIo e1
        have hcm : Commits E s (.remove1 k) (Contents.set t.find k none) := ⟨db', tx, t.find, e1, htx.shows hs.db, rfl⟩
        have hrm := txRemove_ok hs.db htx k
        cases hf : t.find k with
        | none =>
          rw [hf] at hrm
          simp only [step, urkelRemove, e1, Res.bind_ok, hrm, txDestroy_ok htx, Res.pure_eq] at e
          cases e
          exact hio.1
        | some v =>
          rw [hf] at hrm
          obtain ⟨tx', e3, ht'⟩ := hrm
          obtain ⟨it, ifd⟩ := Top.remove htx.top hf
          obtain ⟨db2, tx2, e4, hd2, ht2, hc, _⟩ := txCommit_ok hE hs.db ht' (vals_set htx.top it ifd hv (by simp))
            (room_of ht'.top (vals_set htx.top it ifd hv (by simp)) (ks := k :: ks) (fun k' hk' => by
              rw [ifd, Contents.set_apply] at hk'
              split at hk'
              · next e => simp [e]
              · exact List.mem_cons_of_mem _ (hk k' hk')) (by simpa using hroom))
          simp only [step, urkelRemove, e1, Res.bind_ok, e3, e4, txDestroy_ok ht2, Res.pure_eq] at e
          cases e
          exact (hno.elim (fun h => h rfl) fun h => h _ hcm).elim
      | _ => exact hw.elim
    · exact (step_same hop' hw e).1

theorem LogSeq.suffix {E : Env} {log log' : List ((B32 × Contents) × Bool)} {s S : Sys} {l : List (Op × Ret)} (h : LogSeq E log s l log' S) :
    ∃ new, log' = new ++ log := by
  induction h with
  | nil => exact ⟨[], rfl⟩
  | commit _ _ _ _ ih =>
    obtain ⟨new, h⟩ := ih
    exact ⟨new ++ [_], by rw [h, List.append_assoc]; rfl⟩
  | other _ _ _ _ ih => exact ih

/-- The last commit of a sequence of calls. -/
theorem LogSeq.last {E : Env} (hE : EnvOk E) {log log' : List ((B32 × Contents) × Bool)} {s S : Sys} {l : List (Op × Ret)} (h : LogSeq E log s l log' S) :
    Logged E (log.map Prod.fst) s → Careful E s l → (log' = log → S.db.store.files = s.db.store.files) ∧
    (log' ≠ log → ∃ (a b : List (Op × Ret)) (op : Op) (c : Contents) (loga : List ((B32 × Contents) × Bool)) (Sa Sb : Sys), l = a ++ (op, .unit) :: b ∧
      LogSeq E log s a loga Sa ∧ Logged E (loga.map Prod.fst) Sa ∧ Careful E Sa ((op, .unit) :: b) ∧ Allowed E Sa op ∧ step E Sa op = .ok (Sb, .unit) ∧
      Commits E Sa op c ∧ log' = ((dbRoot Sb.db, c), true) :: loga ∧ S.db.store.files = Sb.db.store.files) := by
  induction h with
  | nil => intro _ _; exact ⟨fun _ => rfl, fun h => (h rfl).elim⟩
  | @commit log log' s s1 S op c t ha e hcm hrest ih =>
    intro hl hc
    have hl1 : Logged E ((((dbRoot s1.db, c), true) :: log).map Prod.fst) s1 := .commit hl ha e hcm
    have hc1 : Careful E s1 t := by cases hc with | cons _ _ _ hn => exact hn _ e
    obtain ⟨i1, i2⟩ := ih hl1 hc1
    constructor
    · rintro rfl
      obtain ⟨new, hn⟩ := hrest.suffix
      have := congrArg List.length hn
      simp at this
      omega
    · intro _
      by_cases hsame : log' = ((dbRoot s1.db, c), true) :: log
      · exact ⟨[], t, op, c, log, s, s1, rfl, .nil _ _, hl, hc, ha, e, hcm, hsame, i1 hsame⟩
      · obtain ⟨a, b, op', c', loga, Sa, Sb, rfl, r1, r2⟩ := i2 hsame
        exact ⟨_ :: a, b, op', c', loga, Sa, Sb, rfl, .commit ha e hcm r1, r2⟩
  | @other log log' s s1 S op r t ha e hcm hrest ih =>
    intro hl hc
    have hl1 : Logged E (log.map Prod.fst) s1 := .other hl ha e hcm
    have hc1 : Careful E s1 t := by cases hc with | cons _ _ _ hn => exact hn _ e
    obtain ⟨i1, i2⟩ := ih hl1 hc1
    refine ⟨fun h => (i1 h).trans (other_same hE hl.reachable ha e hcm), fun h => ?_⟩
    obtain ⟨a, b, op', c', loga, Sa, Sb, rfl, r1, r2⟩ := i2 h
    exact ⟨_ :: a, b, op', c', loga, Sa, Sb, rfl, .other ha e hcm r1, r2⟩

/-- The longest proper first part. -/
theorem FExt.short {a i : List Bytes} {l : Bytes} {x : UInt8} (h : FExt a (i ++ [l ++ [x]])) (hne : i ++ [l ++ [x]] ≠ a) (ha : a ≠ []) : FExt a (i ++ [l]) := by
  have hF : FExt (i ++ [l]) (i ++ [l ++ [x]]) := .inr ⟨i, l, [x], [], rfl, by simp⟩
  rcases FExt.total h hF ha (by simp) with h1 | h1
  · exact h1
  · obtain ⟨junk, extra, rfl⟩ := h1.snoc
    have hlen := h.length_le
    simp only [List.length_append, List.length_singleton] at hlen
    have hx : extra = [] := List.length_eq_zero_iff.1 (by omega)
    subst hx
    rw [List.append_nil] at h hne ⊢
    obtain ⟨f, hf, hp⟩ := h.get i.length (l ++ junk) (by simp)
    simp at hf
    subst hf
    rw [List.prefix_append_right_inj] at hp
    rcases List.prefix_cons_iff.1 hp with rfl | ⟨t, rfl, ht⟩
    · rw [List.append_nil]; exact FExt.refl _
    · have : t = [] := List.prefix_nil.1 ht
      subst this
      exact (hne rfl).elim

/-- C76: `urkel__corrupt` on the directory of a closed database undoes exactly the last
commit: it returns 1, and the next `urkel_open` gives the database of the commit before, with all
earlier commits and without the last one. -/
theorem C76_corrupt_partial {E : Env} (hE : EnvOk E) {log log' : List ((B32 × Contents) × Bool)} {s S : Sys} {l : List (Op × Ret)}
    (h0 : Logged E (log.map Prod.fst) s) (h : LogSeq E log s l log' S) (hc : Careful E s l) (hlog : log' ≠ log)
    {pfx buf : Bytes} (hp : 0 ∉ pfx) (hpl : pfx.length ≤ 1013) {fs : Fs} (hz : fs.Strings) (hb : buf.length = pathMax + 1)
    (hfs : HoldsDb fs pfx ⟨some S.db.store.key.bytes, S.db.store.files⟩) (rand : B32) :
    ∃ (fs' : Fs) (c : Dir) (files : List Bytes) (db : Db) (tx : Tx), storeCorrupt {} fs pfx buf = .ok (true, fs') ∧ HoldsDb fs' pfx c ∧
      dbOpen E c rand = .ok (⟨c.keyFile, files⟩, .ok db) ∧ dbRoot db = (log'.tail.map (·.1.1)).headD B32.zero ∧
      txCreate E db none = .ok (db, .ok tx) ∧ Shows db tx ((log'.tail.map (·.1.2)).headD Contents.empty) ∧
      (∀ (x : B32) (y : Contents) (b : Bool), ((x, y), b) ∈ log'.tail →
        ∃ db' tx' c', txCreate E db (some x) = .ok (db', .ok tx') ∧ Shows db' tx' c' ∧ (c' = y ∨ TreesCollide E.H y c')) ∧
      ∀ x : B32, x ≠ B32.zero → (∀ (y : Contents) (b : Bool), ((x, y), b) ∉ log'.tail) → ∃ db', txCreate E db (some x) = .ok (db', .error .ENOTFOUND) := by
  obtain ⟨a, b, op, c, loga, Sa, Sb, rfl, r1, r2, r3, r4, r5, r6, r7, r8⟩ := (h.last hE h0 hc).2 hlog
  have hk1 := (r1.files hE h0.reachable).2
  obtain ⟨hx, hk2⟩ := step_ext hE r2.reachable r4 r5
  have hkS := (h.files hE h0.reachable).2
  obtain ⟨g1, i, l, x, g2⟩ := commit_grows hE r2 (.commit r2 r4 r5 r6) hk2
  obtain ⟨fs', e1, hf'⟩ := (C76_cut hp hpl hz hb hfs).2 i l x (by rw [← g2]; exact r8)
  have ne := r2.reachable.files_ne hE
  rw [g2] at hx g1
  have hF1 : FExt Sa.db.store.files (i ++ [l]) := hx.short g1 ne
  have hF2 : FExt (i ++ [l]) Sb.db.store.files := by rw [g2]; exact .inr ⟨i, l, [x], [], rfl, by simp⟩
  have hF3 : ¬ FExt Sb.db.store.files (i ++ [l]) := by
    intro h
    have := h.antisymm hF2
    rw [g2] at this
    simp at this
  have hop := cut_stops hE r2 r4 r5 r3 hF1 hF2 hF3 rand
  have hal := r3.aligned
  obtain ⟨db, tx, o1, o2, o3, o4, _⟩ := C23_reopen_partial hE r2 (.inr hal) rand
  have hlogged : Logged E (loga.map Prod.fst) ⟨db, fun _ => none⟩ := by
    refine .other (op := .reopen rand) (r := .unit) r2 hal ?_ (Or.inr fun c hc => hc.elim)
    simp only [step, o1, Res.bind_ok]; rfl
  rw [r7, List.tail_cons]
  refine ⟨fs', _, Sa.db.store.files, db, tx, e1, hf', ?_, ?_, o3, ?_, ?_, ?_⟩
  · show dbOpen E ⟨some S.db.store.key.bytes, i ++ [l]⟩ rand = _
    rw [hkS, ← hk1, hop, o1]; rfl
  · rw [o2, List.map_map]; rfl
  · rw [List.map_map] at o4; exact o4
  · intro x y b hm
    obtain ⟨db', tx', c', b1, b2, _, b3⟩ := C19_snapshots hE hlogged (h := x) (c := y) (.tail _ (List.mem_map.2 ⟨_, hm, rfl⟩))
    exact ⟨db', tx', c', b1, b2, b3⟩
  · intro x hx hno
    obtain ⟨⟨db', b1, _⟩, _⟩ := C20_unknown_root_partial hE hlogged (h := x) hx (fun c hm => by
      obtain ⟨⟨⟨y, c'⟩, b⟩, hm, he⟩ := List.mem_map.1 hm
      cases he
      exact hno _ _ hm)
    exact ⟨db', b1⟩

/-- A file system with one database directory, `/d`, of one data file. -/
def oneFs (key data : Bytes) : Fs :=
  ⟨[([47, 100], .dir), (inDir [47, 100] nameMeta, .file key), (inDir [47, 100] ((serializeU32 1).take 10), .file data)]⟩

theorem oneFs_holds (key data : Bytes) : HoldsDb (oneFs key data) [47, 100] ⟨some key, [data]⟩ := by
  have e1 : ∀ p : Bytes, (oneFs key data).at p = (if p = [47, 100] then some .dir else if p = inDir [47, 100] nameMeta then some (.file key)
      else if p = inDir [47, 100] ((serializeU32 1).take 10) then some (.file data) else none) := by
    intro p
    unfold oneFs Fs.at
    simp only [List.lookup_cons, List.lookup_nil]
    have hq : ∀ q : Bytes, (p == q) = decide (p = q) := fun q => by
      by_cases h : p = q
      · simp [h]
      · rw [decide_eq_false h]; exact beq_eq_false_iff_ne.2 h
    rw [hq, hq, hq]
    by_cases h1 : p = [47, 100]
    · simp only [decide_eq_true h1, if_pos h1]
    · by_cases h2 : p = inDir [47, 100] nameMeta
      · simp only [decide_eq_false h1, decide_eq_true h2, if_neg h1, if_pos h2]
      · by_cases h3 : p = inDir [47, 100] ((serializeU32 1).take 10)
        · simp only [decide_eq_false h1, decide_eq_false h2, decide_eq_true h3, if_neg h1, if_neg h2, if_pos h3]
        · simp only [decide_eq_false h1, decide_eq_false h2, decide_eq_false h3, if_neg h1, if_neg h2, if_neg h3]
  have hn : IsName ((serializeU32 1).take 10) 1 := by
    refine ⟨by decide +kernel, ?_, by decide +kernel⟩
    have : ∀ c ∈ (serializeU32 1).take 10, 48 ≤ c.toNat ∧ c.toNat ≤ 57 := by decide +kernel
    exact this
  refine ⟨by rw [e1, if_pos rfl], ⟨?_, by simp, ?_⟩, ?_⟩
  · rw [e1, if_neg (by decide +kernel), if_pos (by decide +kernel)]; rfl
  · intro k hk
    match k, hk with
    | 0, _ =>
      refine ⟨_, hn.1, hn.2.1, hn.2.2, ?_⟩
      rw [e1, if_neg (by decide +kernel), if_neg (by decide +kernel), if_pos rfl]; rfl
  · intro name k h hk hne
    rw [e1] at hne
    split at hne
    · next e =>
      have := congrArg List.length e
      simp [inDir, h.1] at this
    · split at hne
      · next e =>
        have := inDir_inj e
        have hl := h.1
        rw [this] at hl
        exact absurd hl (by decide +kernel)
      · split at hne
        · next e =>
          have := inDir_inj e
          rw [this] at h
          have : k = 1 := h.2.2.symm.trans hn.2.2
          subst this
          exact ⟨Nat.le_refl _, by simp⟩
        · exact (hne rfl).elim

theorem oneFs_strings (key data : Bytes) : (oneFs key data).Strings :=
  strings_of (by
    unfold oneFs
    simp only [List.forall_mem_cons, List.not_mem_nil, IsEmpty.forall_iff, implies_true, and_true]
    decide +kernel)

/-- The database after its first commit: what the hypotheses of C76 ask for. -/
theorem first_careful : ∃ S : Sys, LogSeq toyEnv [] (sys2 (keyOf 1) [7]) [(.commit 0, .unit)] [((dbRoot S.db, Contents.ofList [(keyOf 1, [7])]), true)] S ∧
    Careful toyEnv (sys2 (keyOf 1) [7]) [(.commit 0, .unit)] ∧ S.db.store.files = firstFiles := by
  have hlen : (firstFiles.getLastD []).length % 38 = 0 := by decide +kernel
  set_option synthInstance.maxHeartbeats 200000 in
  set_option synthInstance.maxSize 1000 in
  have hown : OnlyOwnRecord toyEnv B32.zero [[]] firstFiles := onlyOwn_of (by decide +kernel)
  have hlog := sys2_logged (keyOf 1) [7] (by decide)
  obtain ⟨hist, t, hd, ht⟩ := hlog.reachable.tree toyEnv_ok (sys2_tx _ _)
  have hcan : CanCommit toyEnv (sys2 (keyOf 1) [7]).db (leafTx (keyOf 1) [7]) := sys2_can (keyOf 1) [7] (by decide)
  have hsh : Shows (sys2 (keyOf 1) [7]).db (leafTx (keyOf 1) [7]) (Contents.ofList [(keyOf 1, [7])]) := sys2_shows (keyOf 1) [7] (by decide)
  obtain ⟨hv, hcap⟩ := canCommit_tree hd ht hcan
  obtain ⟨db', tx', e, _, _, _⟩ := txCommit_ok toyEnv_ok hd ht hv hcap
  have hff : firstFiles = db'.store.files := by
    unfold firstFiles
    rw [show txCommit toyEnv db0 (leafTx (keyOf 1) [7]) = _ from e]
  have es : step toyEnv (sys2 (keyOf 1) [7]) (.commit 0) =
      .ok (({ sys2 (keyOf 1) [7] with db := db' } : Sys).setTx 0 (some tx'), .unit) := by
    simp only [step, Sys.tx, sys2_tx, Res.bind_ok, e, Res.pure_eq]; rfl
  have hal : ((sys2 (keyOf 1) [7]).db.store.files.getLastD []).length % 38 = 0 := rfl
  have hal2 : (db'.store.files.getLastD []).length % 38 = 0 := by rw [← hff]; exact hlen
  have hfil : (sys2 (keyOf 1) [7]).db.store.files = [[]] ∧ (sys2 (keyOf 1) [7]).db.store.key = B32.zero := ⟨rfl, rfl⟩
  have htx : (sys2 (keyOf 1) [7]).txs 0 = some (leafTx (keyOf 1) [7]) := sys2_tx _ _
  generalize sys2 (keyOf 1) [7] = s at *
  have hcm : Commits toyEnv s (.commit 0) (Contents.ofList [(keyOf 1, [7])]) := ⟨_, htx, hsh⟩
  refine ⟨_, .commit ⟨_, htx, hcan⟩ es hcm (.nil _ _), ?_, hff.symm⟩
  refine .cons hal ⟨_, htx, hcan⟩ ?_ ?_
  · intro s' e1 _
    rw [es] at e1; cases e1
    rw [hfil.1, hfil.2]
    show OnlyOwnRecord toyEnv B32.zero [[]] db'.store.files
    rw [← hff]; exact hown
  · intro s' e1
    rw [es] at e1; cases e1
    exact .nil hal2

/-- The first commit with its last 50 bytes lost: meets the hypotheses of `C76_tail_partial`. -/
example : ∃ (S : Sys) (log' : List ((B32 × Contents) × Bool)) (F : List Bytes), Logged toyEnv [] (sys2 (keyOf 1) [7]) ∧
    LogSeq toyEnv [] (sys2 (keyOf 1) [7]) [(.commit 0, .unit)] log' S ∧ Careful toyEnv (sys2 (keyOf 1) [7]) [(.commit 0, .unit)] ∧
    FExt (sys2 (keyOf 1) [7]).db.store.files F ∧ FExt F S.db.store.files ∧ F ≠ S.db.store.files ∧ F ≠ [[]] := by
  obtain ⟨S, h1, h2, h3⟩ := first_careful
  have hf : firstFiles = [(firstFiles.headD []).take 50 ++ (firstFiles.headD []).drop 50] := by
    rw [List.take_append_drop]
    decide +kernel
  refine ⟨S, _, [(firstFiles.headD []).take 50], sys2_logged _ _ (by decide), h1, h2, ?_, ?_, ?_, by decide +kernel⟩
  · rw [show (sys2 (keyOf 1) [7]).db.store.files = [[]] from rfl]
    generalize (firstFiles.headD []).take 50 = z
    exact .inr ⟨[], [], z, [], rfl, rfl⟩
  · rw [h3, hf]
    exact .inr ⟨[], (firstFiles.headD []).take 50, (firstFiles.headD []).drop 50, [], by simp, by simp⟩
  · rw [h3]; decide +kernel

/-- The directory of that database: meets the hypotheses of `C76_corrupt_partial` and of
`C76_cut`. -/
example : ∃ (S : Sys) (log' : List ((B32 × Contents) × Bool)) (fs : Fs), Logged toyEnv [] (sys2 (keyOf 1) [7]) ∧
    LogSeq toyEnv [] (sys2 (keyOf 1) [7]) [(.commit 0, .unit)] log' S ∧ Careful toyEnv (sys2 (keyOf 1) [7]) [(.commit 0, .unit)] ∧ log' ≠ [] ∧
    fs.Strings ∧ HoldsDb fs [47, 100] ⟨some S.db.store.key.bytes, S.db.store.files⟩ := by
  obtain ⟨S, h1, h2, h3⟩ := first_careful
  refine ⟨S, _, oneFs S.db.store.key.bytes (firstFiles.headD []), sys2_logged _ _ (by decide), h1, h2, by simp, oneFs_strings _ _, ?_⟩
  have hf : firstFiles = [firstFiles.headD []] := by decide +kernel
  rw [h3]
  generalize firstFiles = z at hf
  generalize S.db.store.key.bytes = w
  generalize hq : z.headD [] = q at hf
  subst hf
  exact oneFs_holds _ _

example : (match storeCorrupt {} sampleFs [47, 100] (List.replicate 1025 7) with | .ok (r, fs) => some (r, fs.at (inDir [47, 100] ((serializeU32 1).take 10)), fs.at [47, 101]) | _ => none) =
    some (true, some (.file []), some (.file [3])) := by decide +kernel

end Urkel
