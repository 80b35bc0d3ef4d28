import Verif.Lemmas.Destroy
import Verif.Props.Open
import Verif.Props.Path
/-
C58: what `urkel_destroy` removes, and what it returns.
-/
namespace Urkel

open Path

/-! ### C58 -/

/-- The directory a prefix stands for; none if it cannot be worked out. -/
def targetOf (path cwd : Option Bytes) : Option Bytes :=
  if (path.getD []).head? = some 47 then some (normal (path.getD []))
  else match cwd with
    | none => none
    | some d => if d.length + 1 + (path.getD []).length > 8192 then none else some (normal (absolute d (path.getD [])))

theorem normal_no_zero {q : Bytes} (h : 0 ∉ q) : 0 ∉ normal q := by
  have hs : ∀ q : Bytes, 0 ∉ q → ∀ c ∈ split q, 0 ∉ c := by
    intro q
    induction q with
    | nil => intro _ c hc; simp [split] at hc; simp [hc]
    | cons a q ih =>
      intro hq c hc
      simp only [List.mem_cons, not_or] at hq
      have ih := ih hq.2
      unfold split at hc
      split at hc
      · rcases List.mem_cons.1 hc with rfl | hc
        · simp
        · exact ih c hc
      · split at hc
        · simp at hc; subst hc; simp; exact hq.1
        · rename_i h t e
          rw [e] at ih
          rcases List.mem_cons.1 hc with rfl | hc
          · simp only [List.mem_cons, not_or]; exact ⟨hq.1, ih h (by simp)⟩
          · exact ih c (by simp [hc])
  have hf : ∀ (cs st : List Bytes), (∀ c ∈ cs, 0 ∉ c) → (∀ c ∈ st, 0 ∉ c) → ∀ c ∈ cs.foldl push st, 0 ∉ c := by
    intro cs
    induction cs with
    | nil => intro st _ h; exact h
    | cons x cs ih =>
      intro st h1 h2
      refine ih _ (fun c hc => h1 c (by simp [hc])) ?_
      unfold push
      split
      · exact h2
      · split
        · exact fun c hc => h2 c (List.dropLast_subset _ hc)
        · intro c hc
          rcases List.mem_append.1 hc with hc | hc
          · exact h2 c hc
          · simp at hc; subst hc; exact h1 c (by simp)
  have hr := hf (split q) [] (hs q h) (fun _ h => (nomatch h))
  unfold normal resolve
  generalize (split q).foldl push [] = cs at hr
  cases cs with
  | nil => simp [join]
  | cons c cs =>
    show 0 ∉ (c :: cs).flatMap fun c => 47 :: c
    intro hm
    obtain ⟨x, hx, h0⟩ := List.mem_flatMap.1 hm
    rcases List.mem_cons.1 h0 with h0 | h0
    · cases h0
    · exact hr x hx h0

/-- C58: `urkel_destroy` works on the directory the prefix stands for, and does nothing
if there is none. The theorems below say what happens to that directory. -/
theorem C58_target (W : Faults) (fs : Fs) (path cwd : Option Bytes) (junk buf : Bytes) (hp : 0 ∉ path.getD [])
    (hd : ∀ d, cwd = some d → d.head? = some 47 ∧ 0 ∉ d) (hj : 8193 ≤ junk.length) :
    urkelDestroy W fs path cwd junk buf =
      (match targetOf path cwd with
        | none => .ok (false, fs)
        | some pfx => storeDestroy W fs pfx buf) ∧
    ∀ pfx, targetOf path cwd = some pfx → 0 ∉ pfx := by
  unfold urkelDestroy targetOf
  rw [C54_resolve path cwd junk hp hd hj]
  have hc : ∀ q : Bytes, 0 ∉ q → cstr (normal q ++ [0]) = normal q := by
    intro q hq
    have := cstr_eq (t := []) (normal_no_zero hq)
    rwa [List.append_nil] at this
  split
  · refine ⟨?_, fun pfx h => ?_⟩
    · simp only [Res.bind_ok, hc _ hp]
    · cases h; exact normal_no_zero hp
  · cases cwd with
    | none => exact ⟨rfl, fun _ h => nomatch h⟩
    | some d =>
      obtain ⟨_, hd0⟩ := hd d rfl
      have ha : 0 ∉ absolute d (path.getD []) := by
        unfold absolute
        split
        · exact hp
        · split
          · exact hd0
          · simp [hd0, hp]
      dsimp only
      split
      · exact ⟨rfl, fun _ h => nomatch h⟩
      · refine ⟨?_, fun pfx h => ?_⟩
        · simp only [Res.bind_ok, hc _ ha]
        · cases h; exact normal_no_zero ha

/-- No name in the file system contains a zero byte (and none can). -/
def Fs.Strings (fs : Fs) : Prop := ∀ p, fs.at p ≠ none → 0 ∉ p

/-- The possible courses of the call. -/
theorem destroy_cases (W : Faults) {fs : Fs} {pfx buf : Bytes} (hz : fs.Strings) (hp : 0 ∉ pfx) (hb : buf.length = pathMax + 1) :
    (storeDestroy W fs pfx buf = .ok (false, fs) ∧
      (1014 < pfx.length ∨ W.openFails = true ∨ fs.at pfx ≠ some .dir ∨ fs.at (inDir pfx nameLock) = some .dir)) ∨
    (∃ fs1 : Fs, W.locked = true ∧ storeDestroy W fs pfx buf = .ok (false, fs1) ∧
      ∀ p, fs1.at p = if p = inDir pfx nameLock then some (.file []) else fs.at p) ∨
    (∃ fs1 : Fs, W.scanFails = true ∧ storeDestroy W fs pfx buf = .ok (false, fs1) ∧ ∀ p, p ≠ inDir pfx nameLock → fs1.at p = fs.at p) ∨
    (storeDestroy W fs pfx buf = .ub ∧ pfx.length = 1014 ∧ fs.at pfx = some .dir ∧
      ∃ n, OwnName n ∧ n.length = 10 ∧ fs.at (inDir pfx n) ≠ none) ∨
    (∃ fs1 : Fs, pfx.length ≤ 1014 ∧ fs.at pfx = some .dir ∧ fs.at (inDir pfx nameLock) ≠ some .dir ∧ W.locked = false ∧
      storeDestroy W fs pfx buf = .ok (fs1.rmdir W pfx) ∧
      (∀ p, fs1.at p = fs.at p ∨ (fs1.at p = none ∧ (∃ d, fs.at p = some (.file d)) ∧ ∃ n, OwnName n ∧ p = inDir pfx n) ∨ p = inDir pfx nameLock) ∧
      (∀ n, OwnName n ∨ n = nameLock → W.unlinkFails (inDir pfx n) = false → ∀ d, fs1.at (inDir pfx n) ≠ some (.file d)) ∧
      (fs1.at (inDir pfx nameLock) ≠ some .dir) ∧
      (pfx.length = 1014 → ∀ n, OwnName n → n.length = 10 → fs.at (inDir pfx n) = none)) := by
  by_cases hlen : 1014 < pfx.length
  · left
    refine ⟨?_, Or.inl hlen⟩
    unfold storeDestroy
    exact if_pos (by rw [pathMax]; omega)
  have hpl : pfx.length ≤ 1014 := Nat.not_lt.1 hlen
  obtain ⟨t, hl, e⟩ := storeDestroy_eq W hp hpl fs hb
  rcases openLock_cases W fs pfx with ⟨h1, h2⟩ | ⟨hdir, hnl, _, fs1, h1, h2⟩
  · left
    refine ⟨?_, Or.inr h2⟩
    rw [e, h1]; rfl
  right
  rw [h1] at e
  dsimp only at e
  by_cases hlk : W.locked = true
  · left
    refine ⟨fs1, hlk, ?_, h2⟩
    rw [e, if_pos (by simp [hlk])]
  right
  rw [if_neg (by simp [hlk])] at e
  by_cases hsc : W.scanFails = true
  · left
    rw [if_pos hsc, destroyEnd_eq W hp hpl _ _ hl] at e
    refine ⟨_, hsc, e, fun p hne => ?_⟩
    rw [Fs.at_unlink, if_neg (fun h => hne h.1), h2, if_neg hne]
  right
  rw [if_neg hsc] at e
  have hmem : ∀ n, n ∈ scandir (fs1.names pfx) ↔ fs1.at (inDir pfx n) ≠ none ∧ 47 ∉ n ∧ n ≠ [] := by
    intro n
    rw [(scandir_perm _).mem_iff, Fs.names_iff]
  have hnz : ∀ n ∈ scandir (fs1.names pfx), 0 ∉ n := by
    intro n hn h0
    have h3 := ((hmem n).1 hn).1
    rw [h2] at h3
    split at h3
    · rename_i h4
      rw [inDir_inj h4] at h0
      exact lock_slash.2.1 h0
    · exact hz _ h3 (by simp [inDir, h0])
  have hown1 : ∀ n, OwnName n → fs1.at (inDir pfx n) = fs.at (inDir pfx n) := by
    intro n ho
    rw [h2, if_neg]
    intro h
    rw [inDir_inj h] at ho
    exact lock_not_own ho
  rcases destroyLoop_ok W hp hpl (scandir (fs1.names pfx)) t fs1 hnz hl with ⟨t', fs2, e2, hl2, h3, h4, h5⟩ | ⟨e2, h3, n, hn, ho, h10⟩
  · right
    rw [e2] at e
    have e3 : storeDestroy W fs pfx buf = destroyEnd W pfx true (pfx ++ [47] ++ t') fs2 := e
    rw [destroyEnd_eq W hp hpl _ _ hl2] at e3
    refine ⟨_, hpl, hdir, hnl, by simpa using hlk, e3, ?_, ?_, ?_, ?_⟩
    · intro p
      by_cases hpl : p = inDir pfx nameLock
      · exact Or.inr (Or.inr hpl)
      · rw [Fs.at_unlink, if_neg (fun h => hpl h.1)]
        rcases h3 p with h | ⟨h, hd, n, _, ho, hn⟩
        · rw [h, h2, if_neg hpl]; exact Or.inl rfl
        · rw [h2, if_neg hpl] at hd; exact Or.inr (Or.inl ⟨h, hd, n, ho, hn⟩)
    · intro n ho hu d
      by_cases hn : n = nameLock
      · subst hn
        rw [Fs.at_unlink]
        split
        · exact fun h => nomatch h
        · rename_i hc; exact fun h => hc ⟨rfl, hu, d, h⟩
      · have ho := ho.resolve_right hn
        rw [Fs.at_unlink, if_neg (fun h => hn (inDir_inj h.1))]
        by_cases hm : n ∈ scandir (fs1.names pfx)
        · exact h4 n hm ho hu d
        · have : fs1.at (inDir pfx n) = none :=
            Classical.byContradiction (fun h => hm ((hmem n).2 ⟨h, (own_slash ho).1, (own_slash ho).2.2⟩))
          rcases h3 (inDir pfx n) with h | ⟨h, _⟩
          · rw [h, this]; exact fun h => nomatch h
          · rw [h]; exact fun h => nomatch h
    · rw [Fs.at_unlink]
      split
      · exact fun h => nomatch h
      · rcases h3 (inDir pfx nameLock) with h | ⟨h, _⟩
        · rw [h, h2, if_pos rfl]; exact fun h => nomatch h
        · rw [h]; exact fun h => nomatch h
    · intro hq n ho h10
      rw [← hown1 n ho]
      exact Classical.byContradiction (fun h => h5 hq n ((hmem n).2 ⟨h, (own_slash ho).1, (own_slash ho).2.2⟩) ho h10)
  · left
    rw [e2] at e
    refine ⟨e, h3, hdir, n, ho, h10, ?_⟩
    rw [← hown1 n ho]
    exact ((hmem n).1 hn).1

/-- C58: whatever the call returns, and whichever system calls fail, it changes nothing
but the directory itself, its lock file, "meta" and the files with 10-digit names in
it. -/
theorem C58_untouched (W : Faults) {fs fs' : Fs} {pfx buf : Bytes} {r : Bool} (hz : fs.Strings) (hp : 0 ∉ pfx)
    (hb : buf.length = pathMax + 1) (h : storeDestroy W fs pfx buf = .ok (r, fs')) (p : Bytes) (hn : ¬ OwnPath pfx p) :
    fs'.at p = fs.at p := by
  have hlk : p ≠ inDir pfx nameLock := fun h => hn (Or.inr (Or.inl h))
  have hpx : p ≠ pfx := fun h => hn (Or.inl h)
  rcases destroy_cases W hz hp hb with ⟨e, _⟩ | ⟨fs1, _, e, h1⟩ | ⟨fs1, _, e, h1⟩ | ⟨e, _⟩ | ⟨fs1, _, _, _, _, e, h1, _⟩ <;> rw [e] at h
  · cases h; rfl
  · cases h; rw [h1, if_neg hlk]
  · cases h; exact h1 p hlk
  · cases h
  · have h3 : fs1.at p = fs.at p := by
      rcases h1 p with h | ⟨_, _, n, ho, hq⟩ | h
      · exact h
      · exact absurd (Or.inr (Or.inr ⟨n, ho, hq⟩)) hn
      · exact absurd h hlk
    rcases rmdir_cases W fs1 pfx with ⟨e2, _⟩ | ⟨_, _, _, e2⟩ <;> rw [e2] at h <;> cases h
    · exact h3
    · rw [Fs.at_remove, if_neg hpx, h3]

/-- C58: return value 1 means that the directory and everything in it are gone, and that
there was nothing in it but the files of the database. -/
theorem C58_success (W : Faults) {fs fs' : Fs} {pfx buf : Bytes} (hz : fs.Strings) (hp : 0 ∉ pfx)
    (hb : buf.length = pathMax + 1) (h : storeDestroy W fs pfx buf = .ok (true, fs')) :
    fs.at pfx = some .dir ∧ OnlyOurs fs pfx ∧ fs'.at pfx = none ∧ ∀ q, fs'.at (pfx ++ [47] ++ q) = none := by
  rcases destroy_cases W hz hp hb with ⟨e, _⟩ | ⟨fs1, _, e, h1⟩ | ⟨fs1, _, e, h1⟩ | ⟨e, _⟩ | ⟨fs1, hpl, hdir, hnl, hlk, e, h1, h2, _⟩
  all_goals have e := e; rw [e] at h
  any_goals cases h
  rcases rmdir_cases W fs1 pfx with ⟨e2, _⟩ | ⟨_, _, h3, e2⟩ <;> rw [e2] at h <;> cases h
  refine ⟨hdir, fun q x hx => ?_, by rw [Fs.at_remove, if_pos rfl], fun q => ?_⟩
  · rcases h1 (pfx ++ [47] ++ q) with h | ⟨_, ⟨d, hd⟩, n, ho, hq⟩ | h
    · rw [h3 q, hx] at h; cases h
    · rw [hx] at hd; exact ⟨Or.inr (Or.inr ⟨n, ho, hq⟩), d, Option.some.inj hd⟩
    · refine ⟨Or.inr (Or.inl h), ?_⟩
      cases x with
      | file d => exact ⟨d, rfl⟩
      | dir => rw [h] at hx; exact absurd hx hnl
  · rw [Fs.at_remove, if_neg (inDir_ne pfx q), h3 q]

/-- C58: while another process has the database open, nothing is deleted: the call
returns 0, and only the (empty) lock file may be created or emptied. -/
theorem C58_locked (W : Faults) {fs : Fs} {pfx buf : Bytes} (hz : fs.Strings) (hp : 0 ∉ pfx)
    (hb : buf.length = pathMax + 1) (hl : W.locked = true) :
    ∃ fs', storeDestroy W fs pfx buf = .ok (false, fs') ∧ (∀ p, p ≠ inDir pfx nameLock → fs'.at p = fs.at p) ∧
      (fs.at (inDir pfx nameLock) ≠ none → fs'.at (inDir pfx nameLock) ≠ none) := by
  by_cases hlen : 1014 < pfx.length
  · refine ⟨fs, ?_, fun _ _ => rfl, fun h => h⟩
    unfold storeDestroy
    exact if_pos (by rw [pathMax]; omega)
  obtain ⟨t, _, e⟩ := storeDestroy_eq W hp (Nat.not_lt.1 hlen) fs hb
  rcases openLock_cases W fs pfx with ⟨h1, h2⟩ | ⟨_, _, _, fs1, h1, h2⟩
  · refine ⟨fs, ?_, fun _ _ => rfl, fun h => h⟩
    rw [e, h1]; rfl
  · refine ⟨fs1, ?_, fun p hp => ?_, fun _ => ?_⟩
    · rw [e, h1, hl]; rfl
    · rw [h2, if_neg hp]
    · rw [h2, if_pos rfl]; exact fun h => nomatch h

/-- C58: without failing system calls, and for a prefix of at most 1013 bytes, the call
returns 1 exactly when the directory holds nothing but files of the database. -/
theorem C58_outcome {fs : Fs} {pfx buf : Bytes} (hz : fs.Strings) (hp : 0 ∉ pfx) (hb : buf.length = pathMax + 1)
    (hlen : pfx.length ≤ 1013) (hdir : fs.at pfx = some .dir) :
    ∃ r fs', storeDestroy {} fs pfx buf = .ok (r, fs') ∧ (r = true ↔ OnlyOurs fs pfx) ∧
      (fs.at (inDir pfx nameLock) ≠ some .dir → ∀ n, OwnName n → ∀ d, fs'.at (inDir pfx n) ≠ some (.file d)) := by
  rcases destroy_cases {} hz hp hb with ⟨e, h⟩ | ⟨fs1, h, _⟩ | ⟨fs1, h, _⟩ | ⟨_, h, _⟩ | ⟨fs1, _, _, hnl, _, e, h1, h2, h3, _⟩
  · refine ⟨false, fs, e, ?_, ?_⟩
    · refine ⟨fun h => (nomatch h), fun ho => ?_⟩
      rcases h with h | h | h | h
      · omega
      · cases h
      · exact absurd hdir h
      · obtain ⟨_, d, hd⟩ := ho nameLock _ h
        cases hd
    · intro hl
      rcases h with h | h | h | h
      · omega
      · cases h
      · exact absurd hdir h
      · exact absurd h hl
  · cases h
  · cases h
  · omega
  · rcases rmdir_cases {} fs1 pfx with ⟨e2, h4⟩ | ⟨h4, _, h5, e2⟩
    · refine ⟨false, fs1, by rw [e, e2], ⟨fun h => (nomatch h), fun ho => ?_⟩, fun _ n hn d => h2 n (Or.inl hn) rfl d⟩
      exfalso
      rcases h4 with h4 | h4 | ⟨q, h4⟩
      · cases h4
      · rcases h1 pfx with h | ⟨_, _, n, _, hq⟩ | h
        · exact h4 (h.trans hdir)
        · exact inDir_ne pfx n hq.symm
        · exact inDir_ne pfx _ h.symm
      · cases hx : fs1.at (pfx ++ [47] ++ q) with
        | none => exact h4 hx
        | some x =>
          have hown : ∃ n, (OwnName n ∨ n = nameLock) ∧ pfx ++ [47] ++ q = inDir pfx n := by
            rcases h1 (pfx ++ [47] ++ q) with h | ⟨_, _, n, ho, hq⟩ | h
            · rw [hx] at h
              rcases (ho q x h.symm).1 with h | h | ⟨n, ho, h⟩
              · exact absurd h (inDir_ne pfx q)
              · exact ⟨nameLock, Or.inr rfl, h⟩
              · exact ⟨n, Or.inl ho, h⟩
            · exact ⟨n, Or.inl ho, hq⟩
            · exact ⟨nameLock, Or.inr rfl, h⟩
          obtain ⟨n, hn, hq⟩ := hown
          cases x with
          | file d => rw [hq] at hx; exact h2 n hn rfl d hx
          | dir =>
            rcases h1 (pfx ++ [47] ++ q) with h | ⟨h, _⟩ | h
            · rw [hx] at h
              obtain ⟨_, d, hd⟩ := ho q _ h.symm
              cases hd
            · rw [hx] at h; cases h
            · rw [h] at hx; exact h3 hx
    · refine ⟨true, _, by rw [e, e2], ⟨fun _ => ?_, fun _ => rfl⟩, fun _ n hn d => ?_⟩
      · exact (C58_success {} hz hp hb (by rw [e, e2])).2.1
      · rw [Fs.at_remove, if_neg (show inDir pfx n ≠ pfx from inDir_ne pfx n)]
        exact h2 n (Or.inl hn) rfl d

/-- C58 as a user would state it ("return value 0: the database is still there") is
false: if the directory holds anything else, the call deletes the database and returns 0
with URKEL_EBADOPEN. -/
theorem C58_failure_false {fs : Fs} {pfx buf : Bytes} (hz : fs.Strings) (hp : 0 ∉ pfx) (hb : buf.length = pathMax + 1)
    (hlen : pfx.length ≤ 1013) (hdir : fs.at pfx = some .dir) (hl : fs.at (inDir pfx nameLock) ≠ some .dir)
    (hother : ∃ name e, ¬ OwnPath pfx (inDir pfx name) ∧ fs.at (inDir pfx name) = some e) :
    ∃ fs', storeDestroy {} fs pfx buf = .ok (false, fs') ∧ ∀ n, OwnName n → ∀ d, fs'.at (inDir pfx n) ≠ some (.file d) := by
  obtain ⟨r, fs', e, h1, h2⟩ := C58_outcome hz hp hb hlen hdir
  obtain ⟨name, x, hno, hx⟩ := hother
  cases r with
  | true => exact absurd ((h1.1 rfl) name x hx).1 hno
  | false => exact ⟨fs', e, h2 hl⟩

/-- C58: the buffer overflows for a prefix of 1014 bytes as soon as the directory has a
numbered file (and the lock can be taken and the directory read). Longer prefixes are
refused. -/
theorem C58_overflow {fs : Fs} {pfx buf : Bytes} (hz : fs.Strings) (hp : 0 ∉ pfx) (hb : buf.length = pathMax + 1) :
    (pfx.length = 1014 → fs.at pfx = some .dir → fs.at (inDir pfx nameLock) ≠ some .dir →
      (∃ n, OwnName n ∧ n.length = 10 ∧ fs.at (inDir pfx n) ≠ none) → storeDestroy {} fs pfx buf = .ub) ∧
    (pfx.length ≤ 1013 → ∃ r, storeDestroy {} fs pfx buf = .ok r) ∧
    (1014 < pfx.length → storeDestroy {} fs pfx buf = .ok (false, fs)) := by
  refine ⟨fun hlen hdir hnl ⟨n, ho, h10, hn⟩ => ?_, fun hlen => ?_, fun hlen => ?_⟩
  · rcases destroy_cases {} hz hp hb with ⟨_, h⟩ | ⟨_, h, _⟩ | ⟨_, h, _⟩ | ⟨e, _⟩ | ⟨_, _, _, _, _, _, _, _, _, h⟩
    · rcases h with h | h | h | h
      · omega
      · cases h
      · exact absurd hdir h
      · exact absurd h hnl
    · cases h
    · cases h
    · exact e
    · exact absurd (h hlen n ho h10) hn
  · rcases destroy_cases {} hz hp hb with ⟨e, h⟩ | ⟨_, _, e, _⟩ | ⟨_, _, e, _⟩ | ⟨_, h, _⟩ | ⟨_, _, _, _, _, e, _⟩
    · exact ⟨_, e⟩
    · exact ⟨_, e⟩
    · exact ⟨_, e⟩
    · omega
    · exact ⟨_, e⟩
  · unfold storeDestroy
    exact if_pos (by rw [pathMax]; omega)

/-- C58: after return value 1 the directory is that of no database: opening it again makes
an empty one. -/
theorem C58_reopen (W : Faults) (E : Env) {fs fs' : Fs} {pfx buf : Bytes} (hz : fs.Strings) (hp : 0 ∉ pfx)
    (hb : buf.length = pathMax + 1) (h : storeDestroy W fs pfx buf = .ok (true, fs')) (c : Dir) (hc : DirAt fs' pfx c) (rand : B32) :
    ∃ d' db tx, dbOpen E c rand = .ok (d', .ok db) ∧ dbRoot db = B32.zero ∧
      txCreate E db none = .ok (db, .ok tx) ∧ Shows db tx Contents.empty := by
  obtain ⟨_, _, _, hgone⟩ := C58_success W hz hp hb h
  obtain ⟨h1, _, h3⟩ := hc
  have hk : c.keyFile = none := by
    have h1' : fs'.at (inDir pfx "meta".toUTF8.toList) = none := hgone _
    rw [h1'] at h1
    cases hk : c.keyFile with
    | none => rfl
    | some k => rw [hk] at h1; cases h1
  have hf : c.files = [] := by
    cases hf : c.files with
    | nil => rfl
    | cons f fs =>
      exfalso
      obtain ⟨name, _, _, _, h4⟩ := h3 0 (by rw [hf]; simp)
      have h4' : fs'.at (inDir pfx name) = none := hgone _
      rw [h4', hf] at h4
      cases h4
  obtain ⟨kf, files⟩ := c
  dsimp only at hk hf
  subst hk hf
  rcases C27_create_crash_partial E rand (.nothing) rand with ⟨d', db, tx, _, h1, _, h2, h3, h4⟩ | ⟨b, hb, _⟩
  · exact ⟨d', db, tx, h1, h2, h3, h4⟩
  · cases hb

/-- "/d" with a database of one file, and beside it "/e". -/
def sampleFs : Fs :=
  ⟨[([47, 100], .dir), (inDir [47, 100] nameMeta, .file [1]), (inDir [47, 100] ((serializeU32 1).take 10), .file [2]), ([47, 101], .file [3])]⟩

example : (match storeDestroy {} sampleFs [47, 100] (List.replicate 1025 7) with | .ok (r, fs) => some (r, fs.ents) | _ => none) =
    some (true, [([47, 101], .file [3])]) := by decide +kernel

/-- The same with a foreign file in the directory. -/
def foreignFs : Fs := ⟨(inDir [47, 100] [120], .file []) :: sampleFs.ents⟩

example : (match storeDestroy {} foreignFs [47, 100] (List.replicate 1025 7) with | .ok (r, fs) => some (r, fs.ents) | _ => none) =
    some (false, [(inDir [47, 100] [120], .file []), ([47, 100], .dir), ([47, 101], .file [3])]) := by decide +kernel

theorem strings_of {fs : Fs} (h : ∀ e ∈ fs.ents, 0 ∉ e.1) : fs.Strings := by
  intro p hp h0
  obtain ⟨e, he⟩ := Classical.not_forall.1 (mt Fs.at_none.2 hp)
  exact h _ (Classical.not_not.1 he) h0

example : sampleFs.Strings ∧ foreignFs.Strings ∧ (0 : UInt8) ∉ ([47, 100] : Bytes) ∧ sampleFs.at [47, 100] = some .dir ∧
    foreignFs.at (inDir [47, 100] nameLock) ≠ some .dir ∧
    (∃ name e, ¬ OwnPath [47, 100] (inDir [47, 100] name) ∧ foreignFs.at (inDir [47, 100] name) = some e) ∧
    ∃ c, DirAt sampleFs [47, 100] c ∧ c.files ≠ [] := by
  refine ⟨strings_of (by decide +kernel), strings_of (by decide +kernel), by decide, by decide +kernel, by decide +kernel,
    ⟨[120], .file [], ?_, by decide +kernel⟩, ⟨some [1], [[2]]⟩, ⟨by decide +kernel, by decide, ?_⟩, by simp⟩
  · rintro (h | h | ⟨n, ho, h⟩)
    · revert h; decide
    · revert h; decide +kernel
    · rw [← inDir_inj h] at ho
      have := own_length ho
      simp at this
  · intro k hk
    match k, hk with
    | 0, _ => exact ⟨(serializeU32 1).take 10, by decide +kernel, by decide +kernel, by decide +kernel, by decide +kernel⟩

end Urkel
