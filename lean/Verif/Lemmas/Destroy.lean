import Verif.Spec.Destroy
import Verif.Props.Util
/-
Lemmas about the table of paths and the loop of `urkel_store_destroy`.
-/
namespace Urkel

theorem lookup_none : ∀ {l : List (Bytes × Ent)} {p : Bytes}, l.lookup p = none ↔ ∀ e, (p, e) ∉ l
  | [], p => by simp
  | (q, e) :: l, p => by
    rw [List.lookup_cons]
    by_cases h : p = q
    · subst h
      simp only [beq_self_eq_true]
      exact ⟨fun h => (nomatch h), fun h => absurd (List.mem_cons_self) (h e)⟩
    · rw [beq_eq_false_iff_ne.2 h]
      simp only [List.mem_cons, Prod.mk.injEq, h, false_and, false_or]
      exact lookup_none

theorem Fs.at_none {fs : Fs} {p : Bytes} : fs.at p = none ↔ ∀ e, (p, e) ∉ fs.ents := lookup_none

theorem Fs.at_put (fs : Fs) (p q : Bytes) (e : Ent) : (fs.put p e).at q = if q = p then some e else fs.at q := by
  unfold Fs.at Fs.put
  rw [List.lookup_cons]
  by_cases h : q = p
  · subst h; simp
  · rw [beq_eq_false_iff_ne.2 h, if_neg h]

theorem Fs.at_remove (fs : Fs) (p q : Bytes) : (fs.remove p).at q = if q = p then none else fs.at q := by
  unfold Fs.at Fs.remove
  generalize fs.ents = l
  induction l with
  | nil => simp
  | cons x l ih =>
    obtain ⟨r, e⟩ := x
    rw [List.lookup_cons, List.filter_cons]
    by_cases hr : r = p
    · subst hr
      simp only [bne_self_eq_false, Bool.false_eq_true, if_false, ih]
      by_cases h : q = r
      · rw [if_pos h, if_pos h]
      · rw [if_neg h, if_neg h, beq_eq_false_iff_ne.2 h]
    · simp only [bne_iff_ne, ne_eq, hr, not_false_eq_true, if_true, List.lookup_cons]
      by_cases h : q = r
      · subst h; simp [hr]
      · rw [beq_eq_false_iff_ne.2 h]; exact ih

open Classical in
theorem Fs.at_unlink (W : Faults) (fs : Fs) (p q : Bytes) :
    (fs.unlink W p).at q = if q = p ∧ W.unlinkFails p = false ∧ (∃ d, fs.at p = some (.file d)) then none else fs.at q := by
  unfold Fs.unlink
  split
  · rename_i h; rw [if_neg (by simp [h])]
  · rename_i h
    split
    · rename_i d hd
      rw [Fs.at_remove]
      by_cases hq : q = p
      · rw [if_pos hq, if_pos ⟨hq, by simpa using h, d, hd⟩]
      · rw [if_neg hq, if_neg (fun x => hq x.1)]
    · rename_i hd
      rw [if_neg]
      rintro ⟨_, _, d, hd'⟩
      exact hd d hd'

theorem isPrefixOf_iff {a b : Bytes} : a.isPrefixOf b = true ↔ ∃ q, b = a ++ q := by
  rw [List.isPrefixOf_iff_prefix]
  exact ⟨fun ⟨q, h⟩ => ⟨q, h.symm⟩, fun ⟨q, h⟩ => ⟨q, h.symm⟩⟩

theorem Fs.below_iff (fs : Fs) (d : Bytes) : fs.below d = true ↔ ∃ q, fs.at (d ++ [47] ++ q) ≠ none := by
  unfold Fs.below
  rw [List.any_eq_true]
  constructor
  · rintro ⟨⟨p, e⟩, hm, hp⟩
    obtain ⟨q, rfl⟩ := isPrefixOf_iff.1 hp
    exact ⟨q, fun h => Fs.at_none.1 h e hm⟩
  · rintro ⟨q, hq⟩
    have := mt Fs.at_none.2 hq
    obtain ⟨e, he⟩ := Classical.not_forall.1 this
    exact ⟨_, Classical.not_not.1 he, isPrefixOf_iff.2 ⟨q, rfl⟩⟩

theorem nameIn_iff {d p n : Bytes} : nameIn d p = some n ↔ p = inDir d n ∧ 47 ∉ n ∧ n ≠ [] := by
  unfold nameIn inDir
  constructor
  · intro h
    split at h
    · rename_i hc
      obtain ⟨h1, h2, h3⟩ := hc
      obtain ⟨q, rfl⟩ := isPrefixOf_iff.1 h1
      rw [List.drop_left' (by simp)] at h h2 h3
      cases h
      exact ⟨rfl, h2, h3⟩
    · cases h
  · rintro ⟨rfl, h2, h3⟩
    rw [if_pos]
    · rw [List.drop_left' (by simp)]
    · rw [List.drop_left' (by simp)]
      exact ⟨isPrefixOf_iff.2 ⟨n, rfl⟩, h2, h3⟩

theorem Fs.names_iff {fs : Fs} {d n : Bytes} : n ∈ fs.names d ↔ fs.at (inDir d n) ≠ none ∧ 47 ∉ n ∧ n ≠ [] := by
  unfold Fs.names
  rw [List.mem_filterMap]
  constructor
  · rintro ⟨⟨p, e⟩, hm, hn⟩
    obtain ⟨h1, h2⟩ := nameIn_iff.1 hn
    dsimp only at h1
    subst h1
    exact ⟨fun h => Fs.at_none.1 h e hm, h2⟩
  · rintro ⟨h1, h2⟩
    obtain ⟨e, he⟩ := Classical.not_forall.1 (mt Fs.at_none.2 h1)
    exact ⟨_, Classical.not_not.1 he, nameIn_iff.2 ⟨rfl, h2⟩⟩

theorem parent_inDir {d n : Bytes} (h : 47 ∉ n) : parentOf (inDir d n) = d := by
  unfold parentOf inDir
  rw [List.reverse_append, List.reverse_append]
  have : ∀ (r t : Bytes), 47 ∉ r → (r ++ ([47].reverse ++ t)).dropWhile (· != 47) = 47 :: t := by
    intro r t
    induction r with
    | nil => intro _; rfl
    | cons a r ih =>
      intro hr
      simp only [List.mem_cons, not_or] at hr
      rw [List.cons_append, List.dropWhile_cons_of_pos (by simp; exact fun h => hr.1 h.symm), ih hr.2]
  rw [this _ _ (by simpa using h)]
  simp

theorem cstr_eq {a t : Bytes} (h : 0 ∉ a) : cstr (a ++ [0] ++ t) = a := by
  unfold cstr
  induction a with
  | nil => rfl
  | cons x a ih =>
    simp only [List.mem_cons, not_or] at h
    rw [List.cons_append, List.cons_append, List.takeWhile_cons_of_pos (by simp; exact fun e => h.1 e.symm), ih h.2]

/-- Writing a name after the prefix and the slash. -/
theorem write_name {pfx t name : Bytes} (hp : 0 ∉ pfx) (hn : 0 ∉ name)
    (hl : (pfx ++ [47] ++ t).length = pathMax + 1) (hf : pfx.length + 1 + name.length + 1 ≤ pathMax + 1) :
    ∃ t', wrMany (pfx ++ [47] ++ t) (pfx.length + 1) (name ++ [0]) = .ok (pfx ++ [47] ++ t') ∧
      (pfx ++ [47] ++ t').length = pathMax + 1 ∧ cstr (pfx ++ [47] ++ t') = inDir pfx name := by
  rw [wrMany_ok _ _ _ (by rw [hl]; simp; omega)]
  refine ⟨name ++ [0] ++ (pfx ++ [47] ++ t).drop (pfx.length + 1 + (name ++ [0]).length), ?_, ?_, ?_⟩
  · rw [List.take_left' (by simp)]
    simp only [List.append_assoc]
  · simp only [List.length_append, List.length_drop, List.length_singleton] at hl ⊢
    omega
  · rw [← List.append_assoc, ← List.append_assoc]
    rw [cstr_eq (a := pfx ++ [47] ++ name)]
    · rfl
    · simp [hp, hn]

/-- The names the loop removes are those of `OwnName`. -/
theorem own_iff {name : Bytes} (hz : 0 ∉ name) :
    ∃ num, parseU32 (name ++ [0]) = .ok num ∧ ((num.isSome ∨ strcmp name nameMeta = 0) ↔ OwnName name) := by
  obtain ⟨r, e, hr⟩ := C37_parse name (fun c hc h => hz (h ▸ hc))
  refine ⟨r, e, ?_⟩
  unfold OwnName
  constructor
  · rintro (h | h)
    · obtain ⟨n, hn⟩ := Option.isSome_iff_exists.1 h
      obtain ⟨⟨h1, h2, h3⟩, h4⟩ := (hr n).1 hn
      exact Or.inr ⟨h1, h2, by rw [← h3] at h4; exact h4⟩
    · exact Or.inl (strcmp_zero h)
  · rintro (h | ⟨h1, h2, h3⟩)
    · right; rw [h]; exact strcmp_self _
    · left
      rw [(hr _).2 ⟨⟨h1, h2, rfl⟩, h3⟩]; rfl

theorem own_length {name : Bytes} (h : OwnName name) : name.length = 4 ∨ name.length = 10 := by
  rcases h with rfl | h
  · left; decide +kernel
  · right; exact h.1

theorem own_slash {name : Bytes} (h : OwnName name) : 47 ∉ name ∧ 0 ∉ name ∧ name ≠ [] := by
  rcases h with rfl | ⟨h1, h2, _⟩
  · decide +kernel
  · refine ⟨fun h => ?_, fun h => ?_, fun h => ?_⟩
    · have := h2 _ h; revert this; decide
    · have := h2 _ h; revert this; decide
    · rw [h] at h1; cases h1

/-- What the loop does, or it overflows the buffer. -/
theorem destroyLoop_ok (W : Faults) {pfx : Bytes} (hp : 0 ∉ pfx) (hpl : pfx.length ≤ 1014) : ∀ (names : List Bytes) (t : Bytes) (fs : Fs),
    (∀ n ∈ names, 0 ∉ n) → (pfx ++ [47] ++ t).length = pathMax + 1 →
    (∃ t' fs', destroyLoop W (pfx.length + 1) names (pfx ++ [47] ++ t) fs = .ok (pfx ++ [47] ++ t', fs') ∧
      (pfx ++ [47] ++ t').length = pathMax + 1 ∧
      (∀ p, (fs'.at p = fs.at p) ∨ (fs'.at p = none ∧ (∃ d, fs.at p = some (.file d)) ∧ ∃ n ∈ names, OwnName n ∧ p = inDir pfx n)) ∧
      (∀ n ∈ names, OwnName n → W.unlinkFails (inDir pfx n) = false → ∀ d, fs'.at (inDir pfx n) ≠ some (.file d)) ∧
      (pfx.length = 1014 → ∀ n ∈ names, OwnName n → n.length ≠ 10)) ∨
    (destroyLoop W (pfx.length + 1) names (pfx ++ [47] ++ t) fs = .ub ∧ pfx.length = 1014 ∧
      ∃ n ∈ names, OwnName n ∧ n.length = 10) := by
  intro names
  induction names with
  | nil =>
    intro t fs _ hl
    left
    exact ⟨t, fs, rfl, hl, fun p => Or.inl rfl, (fun _ h => (nomatch h)), (fun _ _ h => (nomatch h))⟩
  | cons n names ih =>
    intro t fs hz hl
    obtain ⟨num, e, hown⟩ := own_iff (hz n (by simp))
    rw [destroyLoop, e]
    dsimp only
    by_cases ho : OwnName n
    · rw [if_pos (hown.2 ho)]
      by_cases hfit : pfx.length + 1 + n.length + 1 ≤ pathMax + 1
      · obtain ⟨t1, e1, hl1, hc⟩ := write_name hp (hz n (by simp)) hl hfit
        rw [e1]
        dsimp only
        rw [hc]
        rcases ih t1 (fs.unlink W (inDir pfx n)) (fun m hm => hz m (by simp [hm])) hl1 with ⟨t', fs', h1, h2, h3, h4, h5⟩ | ⟨h1, h2, m, h3, h4⟩
        · left
          refine ⟨t', fs', h1, h2, ?_, ?_, ?_⟩
          · intro p
            rcases h3 p with h | ⟨h, ⟨d, hd⟩, m, hm, ho', hp'⟩
            · rw [h, Fs.at_unlink]
              split
              · rename_i hc; exact Or.inr ⟨rfl, by rw [hc.1]; exact hc.2.2, n, by simp, ho, hc.1⟩
              · exact Or.inl rfl
            · refine Or.inr ⟨h, ⟨d, ?_⟩, m, by simp [hm], ho', hp'⟩
              rw [Fs.at_unlink] at hd
              split at hd
              · cases hd
              · exact hd
          · intro m hm ho' hu d
            rcases List.mem_cons.1 hm with rfl | hm
            · rcases h3 (inDir pfx m) with h | ⟨h, _⟩
              · rw [h, Fs.at_unlink]
                split
                · exact fun h => nomatch h
                · rename_i hn
                  exact fun h => hn ⟨rfl, hu, d, h⟩
              · rw [h]; exact fun h => nomatch h
            · exact h4 m hm ho' hu d
          · intro hq m hm ho' h10
            rcases List.mem_cons.1 hm with rfl | hm
            · rw [hq, h10, pathMax] at hfit; omega
            · exact h5 hq m hm ho' h10
        · exact Or.inr ⟨h1, h2, m, by simp [h3], h4⟩
      · right
        rw [wrMany_ub _ _ _ (by rw [hl]; simp; omega) (by rw [hl, pathMax]; omega)]
        have := own_length ho
        rw [pathMax] at hfit
        exact ⟨rfl, by omega, n, by simp, ho, by omega⟩
    · rw [if_neg (fun h => ho (hown.1 h))]
      rcases ih t fs (fun m hm => hz m (by simp [hm])) hl with ⟨t', fs', h1, h2, h3, h4, h5⟩ | ⟨h1, h2, m, h3, h4⟩
      · left
        refine ⟨t', fs', h1, h2, ?_, ?_, ?_⟩
        · intro p
          rcases h3 p with h | ⟨h, hd, m, hm, h'⟩
          · exact Or.inl h
          · exact Or.inr ⟨h, hd, m, by simp [hm], h'⟩
        · intro m hm ho'
          rcases List.mem_cons.1 hm with rfl | hm
          · exact absurd ho' ho
          · exact h4 m hm ho'
        · intro hq m hm ho'
          rcases List.mem_cons.1 hm with rfl | hm
          · exact absurd ho' ho
          · exact h5 hq m hm ho'
      · exact Or.inr ⟨h1, h2, m, by simp [h3], h4⟩

theorem lock_slash : 47 ∉ nameLock ∧ 0 ∉ nameLock ∧ nameLock ≠ [] ∧ nameLock.length = 4 := by decide +kernel

theorem lock_not_own : ¬ OwnName nameLock := by
  rintro (h | h)
  · revert h; decide +kernel
  · have := h.1; revert this; decide +kernel

theorem destroyEnd_eq (W : Faults) {pfx t : Bytes} (hp : 0 ∉ pfx) (hpl : pfx.length ≤ 1014) (ret : Bool) (fs : Fs)
    (hl : (pfx ++ [47] ++ t).length = pathMax + 1) :
    destroyEnd W pfx ret (pfx ++ [47] ++ t) fs =
      .ok (if ret then (fs.unlink W (inDir pfx nameLock)).rmdir W pfx else (false, fs.unlink W (inDir pfx nameLock))) := by
  obtain ⟨t1, e1, _, hc⟩ := write_name hp lock_slash.2.1 hl (by rw [lock_slash.2.2.2, pathMax]; omega)
  unfold destroyEnd
  rw [e1, Res.bind_ok, hc]
  rfl

theorem storeDestroy_eq (W : Faults) {pfx buf : Bytes} (hp : 0 ∉ pfx) (hpl : pfx.length ≤ 1014) (fs : Fs) (hb : buf.length = pathMax + 1) :
    ∃ t, (pfx ++ [47] ++ t).length = pathMax + 1 ∧ storeDestroy W fs pfx buf =
      (if (fs.openLock W (inDir pfx nameLock)).1 = false then .ok (false, (fs.openLock W (inDir pfx nameLock)).2)
      else if W.scanFails then destroyEnd W pfx false (pfx ++ [47] ++ t) (fs.openLock W (inDir pfx nameLock)).2
      else (destroyLoop W (pfx.length + 1) (scandir ((fs.openLock W (inDir pfx nameLock)).2.names pfx)) (pfx ++ [47] ++ t)
        (fs.openLock W (inDir pfx nameLock)).2).bind fun q => destroyEnd W pfx true q.1 q.2) := by
  have h0 : wrMany buf 0 (pfx ++ [0]) = .ok (pfx ++ [0] ++ buf.drop (pfx.length + 1)) := by
    rw [wrMany_ok _ _ _ (by rw [hb, pathMax]; simp; omega)]
    simp
  have h1 : wrAt (pfx ++ [0] ++ buf.drop (pfx.length + 1)) pfx.length 47 = .ok (pfx ++ [47] ++ buf.drop (pfx.length + 1)) := by
    unfold wrAt
    rw [if_pos (by simp)]
    simp
  have hl : (pfx ++ [47] ++ buf.drop (pfx.length + 1)).length = pathMax + 1 := by
    simp only [List.length_append, List.length_singleton, List.length_drop, hb]
    rw [pathMax]; omega
  obtain ⟨t, e1, hl1, hc⟩ := write_name hp lock_slash.2.1 hl (by rw [lock_slash.2.2.2, pathMax]; omega)
  refine ⟨t, hl1, ?_⟩
  unfold storeDestroy
  rw [if_neg (by rw [pathMax]; omega), h0, Res.bind_ok, h1, Res.bind_ok, e1, Res.bind_ok]
  dsimp only
  rw [hc]
  rfl

/-- The lock file was opened, or nothing happened. -/
theorem openLock_cases (W : Faults) (fs : Fs) (pfx : Bytes) :
    (fs.openLock W (inDir pfx nameLock) = (false, fs) ∧
      (W.openFails = true ∨ fs.at pfx ≠ some .dir ∨ fs.at (inDir pfx nameLock) = some .dir)) ∨
    (fs.at pfx = some .dir ∧ fs.at (inDir pfx nameLock) ≠ some .dir ∧ W.openFails = false ∧
      ∃ fs', fs.openLock W (inDir pfx nameLock) = (!W.locked, fs') ∧
        ∀ p, fs'.at p = if p = inDir pfx nameLock then some (.file []) else fs.at p) := by
  unfold Fs.openLock
  rw [parent_inDir lock_slash.1]
  split
  · rename_i h; exact Or.inl ⟨rfl, Or.inl h⟩
  · rename_i h
    split
    · rename_i h1 h2
      right
      refine ⟨h1, by rw [h2]; exact (fun h => nomatch h), by simpa using h, fs.put _ _, ?_, fun p => Fs.at_put fs _ _ _⟩
      cases W.locked <;> rfl
    · rename_i d h1 h2
      right
      refine ⟨h1, by rw [h2]; exact (fun h => nomatch h), by simpa using h, (fs.remove (inDir pfx nameLock)).put (inDir pfx nameLock) (.file []), ?_, ?_⟩
      · cases W.locked <;> rfl
      · intro p
        rw [Fs.at_put, Fs.at_remove]
        split <;> rfl
    · rename_i h1 h2
      refine Or.inl ⟨rfl, ?_⟩
      by_cases h3 : fs.at pfx = some .dir
      · right; right
        cases h4 : fs.at (inDir pfx nameLock) with
        | none => exact absurd h4 (h1 h3)
        | some e =>
          cases e with
          | dir => rfl
          | file d => exact absurd h4 (h2 d h3)
      · exact Or.inr (Or.inl h3)

theorem rmdir_cases (W : Faults) (fs : Fs) (p : Bytes) :
    (fs.rmdir W p = (false, fs) ∧ (W.rmdirFails = true ∨ fs.at p ≠ some .dir ∨ ∃ q, fs.at (p ++ [47] ++ q) ≠ none)) ∨
    (fs.at p = some .dir ∧ W.rmdirFails = false ∧ (∀ q, fs.at (p ++ [47] ++ q) = none) ∧ fs.rmdir W p = (true, fs.remove p)) := by
  unfold Fs.rmdir
  split
  · rename_i h; exact Or.inl ⟨rfl, Or.inl h⟩
  · rename_i h
    split
    · rename_i h1
      split
      · rename_i h2; exact Or.inl ⟨rfl, Or.inr (Or.inr ((Fs.below_iff fs p).1 h2))⟩
      · rename_i h2
        refine Or.inr ⟨h1, by simpa using h, fun q => ?_, rfl⟩
        exact Classical.byContradiction (fun h => h2 ((Fs.below_iff fs p).2 ⟨q, h⟩))
    · rename_i h1
      exact Or.inl ⟨rfl, Or.inr (Or.inl h1)⟩

theorem inDir_ne (d n : Bytes) : d ++ [47] ++ n ≠ d := by
  intro h
  have := congrArg List.length h
  simp at this

theorem inDir_inj {d m n : Bytes} (h : inDir d m = inDir d n) : m = n := List.append_cancel_left h

end Urkel
