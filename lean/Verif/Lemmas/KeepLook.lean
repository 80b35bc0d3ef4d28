import Verif.Lemmas.KeepState
/-
Lookups when the files have grown, and lookups of new values.
-/
namespace Urkel

theorem loaded_trim {s : Store} {h : B32} {p : Ptr} {n : Node} (e : storeResolve s h p = .ok (some n)) : trim n = n := by
  rcases storeResolve_cases s h p with ⟨e', _⟩ | ⟨_, e' | ⟨n0, e', _, _⟩⟩
  · rw [e'] at e; cases e
  · rw [e'] at e; cases e
  · unfold storeResolve storeReadNode at e
    by_cases hs : p.size = 0 ∨ p.size > 113
    · rw [if_pos hs] at e; cases e
    · rw [if_neg hs, storeReadInto_ok (by omega), Res.bind_ok] at e
      cases hd : storeRead s p.size p.index p.pos with
      | none => rw [hd] at e; cases e
      | some d =>
        rw [hd] at e
        dsimp only at e
        cases hr : nodeRead d with
        | ok x =>
          rw [hr, Res.bind_ok] at e
          cases x with
          | none => cases e
          | some m =>
            rcases nodeRead_shape hr with ⟨pre, hl, pl, hr', pr, rfl⟩ | ⟨k, vp, rfl⟩
            · cases e; rfl
            · cases e; rfl
        | err x => rw [hr] at e; cases e
        | abort => rw [hr] at e; cases e
        | ub => rw [hr] at e; cases e

/-- What can be read from some files can be read from files that have grown. -/
theorem resolve_mono {s S : Store} (hle : Rd.Le s.rd S.rd) {h : B32} {p : Ptr} : storeResolve s h p = .ok none ∨ storeResolve S h p = storeResolve s h p := by
  unfold storeResolve storeReadNode
  by_cases hs : p.size = 0 ∨ p.size > 113
  · rw [if_pos hs]; exact .inl rfl
  · rw [if_neg hs, if_neg hs, storeReadInto_ok (by omega), storeReadInto_ok (by omega), Res.bind_ok, Res.bind_ok]
    cases hd : storeRead s p.size p.index p.pos with
    | none => exact .inl rfl
    | some d =>
      have : storeRead S p.size p.index p.pos = some d := hle p d hd
      rw [this]; exact .inr rfl

theorem retrieve_mono {s S : Store} (hle : Rd.Le s.rd S.rd) {v : Option Bytes} {vp : Option Ptr} :
    storeRetrieve s v vp = .ok none ∨ storeRetrieve S v vp = storeRetrieve s v vp := by
  cases v with
  | some x => exact .inr rfl
  | none =>
    cases vp with
    | none => exact .inr rfl
    | some p =>
      unfold storeRetrieve
      dsimp only
      by_cases hs : p.size > valueSize
      · rw [if_pos hs]; exact .inl rfl
      · rw [if_neg hs, if_neg hs, storeReadInto_ok hs, storeReadInto_ok hs]
        cases hd : storeRead s p.size p.index p.pos with
        | none => exact .inl rfl
        | some d =>
          have : storeRead S p.size p.index p.pos = some d := hle p d hd
          rw [this]; exact .inr rfl

theorem Way.mono {s S : Store} {key : B32} (hle : Rd.Le s.rd S.rd) {n n' : Node} {d d' : Nat} (w : Way s key n d n' d') : Way S key n d n' d' := by
  induction w with
  | here n d => exact .here n d
  | down h1 h2 _ ih => exact .down h1 h2 ih
  | load e _ ih =>
    refine .load ?_ ih
    rcases resolve_mono hle with h | h
    · rw [h] at e; cases e
    · exact h.trans e

/-- Growing files change no answer but "corrupted". -/
theorem look_mono {s S : Store} (hle : Rd.Le s.rd S.rd) {key : B32} {want : Bool} {n : Node} {d : Nat} (hf : Fit n) (hd : d ≤ 256) :
    look s key want n d = .err .ECORRUPTION ∨ look S key want n d = look s key want n d := by
  obtain ⟨n', d', w, st⟩ := way_stop (s := s) (key := key) _ n d hf hd (Nat.le_refl _)
  obtain ⟨hf', hd'⟩ := w.fit hf hd
  rw [look_way w hf hd, look_way (w.mono hle) hf hd]
  cases st with
  | null => exact .inr (by rw [look_null, look_null])
  | leaf h p k v vp =>
    by_cases hk : k = key
    · subst hk
      cases want with
      | false => exact .inr (by rw [look_self_has, look_self_has])
      | true =>
        rw [look_self, look_self]
        rcases retrieve_mono (v := v) (vp := vp) hle with h | h
        · rw [h]; exact .inl rfl
        · rw [h]; exact .inr rfl
    · exact .inr (by rw [look_other _ hk, look_other _ hk])
  | lost _ e => exact .inl (look_lost _ e)
  | @long h p _ e =>
    right
    rw [look_long _ e]
    refine look_long _ ?_
    rcases resolve_mono (h := h) (p := p) hle with h' | h'
    · rw [h'] at e; cases e
    · exact h'.trans e
  | parts hp => exact .inr (by rw [look_parts hf' hd' hp, look_parts hf' hd' hp])
  | full hp h256 => exact .inr (by rw [look_full hf' hd' hp h256, look_full hf' hd' hp h256])

theorem Way.trim {s : Store} {key : B32} {n n' : Node} {d d' : Nat} (w : Way s key n d n' d') : Way s key (Urkel.trim n) d (Urkel.trim n') d' := by
  induction w with
  | here n d => exact .here _ d
  | @down h p pre l r n d d' b h1 h2 _ ih =>
    refine .down h1 h2 ?_
    cases b
    · exact ih
    · exact ih
  | load e _ ih =>
    rw [loaded_trim e] at ih
    exact .load e ih

/-- Lookups of the new values as they are read back. -/
theorem look_trim {s : Store} {key : B32} {want : Bool} {n : Node} {d : Nat} (hf : Fit n) (hd : d ≤ 256) :
    look s key want (trim n) d = look s key want n d ∨
      want = true ∧ ∃ h x vp d', Way s key n d (.leaf h none key (some x) vp) d' := by
  obtain ⟨n', d', w, st⟩ := way_stop (s := s) (key := key) _ n d hf hd (Nat.le_refl _)
  obtain ⟨hf', hd'⟩ := w.fit hf hd
  have hft := trim_fit hf'
  rw [look_way w hf hd, look_way w.trim (trim_fit hf) hd]
  cases st with
  | null => exact .inl rfl
  | leaf h p k v vp =>
    cases p with
    | some p => exact .inl rfl
    | none =>
      by_cases hk : k = key
      · subst hk
        cases want with
        | false => exact .inl (by rw [trim, look_self_has, look_self_has])
        | true =>
          cases v with
          | none => exact .inl rfl
          | some x => exact .inr ⟨rfl, h, x, vp, d', w⟩
      · exact .inl (by rw [trim, look_other _ hk, look_other _ hk])
  | lost _ e => exact .inl rfl
  | long _ e => exact .inl rfl
  | parts hp =>
    rw [trim] at hft ⊢
    exact .inl (by rw [look_parts hf' hd' hp, look_parts hft hd' hp])
  | full hp h256 =>
    rw [trim] at hft ⊢
    exact .inl (by rw [look_full hf' hd' hp h256, look_full hft hd' hp h256])

theorem look_new {s : Store} {key : B32} {n : Node} {x : Bytes} (hf : Fit n) (h : FindsNew s key n x) : look s key true (trim n) 0 = .ok (x.take (x.length % 256)) := by
  obtain ⟨h, vp, d, w⟩ := h
  rw [look_way w.trim (trim_fit hf) (by omega), trim, look_self]
  have c : (x.take (x.length % 256)).length ≤ valueSize := by
    rw [List.length_take]
    have := Nat.mod_lt x.length (show 256 > 0 by decide)
    unfold valueSize
    omega
  simp only [Option.map_some, storeRetrieve, c, decide_true, check_true, Res.bind_ok, Res.pure_eq]

/-- What lookups answer after a commit: nothing has changed, except that new values are cut and
that damage may be hidden by the new bytes. -/
theorem look_kept {s S : Store} {n o : Node} {vf : List Bytes} (hk : Kept vf n o) (hs : SOk S) (hx : FExt vf S.files) (hf : Fit n) (hle : Rd.Le s.rd S.rd) (key : B32) :
    (∀ x, FindsNew s key n x → look S key true o 0 = .ok (x.take (x.length % 256))) ∧
      ∀ want, (want = true → ∀ x, ¬ FindsNew s key n x) → look s key want n 0 ≠ .err .ECORRUPTION → look S key want o 0 = look s key want n 0 := by
  constructor
  · intro x hn
    rw [hk.look hs hx (by omega)]
    refine look_new hf ?_
    obtain ⟨h, vp, d, w⟩ := hn
    exact ⟨h, vp, d, w.mono hle⟩
  · intro want hn hc
    have h1 : look s key want (trim n) 0 = look s key want n 0 := by
      rcases look_trim (s := s) (key := key) (want := want) (d := 0) hf (by omega) with h | ⟨hw, h, x, vp, d', w⟩
      · exact h
      · exact absurd ⟨h, vp, d', w⟩ (hn hw x)
    rw [hk.look hs hx (by omega)]
    rcases look_mono (key := key) (want := want) (d := 0) hle (trim_fit hf) (by omega) with h | h
    · exact absurd (h1.symm.trans h) hc
    · exact h.trans h1

/-! ### Opening after a commit -/

/-- If the last file ends with the commit record at a place where it is looked for, opening
changes nothing and takes the root from there. -/
theorem reopen_of {E : Env} (hE : EnvOk E) {db db2 : Db} {d2 : Dir} {vf : List Bytes} {st : Meta} {rand : B32} (hne : vf ≠ [])
    (h1 : PtrOk st.metaPtr) (h2 : PtrOk st.rootPtr) (hl : db.store.files = vappend E.cfg.maxFile vf (metaWrite E db.store.key st))
    (hal : lastLen db.store.files % 38 = 0) (e : dbOpen E db.dir rand = .ok (d2, .ok db2)) :
    d2 = db.dir ∧ db2.store.files = db.store.files ∧ db2.revert = false ∧
      (db2.store.state.rootNode = .null ∧ st.rootPtr.index = 0 ∨ ∃ h, db2.store.state.rootNode = .hash h st.rootPtr) := by
  obtain ⟨i, l, hil⟩ := snoc_cases hne
  have hlen := length_metaWrite hE.mac db.store.key st
  obtain ⟨i', l', pos, hfiles, hpos, hrec⟩ : ∃ (i' : List Bytes) (l' : Bytes) (pos : Nat), db.store.files = i' ++ [l'] ∧ pos + metaSize = l'.length ∧
      (l'.drop pos).take metaSize = metaWrite E db.store.key st := by
    rw [hil, vappend_snoc] at hl
    split at hl
    · exact ⟨_, _, 0, hl, by rw [hlen]; omega, by rw [List.drop_zero, List.take_of_length_le (Nat.le_of_eq hlen)]⟩
    · refine ⟨_, _, l.length, hl, by rw [List.length_append, hlen], ?_⟩
      rw [List.drop_left', List.take_of_length_le (Nat.le_of_eq hlen)]
      rfl
  have hal' : pos % metaSize = 0 := by
    rw [hfiles, lastLen_snoc] at hal
    unfold metaSize at *
    omega
  have hr := recover_hit (extra := []) (junk := []) hE hpos hal' hrec h1 h2 (by
    have := noForge_self E db.store.key (i' ++ [l'])
    simpa using this)
  simp only [List.append_nil] at hr
  rw [← hfiles] at hr
  unfold dbOpen at e
  rw [openStore_def E db.dir rand (dir_key db rand)] at e
  have hdf : db.dir.files = db.store.files := rfl
  rw [hdf, hr, Res.bind_ok] at e
  dsimp only at e
  rw [if_neg (by rw [hfiles]; simp)] at e
  obtain ⟨⟨d1, o⟩, e1, e⟩ := Res.bind_eq_ok.1 e
  cases o with
  | none => cases e
  | some s =>
    obtain ⟨⟨s1, r⟩, e3, e1⟩ := Res.bind_eq_ok.1 e1
    obtain ⟨c, rfl, hc, hr⟩ := readRoot_of h2 (by intro _ _ h; simp at h) e3
    cases r with
    | none => cases e1
    | some n =>
      cases e1
      cases e
      refine ⟨?_, rfl, rfl, (hr n rfl).1⟩
      simp [Db.dir]

/-- The hash kept with a node does not matter for lookups. -/
theorem look_ref {S : Store} {key : B32} {want : Bool} {h h' : B32} {p : Ptr} : look S key want (.hash h p) 0 = look S key want (.hash h' p) 0 := by
  unfold look
  have hr : room (.hash h p) 0 = room (.hash h' p) 0 := rfl
  rw [hr]
  obtain ⟨f, hf⟩ : ∃ f, room (.hash h' p) 0 = f + 1 := ⟨room (.hash h' p) 0 - 1, by have := room_pos (.hash h' p) 0; omega⟩
  rw [hf, treeGet, treeGet]
  unfold storeResolve
  cases storeReadNode S p with
  | ok x =>
    cases x with
    | none => rfl
    | some n =>
      cases n with
      | internal _ _ _ _ _ => cases f <;> rfl
      | leaf _ _ _ _ _ => cases f <;> rfl
      | null => rfl
      | hash _ _ => rfl
  | err e => rfl
  | abort => rfl
  | ub => rfl

end Urkel
