import Verif.Props.ConcCrash
/-
What each call does to the data files.
-/
namespace Urkel

/-- A call that does not commit leaves the files alone. -/
theorem step_same {E : Env} {s s' : Sys} {op : Op} {r : Ret} (hop : ∀ rand, op ≠ .reopen rand) (hw : ¬ op.Writes)
    (e : step E s op = .ok (s', r)) : SameIo s.db.store s'.db.store := by
  cases op with
  | reopen rand => exact (hop rand rfl).elim
  | root => cases e; exact SameIo.refl _
  | inject h =>
    simp only [step] at e
    obtain ⟨⟨db, x⟩, e1, e⟩ := Res.bind_eq_ok.1 e
    cases e
    show SameIo _ _
    unfold dbInject at e1
    obtain ⟨⟨s1, ok⟩, e2, e1⟩ := Res.bind_eq_ok.1 e1
    unfold hasHistory at e2
    obtain ⟨⟨s2, n⟩, e3, e2⟩ := Res.bind_eq_ok.1 e2
    have h3 := readHistory_sameIo e3
    cases n with
    | none => cases e2
    | some n =>
      cases e2
      cases e1
      exact h3
  | create id h =>
    simp only [step] at e
    obtain ⟨⟨db, x⟩, e1, e⟩ := Res.bind_eq_ok.1 e
    have h1 := txCreate_sameIo e1
    cases x <;> cases e <;> exact h1
  | destroy id =>
    simp only [step] at e
    obtain ⟨_, _, e⟩ := Res.bind_eq_ok.1 e
    obtain ⟨_, _, e⟩ := Res.bind_eq_ok.1 e
    cases e; exact SameIo.refl _
  | clear id =>
    simp only [step] at e
    obtain ⟨_, _, e⟩ := Res.bind_eq_ok.1 e
    obtain ⟨_, _, e⟩ := Res.bind_eq_ok.1 e
    cases e; exact SameIo.refl _
  | txRoot id =>
    simp only [step] at e
    obtain ⟨_, _, e⟩ := Res.bind_eq_ok.1 e
    obtain ⟨⟨_, _⟩, _, e⟩ := Res.bind_eq_ok.1 e
    cases e; exact SameIo.refl _
  | txInject id h =>
    simp only [step] at e
    obtain ⟨_, _, e⟩ := Res.bind_eq_ok.1 e
    obtain ⟨⟨db, t, x⟩, e1, e⟩ := Res.bind_eq_ok.1 e
    cases e
    show SameIo _ _
    unfold txInject at e1
    obtain ⟨⟨s2, n⟩, e3, e1⟩ := Res.bind_eq_ok.1 e1
    have h3 := readHistory_sameIo e3
    cases n with
    | none => cases e1; exact h3
    | some n =>
      simp only at e1
      obtain ⟨_, _, e1⟩ := Res.bind_eq_ok.1 e1
      cases e1; exact h3
  | get id k =>
    simp only [step] at e
    obtain ⟨_, _, e⟩ := Res.bind_eq_ok.1 e
    obtain ⟨_, _, e⟩ := Res.bind_eq_ok.1 e
    cases e; exact SameIo.refl _
  | has id k =>
    simp only [step] at e
    obtain ⟨_, _, e⟩ := Res.bind_eq_ok.1 e
    obtain ⟨_, _, e⟩ := Res.bind_eq_ok.1 e
    cases e; exact SameIo.refl _
  | insert id k v =>
    simp only [step] at e
    obtain ⟨_, _, e⟩ := Res.bind_eq_ok.1 e
    obtain ⟨⟨_, _⟩, _, e⟩ := Res.bind_eq_ok.1 e
    cases e; exact SameIo.refl _
  | remove id k =>
    simp only [step] at e
    obtain ⟨_, _, e⟩ := Res.bind_eq_ok.1 e
    obtain ⟨⟨_, _⟩, _, e⟩ := Res.bind_eq_ok.1 e
    cases e; exact SameIo.refl _
  | prove id k =>
    simp only [step] at e
    obtain ⟨_, _, e⟩ := Res.bind_eq_ok.1 e
    obtain ⟨⟨_, _⟩, _, e⟩ := Res.bind_eq_ok.1 e
    cases e; exact SameIo.refl _
  | commit id => exact (hw trivial).elim
  | get1 k h =>
    simp only [step] at e
    obtain ⟨⟨db, x⟩, e1, e⟩ := Res.bind_eq_ok.1 e
    cases e
    unfold urkelGet at e1
    obtain ⟨⟨db1, y⟩, e2, e1⟩ := Res.bind_eq_ok.1 e1
    have h2 := txCreate_sameIo e2
    cases y with
    | error y => cases e1; exact h2
    | ok tx =>
      simp only at e1
      obtain ⟨_, _, e1⟩ := Res.bind_eq_ok.1 e1
      obtain ⟨_, _, e1⟩ := Res.bind_eq_ok.1 e1
      cases e1; exact h2
  | has1 k h =>
    simp only [step] at e
    obtain ⟨⟨db, x⟩, e1, e⟩ := Res.bind_eq_ok.1 e
    cases e
    unfold urkelHas at e1
    obtain ⟨⟨db1, y⟩, e2, e1⟩ := Res.bind_eq_ok.1 e1
    have h2 := txCreate_sameIo e2
    cases y with
    | error y => cases e1; exact h2
    | ok tx =>
      simp only at e1
      obtain ⟨_, _, e1⟩ := Res.bind_eq_ok.1 e1
      obtain ⟨_, _, e1⟩ := Res.bind_eq_ok.1 e1
      cases e1; exact h2
  | prove1 k h =>
    simp only [step] at e
    obtain ⟨⟨db, x⟩, e1, e⟩ := Res.bind_eq_ok.1 e
    cases e
    unfold urkelProve at e1
    obtain ⟨⟨db1, y⟩, e2, e1⟩ := Res.bind_eq_ok.1 e1
    have h2 := txCreate_sameIo e2
    cases y with
    | error y => cases e1; exact h2
    | ok tx =>
      simp only at e1
      obtain ⟨⟨_, _⟩, _, e1⟩ := Res.bind_eq_ok.1 e1
      simp only at e1
      obtain ⟨_, _, e1⟩ := Res.bind_eq_ok.1 e1
      cases e1; exact h2
  | insert1 k v => exact (hw trivial).elim
  | remove1 k => exact (hw trivial).elim

/-- Every allowed call only appends, and keeps the key. -/
theorem step_ext {E : Env} (hE : EnvOk E) {s s' : Sys} (hr : Reachable E s) {op : Op} {r : Ret} (ha : Allowed E s op)
    (e : step E s op = .ok (s', r)) : FExt s.db.store.files s'.db.store.files ∧ s'.db.store.key = s.db.store.key := by
  by_cases hop : ∃ rand, op = .reopen rand
  · obtain ⟨rand, rfl⟩ := hop
    obtain ⟨sp, hist, hs⟩ := hr.sim hE
    obtain ⟨db', e', _, hf, hk, _⟩ := reopen_ok hE hs.db ha rand
    simp only [step, e', Res.bind_ok, Res.pure_eq] at e
    cases e
    exact ⟨by rw [show db'.store.files = s.db.store.files from hf]; exact FExt.refl _, hk⟩
  · have hop' : ∀ rand, op ≠ .reopen rand := fun rand h => hop ⟨rand, h⟩
    refine ⟨?_, step_key hop' e⟩
    by_cases hw : op.Writes
    · obtain ⟨sp, hist, h⟩ := hr.sim hE
      cases op with
      | commit id => exact (commit_unit hE hr ha e).2.2
      | insert1 k v =>
        obtain ⟨hlen, hcan⟩ := ha
        obtain ⟨db', tx, t, ks, e1, hs, htx, hsn, hv, hk, hroom⟩ := canCommit1_tree hE h hcan
        have hio := txCreate_sameIo e1
        rcases hlen with hlen | hlen
        · obtain ⟨tx', e3, ht'⟩ := txInsert_ok hs.db htx k (v := v) (by omega)
          obtain ⟨it, ifd⟩ := Top.insert htx.top k v
          obtain ⟨db2, tx2, e4, hd2, ht2, hc, _⟩ := txCommit_ok hE hs.db ht' (vals_set htx.top it ifd hv (by rintro _ ⟨⟩; exact hlen))
            (room_of ht'.top (vals_set htx.top it ifd hv (by rintro _ ⟨⟩; exact hlen)) (ks := k :: ks) (fun k' hk' => by
              rw [ifd, Contents.set_apply] at hk'
              split at hk'
              · next e => simp [e]
              · exact List.mem_cons_of_mem _ (hk k' hk')) (by simpa using hroom))
          simp only [step, urkelInsert, e1, Res.bind_ok, e3, e4, txDestroy_ok ht2, Res.pure_eq] at e
          cases e
          have := hc.ext
          rw [show db'.store.files = s.db.store.files from hio.1] at this
          exact this
        · simp only [step, urkelInsert, e1, Res.bind_ok, txInsert_big hlen, txDestroy_ok htx, Res.pure_eq] at e
          cases e
          show FExt _ db'.store.files
          rw [hio.1]; exact FExt.refl _
      | remove1 k =>
        obtain ⟨db', tx, t, ks, e1, hs, htx, hsn, hv, hk, hroom⟩ := canCommit1_tree hE h ha
        have hio := txCreate_sameIo e1
        have hrm := txRemove_ok hs.db htx k
        cases hf : t.find k with
        | none =>
          rw [hf] at hrm
          simp only [step, urkelRemove, e1, Res.bind_ok, hrm, txDestroy_ok htx, Res.pure_eq] at e
          cases e
          show FExt _ db'.store.files
          rw [hio.1]; exact FExt.refl _
        | some v =>
          rw [hf] at hrm
          obtain ⟨tx', e3, ht'⟩ := hrm
          obtain ⟨it, ifd⟩ := Top.remove htx.top hf
          obtain ⟨db2, tx2, e4, hd2, ht2, hc, _⟩ := txCommit_ok hE hs.db ht' (vals_set htx.top it ifd hv (by simp))
            (room_of ht'.top (vals_set htx.top it ifd hv (by simp)) (ks := k :: ks) (fun k' hk' => by
              rw [ifd, Contents.set_apply] at hk'
              split at hk'
              · next e => simp [e]
              · exact List.mem_cons_of_mem _ (hk k' hk')) (by simpa using hroom))
          simp only [step, urkelRemove, e1, Res.bind_ok, e3, e4, txDestroy_ok ht2, Res.pure_eq] at e
          cases e
          have := hc.ext
          rw [show db'.store.files = s.db.store.files from hio.1] at this
          exact this
      | _ => exact hw.elim
    · rw [(step_same hop' hw e).1]; exact FExt.refl _

theorem FExt.cons {a b : List Bytes} (h : FExt a b) (x : Bytes) : FExt (x :: a) (x :: b) := by
  rcases h with rfl | ⟨i, l, junk, extra, rfl, rfl⟩
  · exact FExt.refl _
  · exact .inr ⟨x :: i, l, junk, extra, rfl, rfl⟩

theorem FExt.ne_nil {a b : List Bytes} (h : FExt a b) (ha : a ≠ []) : b ≠ [] := by
  rcases h with rfl | ⟨i, l, junk, extra, rfl, rfl⟩
  · exact ha
  · simp

theorem FExt.antisymm {a b : List Bytes} (h1 : FExt a b) (h2 : FExt b a) : a = b := by
  by_cases hb : b = []
  · subst hb
    rcases h2 with h | ⟨i, l, junk, extra, h, _⟩
    · exact h.symm
    · simp at h
  · have hlen : a.length = b.length := Nat.le_antisymm h1.length_le h2.length_le
    have hpos : 0 < b.length := by
      cases b with
      | nil => exact (hb rfl).elim
      | cons _ _ => simp
    have hga : a[b.length - 1]? = some (a[b.length - 1]'(by omega)) := List.getElem?_eq_getElem (by omega)
    have hgb : b[b.length - 1]? = some (b[b.length - 1]'(by omega)) := List.getElem?_eq_getElem (by omega)
    refine h1.eq_of_last (by omega) hga hgb ?_
    obtain ⟨f, hf, hp⟩ := h2.get _ _ hgb
    rw [hga] at hf
    cases hf
    exact hp.length_le

/-- Two prefixes of the same files. -/
theorem FExt.total : ∀ {c a b : List Bytes}, FExt a c → FExt b c → a ≠ [] → b ≠ [] → FExt a b ∨ FExt b a
  | [], a, b, ha, hb, na, nb => by
    rcases ha with rfl | ⟨i, l, junk, extra, _, h⟩
    · exact (na rfl).elim
    · simp at h
  | x :: c, a, b, ha, hb, na, nb => by
    -- the shapes of the two
    have shape : ∀ {a : List Bytes}, FExt a (x :: c) → a ≠ [] → (∃ d, x = (a.headD []) ++ d ∧ a = [a.headD []]) ∨ ∃ a', a' ≠ [] ∧ a = x :: a' ∧ FExt a' c := by
      intro a h na
      rcases h with rfl | ⟨i, l, junk, extra, rfl, h⟩
      · cases c with
        | nil => exact .inl ⟨[], by simp, rfl⟩
        | cons y c => exact .inr ⟨y :: c, by simp, rfl, FExt.refl _⟩
      · cases i with
        | nil =>
          simp only [List.nil_append, List.cons_append, List.cons.injEq] at h
          exact .inl ⟨junk, by simpa using h.1, rfl⟩
        | cons y i =>
          simp only [List.cons_append, List.cons.injEq] at h
          obtain ⟨rfl, h⟩ := h
          exact .inr ⟨i ++ [l], by simp, rfl, .inr ⟨i, l, junk, extra, rfl, h⟩⟩
    rcases shape ha na with ⟨d, hx, h1⟩ | ⟨a', na', rfl, ha'⟩
    · rcases shape hb nb with ⟨d', hx', h2⟩ | ⟨b', nb', rfl, hb'⟩
      · rw [h1, h2]
        have hor : a.headD [] <+: b.headD [] ∨ b.headD [] <+: a.headD [] :=
          List.prefix_or_prefix_of_prefix (l₃ := x) ⟨d, hx.symm⟩ ⟨d', hx'.symm⟩
        rcases hor with ⟨t, ht⟩ | ⟨t, ht⟩
        · left; rw [← ht]; exact .inr ⟨[], _, t, [], rfl, rfl⟩
        · right; rw [← ht]; exact .inr ⟨[], _, t, [], rfl, rfl⟩
      · left
        rw [h1]
        exact .inr ⟨[], _, d, b', rfl, congrArg (· :: b') hx⟩
    · rcases shape hb nb with ⟨d', hx', h2⟩ | ⟨b', nb', rfl, hb'⟩
      · right
        rw [h2]
        exact .inr ⟨[], _, d', a', rfl, congrArg (· :: a') hx'⟩
      · rcases FExt.total ha' hb' na' nb' with h | h
        · exact .inl (h.cons x)
        · exact .inr (h.cons x)

end Urkel
