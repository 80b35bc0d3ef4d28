import Verif.Lemmas.Answers
import Verif.Props.Damage
/-
C73: what lookups and changes do on damaged data files.
-/
namespace Urkel

section
variable {E : Env} {s : Sys} {id : Nat} {n : Node}

theorem bytes_answer {r : Res Bytes} {s : Sys} :
    (∀ x, ((catchErr r >>= fun r => pure (s, Ret.ofBytes r) : Res (Sys × Ret)) = .ok (s, .bytes x) ↔ r = .ok x)) ∧
    (∀ e, ((catchErr r >>= fun r => pure (s, Ret.ofBytes r) : Res (Sys × Ret)) = .ok (s, .fail e) ↔ r = .err e)) := by
  cases r with
  | ok y =>
    refine ⟨fun x => ⟨fun h => ?_, fun h => ?_⟩, fun e => ⟨fun h => ?_, fun h => ?_⟩⟩
    · cases h; rfl
    · cases h; rfl
    · cases h
    · cases h
  | err y =>
    refine ⟨fun x => ⟨fun h => ?_, fun h => ?_⟩, fun e => ⟨fun h => ?_, fun h => ?_⟩⟩
    · cases h
    · cases h
    · cases h; rfl
    · cases h; rfl
  | abort => exact ⟨fun x => ⟨fun h => (by cases h), fun h => (by cases h)⟩, fun e => ⟨fun h => (by cases h), fun h => (by cases h)⟩⟩
  | ub => exact ⟨fun x => ⟨fun h => (by cases h), fun h => (by cases h)⟩, fun e => ⟨fun h => (by cases h), fun h => (by cases h)⟩⟩

theorem step_get (hf : Fit n) (ht : s.txs id = some ⟨some n⟩) (k : B32) :
    step E s (.get id k) = (catchErr (look s.db.store k true n 0) >>= fun r => pure (s, .ofBytes r)) := by
  simp only [step, step_tx ht, Res.bind_ok]
  rw [← treeGet_look hf (by omega) (room_top n)]; rfl

theorem step_has (hf : Fit n) (ht : s.txs id = some ⟨some n⟩) (k : B32) :
    step E s (.has id k) = (catchErr (look s.db.store k false n 0 >>= fun _ => pure ()) >>= fun r => pure (s, .ofUnit r)) := by
  simp only [step, step_tx ht, Res.bind_ok]
  rw [← treeGet_look hf (by omega) (room_top n)]; rfl

theorem gives_ret {op : Op} {r : Ret} (h : ∀ s' r', step E s op = .ok (s', r') → s' = s) : Gives E s op (.ret r) ↔ step E s op = .ok (s, r) := by
  unfold Gives
  cases e : step E s op with
  | ok x =>
    obtain ⟨s', r'⟩ := x
    obtain rfl := h s' r' e
    exact ⟨fun h => by cases h; rfl, fun h => by cases h; rfl⟩
  | err x => exact ⟨fun h => (by cases h), fun h => (by cases h)⟩
  | abort => exact ⟨fun h => (by cases h), fun h => (by cases h)⟩
  | ub => exact ⟨fun h => (by cases h), fun h => (by cases h)⟩

theorem catch_same {α : Type} {r : Res α} {g : Except Err α → Ret} {s' : Sys} {x : Ret} (h : (catchErr r >>= fun y => pure (s, g y) : Res (Sys × Ret)) = .ok (s', x)) :
    s' = s := by
  cases r with
  | ok y => cases h; rfl
  | err y => cases h; rfl
  | abort => cases h
  | ub => cases h

/-- C73, reading. Whatever the data files contain, `urkel_tx_get` returns the value `x` exactly if
the way of the key leads to its leaf and `x` is the value there, `URKEL_ECORRUPTION` exactly if
a node on the way or the value cannot be read, and `URKEL_ENOTFOUND` exactly if the way ends
somewhere else; there is no other error. -/
theorem C73_get (hw : Worn E s) (ht : s.txs id = some ⟨some n⟩) (k : B32) :
    (∀ x, Gives E s (.get id k) (.ret (.bytes x)) ↔ Finds s.db.store k n x) ∧
      (Gives E s (.get id k) (.ret (.fail .ECORRUPTION)) ↔ Lost s.db.store k n ∨ LostValue s.db.store k n) ∧
      (Gives E s (.get id k) (.ret (.fail .ENOTFOUND)) ↔ Ends s.db.store k n) ∧
      ∀ e, Gives E s (.get id k) (.ret (.fail e)) → e = .ECORRUPTION ∨ e = .ENOTFOUND := by
  have hf := hw.held.txs id _ ht n rfl
  have e := step_get (E := E) hf ht k
  have hs : ∀ r, Gives E s (.get id k) (.ret r) ↔ step E s (.get id k) = .ok (s, r) := fun r =>
    gives_ret fun s' r' h => catch_same (e ▸ h)
  have b := bytes_answer (r := look s.db.store k true n 0) (s := s)
  obtain ⟨l1, l2, l3, l4⟩ := look_get (s := s.db.store) (key := k) hf
  refine ⟨fun x => ?_, ?_, ?_, fun er h => ?_⟩
  · rw [hs, e, b.1, l1]
  · rw [hs, e, b.2, l2]
  · rw [hs, e, b.2, l3]
  · rw [hs, e, b.2] at h; exact l4 er h

theorem unit_answer {r : Res Bytes} {s : Sys} :
    ((catchErr (r >>= fun _ => pure ()) >>= fun r => pure (s, Ret.ofUnit r) : Res (Sys × Ret)) = .ok (s, .unit) ↔ ∃ x, r = .ok x) ∧
    (∀ e, ((catchErr (r >>= fun _ => pure ()) >>= fun r => pure (s, Ret.ofUnit r) : Res (Sys × Ret)) = .ok (s, .fail e) ↔ r = .err e)) := by
  cases r with
  | ok y =>
    refine ⟨⟨fun h => ⟨y, rfl⟩, fun h => rfl⟩, fun e => ⟨fun h => ?_, fun h => ?_⟩⟩
    · cases h
    · cases h
  | err y =>
    refine ⟨⟨fun h => (by cases h), fun ⟨_, h⟩ => (by cases h)⟩, fun e => ⟨fun h => ?_, fun h => ?_⟩⟩
    · cases h; rfl
    · cases h; rfl
  | abort => exact ⟨⟨fun h => (by cases h), fun ⟨_, h⟩ => (by cases h)⟩, fun e => ⟨fun h => (by cases h), fun h => (by cases h)⟩⟩
  | ub => exact ⟨⟨fun h => (by cases h), fun ⟨_, h⟩ => (by cases h)⟩, fun e => ⟨fun h => (by cases h), fun h => (by cases h)⟩⟩

/-- C73, testing for a key: the value is not looked at. -/
theorem C73_has (hw : Worn E s) (ht : s.txs id = some ⟨some n⟩) (k : B32) :
    (Gives E s (.has id k) (.ret .unit) ↔ FindsKey s.db.store k n) ∧
      (Gives E s (.has id k) (.ret (.fail .ECORRUPTION)) ↔ Lost s.db.store k n) ∧
      (Gives E s (.has id k) (.ret (.fail .ENOTFOUND)) ↔ Ends s.db.store k n) ∧
      ∀ e, Gives E s (.has id k) (.ret (.fail e)) → e = .ECORRUPTION ∨ e = .ENOTFOUND := by
  have hf := hw.held.txs id _ ht n rfl
  have e := step_has (E := E) hf ht k
  have hs : ∀ r, Gives E s (.has id k) (.ret r) ↔ step E s (.has id k) = .ok (s, r) := fun r =>
    gives_ret fun s' r' h => catch_same (e ▸ h)
  have b := unit_answer (r := look s.db.store k false n 0) (s := s)
  obtain ⟨l1, l2, l3, l4⟩ := look_has (s := s.db.store) (key := k) hf
  refine ⟨?_, ?_, ?_, fun er h => ?_⟩
  · rw [hs, e, b.1]
    exact ⟨fun ⟨x, h⟩ => ((l1 x).1 h).2, fun h => ⟨[], (l1 []).2 ⟨rfl, h⟩⟩⟩
  · rw [hs, e, b.2, l2]
  · rw [hs, e, b.2, l3]
  · rw [hs, e, b.2] at h; exact l4 er h

/-! ### Changes -/

theorem ok_ret {s s' : Sys} {r r' : Ret} (h : (Res.ok (s, r) : Res (Sys × Ret)) = .ok (s', r')) : r = r' := by
  injection h with h; exact congrArg Prod.snd h

/-- The way of a key can end in one manner only. -/
theorem ends_once (hf : Fit n) {k : B32} (h : Ends s.db.store k n) : (∀ x, ¬ Finds s.db.store k n x) ∧ ¬ Lost s.db.store k n := by
  obtain ⟨l1, l2, l3, _⟩ := look_get (s := s.db.store) (key := k) hf
  have e := l3.2 h
  refine ⟨fun x hx => ?_, fun hl => ?_⟩
  · rw [(l1 x).2 hx] at e; cases e
  · rw [l2.2 (.inl hl)] at e; cases e

/-- C73, proving. Whatever the data files contain, `urkel_tx_prove` fails with `URKEL_ECORRUPTION`
exactly if the way of the key meets a node, or a leaf whose value, cannot be read, and with no
other error; a proof that it returns is a proof of existence exactly if the way leads to the leaf of
the key, and then it contains the value there, the one that `urkel_tx_get` returns; otherwise it is
a proof of absence, and the way does end without the key. -/
theorem C73_prove (hw : Worn E s) (ht : s.txs id = some ⟨some n⟩) (k : B32) :
    (∀ raw, Gives E s (.prove id k) (.ret (.bytes raw)) → ∃ pf, proofWrite pf = .ok raw ∧
      ((∃ x, pf.body = .exists x ∧ Finds s.db.store k n x ∧ Gives E s (.get id k) (.ret (.bytes x))) ∨
        ((∀ x, pf.body ≠ .exists x) ∧ Ends s.db.store k n ∧ Gives E s (.get id k) (.ret (.fail .ENOTFOUND))))) ∧
    (∀ x, Finds s.db.store k n x → ∃ raw, Gives E s (.prove id k) (.ret (.bytes raw))) ∧
    (Ends s.db.store k n → ¬ LostLeaf s.db.store k n → ∃ raw, Gives E s (.prove id k) (.ret (.bytes raw))) ∧
    (Gives E s (.prove id k) (.ret (.fail .ECORRUPTION)) ↔ Lost s.db.store k n ∨ LostLeaf s.db.store k n) ∧
    ∀ e, Gives E s (.prove id k) (.ret (.fail e)) → e = .ECORRUPTION := by
  have hf := hw.held.txs id _ ht n rfl
  obtain ⟨g1, g2, g3, _⟩ := C73_get (E := E) hw ht k
  obtain ⟨l1, l2, l3, _⟩ := look_get (s := s.db.store) (key := k) hf
  have i := treeProve_outcome (E := E) (s := s.db.store) (key := k) treeFuel n 0 0 hf (by omega) (by omega) (room_top n)
  have all := proofEnd_all (E := E) (s := s.db.store) (key := k) hf
  have hst : step E s (.prove id k) = (do
      let (t, r) ← (do
        let (r, n) ← treeProve E s.db.store k treeFuel n 0 0
        match r with
        | none => pure (⟨some n⟩, .error .ECORRUPTION)
        | some pf => do
          let size ← proofSize pf
          let raw ← proofWrite pf
          if raw.length ≠ size then .ub
          else pure (⟨some n⟩, .ok raw) : Res (Tx × Except Err Bytes))
      pure (s.setTx id (some t), .ofBytes r)) := by
    simp only [step, step_tx ht, Res.bind_ok]; rfl
  have nofind : ∀ x, Finds s.db.store k n x → ¬ LostLeaf s.db.store k n := by
    rintro x hx hl
    have := (l1 x).2 hx
    obtain ⟨h, p, v, vp, d, w, hv⟩ := hx
    obtain ⟨h', p', k', v', vp', d', w', hn⟩ := hl
    by_cases hk : k' = k
    · subst hk
      rw [l2.2 (.inr ⟨_, _, _, _, _, w', hn⟩)] at this; cases this
    · rw [l3.2 ⟨_, .inr (.inl ⟨_, _, _, _, _, hk, w'⟩)⟩] at this; cases this
  have nolost : ∀ x, Finds s.db.store k n x → ¬ Lost s.db.store k n := by
    intro x hx hl
    have := (l1 x).2 hx
    rw [l2.2 (.inl hl)] at this; cases this
  have none_of : (∀ x, look s.db.store k true n 0 ≠ .ok x) → (∀ x, look s.db.store k true n 0 ≠ .err x) →
      (∀ x, ¬ Finds s.db.store k n x) ∧ ¬ Ends s.db.store k n ∧ ¬ (Lost s.db.store k n ∨ LostLeaf s.db.store k n) := by
    intro h1 h2
    refine ⟨fun x hx => h1 _ ((l1 x).2 hx), fun h => h2 _ (l3.2 h), ?_⟩
    rintro (h | ⟨h, p, k', v, vp, d, w, hn⟩)
    · exact h2 _ (l2.2 (.inl h))
    · by_cases hk : k' = k
      · subst hk
        exact h2 _ (l2.2 (.inr ⟨_, _, _, _, _, w, hn⟩))
      · exact h2 _ (l3.2 ⟨_, .inr (.inl ⟨_, _, _, _, _, hk, w⟩)⟩)
  unfold Gives
  rw [hst]
  unfold proofEnd at all
  generalize treeProve E s.db.store k treeFuel n 0 0 = q at i all
  cases q with
  | ok y =>
    obtain ⟨o, n'⟩ := y
    cases o with
    | none =>
      have hlost : Lost s.db.store k n ∨ LostLeaf s.db.store k n := by
        rcases all with ⟨_, _, _, h⟩ | ⟨_, _, _, _, _, h⟩ | ⟨h, _⟩ | ⟨_, h⟩ | ⟨_, h⟩
        · cases h
        · cases h
        · exact h
        · cases h
        · cases h
      refine ⟨fun raw h => (by cases h), fun x hx => ?_, fun he hl => ?_, ⟨fun _ => hlost, fun _ => rfl⟩, fun e h => (by cases h; rfl)⟩
      · exact (hlost.elim (nolost x hx) (nofind x hx)).elim
      · exact (hlost.elim (ends_once hf he).2 hl).elim
    | some pf =>
      obtain ⟨_, _, h, _⟩ := i
      obtain ⟨h3, h4, h5⟩ := h pf rfl
      have hp : ProofFit pf := ⟨by simpa using h3, h4, h5⟩
      obtain ⟨raw, hraw⟩ : ∃ raw, proofWrite pf = .ok raw := ⟨_, hp.write⟩
      have hres : (do
        let size ← proofSize pf
        let raw ← proofWrite pf
        if raw.length ≠ size then .ub
        else pure (⟨some n'⟩, .ok raw) : Res (Tx × Except Err Bytes)) = .ok (⟨some n'⟩, .ok raw) := by
        have hw := hp.write
        rw [hp.size, Res.bind_ok, hw, Res.bind_ok, if_neg (fun h => h rfl)]
        rw [hraw] at hw
        injection hw with hw
        rw [hw]; rfl
      simp only [Res.bind_ok, hres]
      have hnl : ¬ (Lost s.db.store k n ∨ LostLeaf s.db.store k n) := by
        rcases all with ⟨x, _, hx, _⟩ | ⟨_, _, h, hl, _, _⟩ | ⟨_, h⟩ | ⟨_, h⟩ | ⟨_, h⟩
        · exact fun h => h.elim (nolost x hx) (nofind x hx)
        · exact fun h' => h'.elim (ends_once hf h).2 hl
        · cases h
        · cases h
        · cases h
      refine ⟨fun raw' h => ?_, fun x hx => ⟨raw, rfl⟩, fun _ _ => ⟨raw, rfl⟩, ⟨fun h => (by cases h), fun h => (hnl h).elim⟩, fun e h => (by cases h)⟩
      cases h
      refine ⟨pf, hraw, ?_⟩
      rcases all with ⟨x, d, hx, h⟩ | ⟨d, b, h, hl, hb, hh⟩ | ⟨_, h⟩ | ⟨_, h⟩ | ⟨_, h⟩
      · left
        simp only [Res.bind_ok, Option.map_some, Res.pure_eq, Res.ok.injEq, Option.some.injEq, Prod.mk.injEq] at h
        exact ⟨x, h.2, hx, (g1 x).2 hx⟩
      · right
        simp only [Res.bind_ok, Option.map_some, Res.pure_eq, Res.ok.injEq, Option.some.injEq, Prod.mk.injEq] at hh
        exact ⟨fun x e => hb (by rw [← hh.2, e]; rfl), h, g3.2 h⟩
      · cases h
      · cases h
      · cases h
  | err _ => rcases all with ⟨_, _, _, h⟩ | ⟨_, _, _, _, _, h⟩ | ⟨_, h⟩ | ⟨_, h⟩ | ⟨_, h⟩ <;> cases h
  | abort =>
    have hl : look s.db.store k true n 0 = .abort := by
      rcases all with ⟨_, _, _, h⟩ | ⟨_, _, _, _, _, h⟩ | ⟨_, h⟩ | ⟨h, _⟩ | ⟨_, h⟩
      · cases h
      · cases h
      · cases h
      · exact h
      · cases h
    obtain ⟨c1, c2, c3⟩ := none_of (fun x => by rw [hl]; exact fun h => nomatch h) (fun x => by rw [hl]; exact fun h => nomatch h)
    exact ⟨fun _ h => (by cases h), fun x hx => (c1 x hx).elim, fun he _ => (c2 he).elim, ⟨fun h => (by cases h), fun h => (c3 h).elim⟩, fun _ h => (by cases h)⟩
  | ub =>
    have hl : look s.db.store k true n 0 = .ub := by
      rcases all with ⟨_, _, _, h⟩ | ⟨_, _, _, _, _, h⟩ | ⟨_, h⟩ | ⟨_, h⟩ | ⟨h, _⟩
      · cases h
      · cases h
      · cases h
      · cases h
      · exact h
    obtain ⟨c1, c2, c3⟩ := none_of (fun x => by rw [hl]; exact fun h => nomatch h) (fun x => by rw [hl]; exact fun h => nomatch h)
    exact ⟨fun _ h => (by cases h), fun x hx => (c1 x hx).elim, fun he _ => (c2 he).elim, ⟨fun h => (by cases h), fun h => (c3 h).elim⟩, fun _ h => (by cases h)⟩

/-- The answers to lookups depend on the lookup only. -/
theorem gives_look {s' : Sys} {n' : Node} (hf : Fit n) (hf' : Fit n') (ht : s.txs id = some ⟨some n⟩) (ht' : s'.txs id = some ⟨some n'⟩) {k : B32}
    (h : ∀ want, look s'.db.store k want n' 0 = look s.db.store k want n 0) (a : Answer) :
    (Gives E s' (.get id k) a ↔ Gives E s (.get id k) a) ∧ (Gives E s' (.has id k) a ↔ Gives E s (.has id k) a) := by
  unfold Gives
  rw [step_get hf ht, step_get hf' ht', step_has hf ht, step_has hf' ht', h true, h false]
  constructor
  · cases look s.db.store k true n 0 <;> exact Iff.rfl
  · cases look s.db.store k false n 0 <;> exact Iff.rfl

/-- What a step that changes the root of one transaction leaves. -/
theorem setTx_frame {tx : Tx} : (s.setTx id (some tx)).db = s.db ∧ (∀ j, j ≠ id → (s.setTx id (some tx)).txs j = s.txs j) ∧ (s.setTx id (some tx)).txs id = some tx := by
  refine ⟨rfl, fun j hj => ?_, ?_⟩
  · simp [Sys.setTx, hj]
  · simp [Sys.setTx]

theorem insert_cases (ht : s.txs id = some ⟨some n⟩) (k : B32) {v : Bytes} (hv : v.length ≤ 1023) :
    step E s (.insert id k v) = match treeInsert E s.db.store k v treeFuel n 0 with
      | .ok n' => .ok (s.setTx id (some ⟨some n'⟩), .unit)
      | .err .ENOUPDATE => .ok (s.setTx id (some ⟨some n⟩), .unit)
      | .err e => .ok (s.setTx id (some ⟨some n⟩), .fail e)
      | .abort => .abort
      | .ub => .ub := by
  simp only [step, step_tx ht, Res.bind_ok]
  unfold txInsert
  rw [if_neg (by unfold valueSize; omega)]
  show (match treeInsert E s.db.store k v treeFuel n 0 with
    | .ok n' => pure (⟨some n'⟩, .ok ())
    | .err .ENOUPDATE => pure (⟨some n⟩, .ok ())
    | .err e => pure (⟨some n⟩, .error e)
    | .abort => .abort
    | .ub => .ub : Res (Tx × Except Err Unit)) >>= _ = _
  generalize treeInsert E s.db.store k v treeFuel n 0 = q
  cases q with
  | err x => cases x <;> rfl
  | _ => rfl

theorem setTx_same {t : Tx} (ht : s.txs id = some t) : s.setTx id (some t) = s := by
  obtain ⟨db, txs⟩ := s
  simp only [Sys.setTx]
  congr 1
  funext j
  split
  · next h => rw [h]; exact ht.symm
  · rfl

/-- C73, inserting. Whatever the data files contain, if `urkel_tx_insert` returns success then the
key reads as the new value, every other key reads exactly as before (also if it reads as an
error or the call does not return), and neither the files nor other transactions have changed. -/
theorem C73_insert (hw : Worn E s) (ht : s.txs id = some ⟨some n⟩) {k : B32} {v : Bytes} {s' : Sys}
    (e : step E s (.insert id k v) = .ok (s', .unit)) :
    s'.db = s.db ∧ (∀ j, j ≠ id → s'.txs j = s.txs j) ∧ Gives E s' (.get id k) (.ret (.bytes v)) ∧
      ∀ k', k' ≠ k → ∀ a, (Gives E s' (.get id k') a ↔ Gives E s (.get id k') a) ∧ (Gives E s' (.has id k') a ↔ Gives E s (.has id k') a) := by
  have hf := hw.held.txs id _ ht n rfl
  have hv : v.length ≤ 1023 := by
    by_contra hc
    simp only [step, step_tx ht, Res.bind_ok, txInsert] at e
    rw [if_pos (by unfold valueSize; omega)] at e
    cases e
  have hw' : Worn E s' := hw.call e
  have e0 := e
  rw [insert_cases ht k hv] at e
  have fin : ∀ n', s' = s.setTx id (some ⟨some n'⟩) → look s.db.store k true n' 0 = .ok v →
      (∀ (k' : B32) (want : Bool), k' ≠ k → look s.db.store k' want n' 0 = look s.db.store k' want n 0) →
      s'.db = s.db ∧ (∀ j, j ≠ id → s'.txs j = s.txs j) ∧ Gives E s' (.get id k) (.ret (.bytes v)) ∧
      ∀ k', k' ≠ k → ∀ a, (Gives E s' (.get id k') a ↔ Gives E s (.get id k') a) ∧ (Gives E s' (.has id k') a ↔ Gives E s (.has id k') a) := by
    rintro n' rfl h1 h2
    obtain ⟨f1, f2, f3⟩ := setTx_frame (s := s) (id := id) (tx := ⟨some n'⟩)
    have hf' := hw'.held.txs id _ f3 n' rfl
    refine ⟨f1, f2, ?_, fun k' hk a => gives_look hf hf' ht f3 (fun want => h2 k' want hk) a⟩
    unfold Gives
    rw [step_get hf' f3, f1, h1]; rfl
  cases q : treeInsert E s.db.store k v treeFuel n 0 with
  | ok n' =>
    rw [q] at e
    cases e
    have := look_insert hv treeFuel n 0 n' hf (by omega) (room_top n) q
    exact fin n' rfl this.1 this.2
  | err x =>
    rcases (insert_err (E := E) hf hv).2 _ q with rfl | ⟨rfl, h⟩
    · rw [q] at e; cases e
    · rw [q] at e; cases e
      exact fin n rfl h fun _ _ _ => rfl
  | abort => rw [q] at e; cases e
  | ub => rw [q] at e; cases e

/-- C73, inserting fails with `URKEL_ECORRUPTION` exactly if a node on the way of the key cannot be
read, with no other error (for values that are not too long), and then nothing has changed. -/
theorem C73_insert_fails (hw : Worn E s) (ht : s.txs id = some ⟨some n⟩) {k : B32} {v : Bytes} (hv : v.length ≤ 1023) :
    (step E s (.insert id k v) = .ok (s, .fail .ECORRUPTION) ↔ Lost s.db.store k n) ∧
      ∀ s' er, step E s (.insert id k v) = .ok (s', .fail er) → s' = s ∧ er = .ECORRUPTION := by
  have hf := hw.held.txs id _ ht n rfl
  rw [insert_cases ht k hv, setTx_same ht, ← (insert_err (E := E) hf hv).1]
  cases q : treeInsert E s.db.store k v treeFuel n 0 with
  | ok n' => exact ⟨⟨fun h => (nomatch ok_ret h), fun h => (by cases h)⟩, fun _ _ h => (nomatch ok_ret h)⟩
  | err x =>
    rcases (insert_err (E := E) hf hv).2 _ q with rfl | ⟨rfl, h⟩
    · exact ⟨⟨fun _ => rfl, fun _ => rfl⟩, fun _ _ h => by cases h; exact ⟨rfl, rfl⟩⟩
    · exact ⟨⟨fun h => (by cases h), fun h => (by cases h)⟩, fun _ _ h => (by cases h)⟩
  | abort => exact ⟨⟨fun h => (by cases h), fun h => (by cases h)⟩, fun _ _ h => (by cases h)⟩
  | ub => exact ⟨⟨fun h => (by cases h), fun h => (by cases h)⟩, fun _ _ h => (by cases h)⟩

theorem remove_cases (ht : s.txs id = some ⟨some n⟩) (k : B32) :
    step E s (.remove id k) = match treeRemove s.db.store k treeFuel n 0 with
      | .ok n' => .ok (s.setTx id (some ⟨some n'⟩), .unit)
      | .err e => .ok (s, .fail e)
      | .abort => .abort
      | .ub => .ub := by
  simp only [step, step_tx ht, Res.bind_ok]
  unfold txRemove
  show (match treeRemove s.db.store k treeFuel n 0 with
    | .ok n' => pure (⟨some n'⟩, .ok ())
    | .err e => pure (⟨some n⟩, .error e)
    | .abort => .abort
    | .ub => .ub : Res (Tx × Except Err Unit)) >>= _ = _
  generalize treeRemove s.db.store k treeFuel n 0 = q
  cases q with
  | err x => show Res.ok (s.setTx id (some ⟨some n⟩), Ret.fail x) = Res.ok (s, Ret.fail x); rw [setTx_same ht]
  | _ => rfl

/-- C73, removing fails with `URKEL_ECORRUPTION` exactly if a node on the way of the key cannot be
read, with `URKEL_ENOTFOUND` exactly if the way ends somewhere else, with no other error, and then
nothing has changed. -/
theorem C73_remove_fails (hw : Worn E s) (ht : s.txs id = some ⟨some n⟩) {k : B32} :
    (step E s (.remove id k) = .ok (s, .fail .ECORRUPTION) ↔ Lost s.db.store k n) ∧
      (step E s (.remove id k) = .ok (s, .fail .ENOTFOUND) ↔ Ends s.db.store k n) ∧
      ∀ s' er, step E s (.remove id k) = .ok (s', .fail er) → s' = s ∧ (er = .ECORRUPTION ∨ er = .ENOTFOUND) := by
  have hf := hw.held.txs id _ ht n rfl
  obtain ⟨r1, r2, r3, _⟩ := remove_err (s := s.db.store) (key := k) hf
  rw [remove_cases ht k, ← r1, ← r2]
  cases q : treeRemove s.db.store k treeFuel n 0 with
  | ok n' => exact ⟨⟨fun h => (nomatch ok_ret h), fun h => (by cases h)⟩, ⟨fun h => (nomatch ok_ret h), fun h => (by cases h)⟩, fun _ _ h => (nomatch ok_ret h)⟩
  | err x =>
    refine ⟨⟨fun h => by cases h; rfl, fun h => by cases h; rfl⟩, ⟨fun h => by cases h; rfl, fun h => by cases h; rfl⟩, fun _ _ h => ?_⟩
    cases h
    exact ⟨rfl, r3 _ q⟩
  | abort => exact ⟨⟨fun h => (by cases h), fun h => (by cases h)⟩, ⟨fun h => (by cases h), fun h => (by cases h)⟩, fun _ _ h => (by cases h)⟩
  | ub => exact ⟨⟨fun h => (by cases h), fun h => (by cases h)⟩, ⟨fun h => (by cases h), fun h => (by cases h)⟩, fun _ _ h => (by cases h)⟩

/-- C73, removing. If `urkel_tx_remove` returns success, the way of the key led to its leaf, and
neither the files nor other transactions have changed. If moreover the unused bits after the path
of the last branch are zero (they are in every record the library writes, but nothing checks
them), the key is not found any more and every other key reads exactly as before, except that a
leaf which was on the other side of that branch may now be found under its key although it was in
the wrong place before. Without the condition on the unused bits this is false: see
`C73_remove_loses`. -/
theorem C73_remove_partial (hw : Worn E s) (ht : s.txs id = some ⟨some n⟩) {k : B32} {s' : Sys}
    (e : step E s (.remove id k) = .ok (s', .unit)) :
    FindsKey s.db.store k n ∧ s'.db = s.db ∧ (∀ j, j ≠ id → s'.txs j = s.txs j) ∧
      ((∀ pre y d, LastBranch s.db.store k n 0 pre y d → pre.Clean) →
        (Gives E s' (.get id k) (.ret (.fail .ENOTFOUND)) ∨ Neighbour s.db.store k n 0 k) ∧
        ∀ k', k' ≠ k → (∀ a, (Gives E s' (.get id k') a ↔ Gives E s (.get id k') a) ∧ (Gives E s' (.has id k') a ↔ Gives E s (.has id k') a)) ∨
          Ends s.db.store k' n ∧ Neighbour s.db.store k n 0 k') := by
  have hf := hw.held.txs id _ ht n rfl
  have hw' : Worn E s' := hw.call e
  rw [remove_cases ht k] at e
  cases q : treeRemove s.db.store k treeFuel n 0 with
  | ok n' =>
    rw [q] at e
    cases e
    obtain ⟨f1, f2, f3⟩ := setTx_frame (s := s) (id := id) (tx := ⟨some n'⟩)
    have hf' := hw'.held.txs id _ f3 n' rfl
    refine ⟨(remove_err hf).2.2.2 _ q, f1, f2, fun hc => ?_⟩
    have lk := look_remove treeFuel n 0 n' hf (by omega) (room_top n) hc q
    refine ⟨?_, fun k' hk => ?_⟩
    · rcases lk k true with h | ⟨_, h⟩
      · rw [if_pos rfl] at h
        left
        unfold Gives
        rw [step_get hf' f3, f1, h]; rfl
      · exact .inr h
    · have ends : ∀ want, look s.db.store k' want n 0 = .err .ENOTFOUND → Ends s.db.store k' n := fun want h => by
        cases want with
        | true => exact (look_get hf).2.2.1.1 h
        | false => exact (look_has hf).2.2.1.1 h
      have both : ∀ want, look s.db.store k' want n' 0 = look s.db.store k' want n 0 ∨ Ends s.db.store k' n ∧ Neighbour s.db.store k n 0 k' := fun want => by
        rcases lk k' want with h | ⟨(h | h) | h, hn⟩
        · rw [if_neg hk] at h; exact .inl h
        · exact absurd h hk
        · exact .inr ⟨ends want h, hn⟩
        · exact .inl h
      rcases both true with h1 | h1
      · rcases both false with h2 | h2
        · exact .inl fun a => gives_look hf hf' ht f3 (fun want => by cases want; exact h2; exact h1) a
        · exact .inr h2
      · exact .inr h1
  | err x => rw [q] at e; cases e
  | abort => rw [q] at e; cases e
  | ub => rw [q] at e; cases e

end

/-! ### A concrete database with a damaged bit -/

theorem step_remove {E : Env} {s : Sys} {id : Nat} {tx tx' : Tx} {k : B32} (h : s.txs id = some tx) (e : txRemove s.db tx k = .ok (tx', .ok ())) :
    step E s (.remove id k) = .ok (s.setTx id (some tx'), .unit) := by
  simp only [step, Sys.tx, h, Res.bind_ok, e, Res.pure_eq]; rfl

theorem worn_rot {E : Env} {s : Sys} {db : Db} (hw : Worn E s) (hdb : s.db = db) {files : List Bytes}
    (hl : files.map List.length = db.store.files.map List.length) :
    Worn E { s with db := { db with store := { db.store with files := files } } } := by
  subst hdb
  exact .rot hw ⟨files, hl, rfl⟩

def dirtyA : B32 := keyOf 0
def dirtyB : B32 := ⟨0x40 :: List.replicate 31 0, by simp⟩
def dirtyC : B32 := ⟨0x50 :: List.replicate 31 0, by simp⟩

/-- Three keys are inserted and committed. -/
def dirty0 : Res (Tx × Except Err Unit) := txInsert toyEnv db0 (leafTx dirtyA []) dirtyB []
def dirtyTx : Tx := match dirty0 with | .ok (tx, _) => tx | _ => ⟨none⟩
def dirty1 : Res (Tx × Except Err Unit) := txInsert toyEnv db0 dirtyTx dirtyC []
def dirtyTx1 : Tx := match dirty1 with | .ok (tx, _) => tx | _ => ⟨none⟩
def dirty2 : Res (Db × Tx × Except Err Unit) := txCommit toyEnv db0 dirtyTx1
def dirtyDb : Db := match dirty2 with | .ok (db, _, _) => db | _ => db0
def dirtyTx2 : Tx := match dirty2 with | .ok (_, tx, _) => tx | _ => ⟨none⟩

theorem dirty0_ok : txInsert toyEnv db0 (leafTx dirtyA []) dirtyB [] = .ok (dirtyTx, .ok ()) := by
  have : (match dirty0 with | .ok (_, .ok ()) => true | _ => false) = true := by decide +kernel
  show dirty0 = _
  unfold dirtyTx
  split at this
  · next e => rw [e]
  · cases this

theorem dirty1_ok : txInsert toyEnv db0 dirtyTx dirtyC [] = .ok (dirtyTx1, .ok ()) := by
  have : (match dirty1 with | .ok (_, .ok ()) => true | _ => false) = true := by decide +kernel
  show dirty1 = _
  unfold dirtyTx1
  split at this
  · next e => rw [e]
  · cases this

theorem dirty2_ok : txCommit toyEnv db0 dirtyTx1 = .ok (dirtyDb, dirtyTx2, .ok ()) := by
  have : (match dirty2 with | .ok (_, _, .ok ()) => true | _ => false) = true := by decide +kernel
  show dirty2 = _
  unfold dirtyDb dirtyTx2
  split at this
  · next e => rw [e]
  · cases this

/-- The record of the root begins at 201; its path has one bit, stored in the byte at 203.
The third bit of that byte, which is not used, is set. -/
def dirtyFiles : List Bytes := dirtyDb.store.files.map fun f => f.set 203 0x20
def dirtyRot : Db := { dirtyDb with store := { dirtyDb.store with files := dirtyFiles } }
def dirtyTx3 : Tx := match txRemove dirtyRot dirtyTx2 dirtyA with | .ok (tx, .ok ()) => tx | _ => ⟨none⟩

theorem dirty_exists : ∃ s n, Worn toyEnv s ∧ s.db = dirtyRot ∧ s.txs 0 = some dirtyTx2 ∧ s.txs 0 = some ⟨some n⟩ := by
  have h0 := (sys2_logged dirtyA [] (by simp)).reachable.worn
  have hdb := sys2_db dirtyA []
  have htx := sys2_tx dirtyA []
  generalize sys2 dirtyA [] = s at h0 hdb htx
  have h1 := h0.call (step_insert htx (hdb ▸ dirty0_ok))
  obtain ⟨a1, _, a3⟩ := setTx_frame (s := s) (id := 0) (tx := dirtyTx)
  generalize s.setTx 0 (some dirtyTx) = s1 at h1 a1 a3
  rw [hdb] at a1
  have h2 := h1.call (step_insert a3 (a1 ▸ dirty1_ok))
  obtain ⟨b1, _, b3⟩ := setTx_frame (s := s1) (id := 0) (tx := dirtyTx1)
  generalize s1.setTx 0 (some dirtyTx1) = s2 at h2 b1 b3
  rw [a1] at b1
  have e2 := dirty2_ok
  have hroot : ∃ n, dirtyTx2 = ⟨some n⟩ := by
    have : dirtyTx2.root.isSome = true := by decide +kernel
    obtain ⟨n, hn⟩ := Option.isSome_iff_exists.1 this
    exact ⟨n, by cases h : dirtyTx2; rw [h] at hn; dsimp only at hn; rw [hn]⟩
  obtain ⟨n, hn⟩ := hroot
  have hl : dirtyFiles.map List.length = dirtyDb.store.files.map List.length := by
    unfold dirtyFiles
    rw [List.map_map]
    exact List.map_congr_left fun f _ => by simp
  unfold dirtyRot
  generalize dirtyFiles = F at hl ⊢
  generalize dirtyDb = D at e2 hl ⊢
  generalize dirtyTx2 = T at e2 hn ⊢
  generalize dirtyTx1 = T1 at e2 b3
  generalize db0 = D0 at e2 b1
  have h3 := h2.call (step_commit b3 (b1 ▸ e2))
  obtain ⟨c1, _, c3⟩ := setTx_frame (s := { s2 with db := D }) (id := 0) (tx := T)
  generalize ({ s2 with db := D } : Sys).setTx 0 (some T) = s3 at h3 c1 c3
  exact ⟨_, n, worn_rot h3 c1 hl, rfl, c3, by rw [← hn]; exact c3⟩

theorem dirty_before : txGet dirtyRot dirtyTx2 dirtyB = .ok [] ∧ txGet dirtyRot dirtyTx2 dirtyC = .ok [] := by decide +kernel
theorem dirty_remove : (match txRemove dirtyRot dirtyTx2 dirtyA with | .ok (_, .ok ()) => true | _ => false) = true := by decide +kernel
theorem dirty_after : txGet dirtyRot dirtyTx3 dirtyB = .err .ENOTFOUND ∧ txGet dirtyRot dirtyTx3 dirtyC = .err .ENOTFOUND := by decide +kernel

/-- C73 is false without the condition: one flipped bit that no lookup ever looks at, and removing
one key makes two other keys, which could be read before, disappear. -/
theorem C73_remove_loses : ∃ s s' n, Worn toyEnv s ∧ s.txs 0 = some ⟨some n⟩ ∧
    Gives toyEnv s (.get 0 dirtyB) (.ret (.bytes [])) ∧ Gives toyEnv s (.get 0 dirtyC) (.ret (.bytes [])) ∧
    step toyEnv s (.remove 0 dirtyA) = .ok (s', .unit) ∧
    Gives toyEnv s' (.get 0 dirtyB) (.ret (.fail .ENOTFOUND)) ∧ Gives toyEnv s' (.get 0 dirtyC) (.ret (.fail .ENOTFOUND)) := by
  obtain ⟨s, n, hw, hdb, ht1, ht⟩ := dirty_exists
  obtain ⟨g1, g2⟩ := dirty_before
  obtain ⟨g3, g4⟩ := dirty_after
  have e : txRemove dirtyRot dirtyTx2 dirtyA = .ok (dirtyTx3, .ok ()) := by
    have h := dirty_remove
    unfold dirtyTx3
    split at h
    · next e => rw [e]
    · cases h
  obtain ⟨a1, _, a3⟩ := setTx_frame (s := s) (id := 0) (tx := dirtyTx3)
  refine ⟨s, s.setTx 0 (some dirtyTx3), n, hw, ht, ?_, ?_, ?_, ?_, ?_⟩
  · simp only [Gives, step, step_tx ht1, Res.bind_ok]
    rw [hdb, g1]; rfl
  · simp only [Gives, step, step_tx ht1, Res.bind_ok]
    rw [hdb, g2]; rfl
  · exact step_remove ht1 (hdb ▸ e)
  · simp only [Gives, step, step_tx a3, Res.bind_ok]
    rw [a1, hdb, g3]; rfl
  · simp only [Gives, step, step_tx a3, Res.bind_ok]
    rw [a1, hdb, g4]; rfl

/-- The hypotheses occur, with answers of each kind: in the database of Props/Damage.lean with one
byte of the record of one key damaged, the other key is found and this one is lost. -/
example : ∃ s n, Worn toyEnv s ∧ s.txs 0 = some ⟨some n⟩ ∧ Finds s.db.store rotK n [] ∧ Lost s.db.store rotK' n := by
  obtain ⟨s, n, hw, hdb, ht1, ht⟩ := worn_exists worn_lengths.1
  obtain ⟨g1, _, g3⟩ := worn_sibling
  have f1 : Finds s.db.store rotK n [] := ((C73_get hw ht rotK).1 []).1 (by
    simp only [Gives, step, step_tx ht1, Res.bind_ok]
    rw [hdb, g1]; rfl)
  refine ⟨s, n, hw, ht, f1, (C73_has hw ht rotK').2.1.1 ?_⟩
  have g : txHas (wornDb (rotByte 40 0)) rotTx1 rotK' = .err .ECORRUPTION := by decide +kernel
  simp only [Gives, step, step_tx ht1, Res.bind_ok]
  rw [hdb, g]; rfl

/-- In a state reached without damage the condition of `C73_remove_partial` always holds. -/
theorem C73_clean {E : Env} (hE : EnvOk E) {s : Sys} (h : Reachable E s) {id : Nat} {n : Node} (ht : s.txs id = some ⟨some n⟩) (k : B32) :
    ∀ pre y d, LastBranch s.db.store k n 0 pre y d → pre.Clean := by
  rintro pre y d ⟨h', p', l, r, d0, b, w, _⟩
  obtain ⟨hist, t, hd, n', hn, hr, _⟩ := h.tree hE ht
  cases hn
  rw [← rd_of hd] at hr
  have key : ∀ {n n' : Node} {d d' : Nat}, Way s.db.store k n d n' d' → ∀ t, Repr E.H s.db.store.rd n t → ∃ t', Repr E.H s.db.store.rd n' t' := by
    intro n n' d d' w
    induction w with
    | here => exact fun t h => ⟨t, h⟩
    | @down h p pre l r n d d' b _ _ _ ih =>
      rintro t ⟨_, tl, tr, _, _, hl, hr, _⟩
      cases b with
      | false => exact ih tl hl
      | true => exact ih tr hr
    | load e _ ih =>
      rintro t ⟨hdisk, rfl⟩
      obtain ⟨m, e', hm, _⟩ := storeResolve_ok hdisk
      rw [e] at e'; cases e'
      exact ih t hm
  obtain ⟨t', pth, _, _, _, hb, _⟩ := key w t hr
  intro i h1 h2
  rw [hb.size] at h1
  rw [hb.bits, List.getElem?_append_right h1, List.getElem?_replicate]
  have := hb.le
  rw [if_pos (by omega)]

/-- The hypotheses of `C73_remove_partial` occur. -/
example : ∃ s n, Worn toyEnv s ∧ s.txs 0 = some ⟨some n⟩ ∧ (∀ pre y d, LastBranch s.db.store rotK n 0 pre y d → pre.Clean) ∧
    ∃ s', step toyEnv s (.remove 0 rotK) = .ok (s', .unit) := by
  obtain ⟨s, hr, hdb, ht⟩ := rot_reachable
  have hroot : ∃ n, rotTx1 = ⟨some n⟩ := by
    have : rotTx1.root.isSome = true := by decide +kernel
    obtain ⟨n, hn⟩ := Option.isSome_iff_exists.1 this
    exact ⟨n, by cases h : rotTx1; rw [h] at hn; dsimp only at hn; rw [hn]⟩
  obtain ⟨n, hn⟩ := hroot
  have ht' : s.txs 0 = some ⟨some n⟩ := by rw [← hn]; exact ht
  refine ⟨s, n, hr.worn, ht', C73_clean toyEnv_ok hr ht' rotK, ?_⟩
  have h : (match txRemove rotDb rotTx1 rotK with | .ok (_, .ok ()) => true | _ => false) = true := by decide +kernel
  split at h
  · next tx e => exact ⟨_, step_remove ht (hdb ▸ e)⟩
  · cases h

end Urkel
