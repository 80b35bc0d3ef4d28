import Verif.Lemmas.Damage
/-
C69: damaged data files.
-/
namespace Urkel

section
variable {E : Env} {s : Sys} {id : Nat} {n : Node}

theorem step_tx {t : Tx} (ht : s.txs id = some t) : s.tx id = .ok t := by unfold Sys.tx; rw [ht]

theorem catchErr_abort {α : Type} {r : Res α} : catchErr r = .abort ↔ r = .abort := by cases r <;> simp [catchErr]
theorem catchErr_ub {α : Type} {r : Res α} : catchErr r = .ub ↔ r = .ub := by cases r <;> simp [catchErr]

theorem map_fails {α β : Type} {r : Res α} {f : α → Res β} (h : ∀ x, ∃ y, f x = .ok y) :
    ((r >>= f) = .abort ↔ r = .abort) ∧ ((r >>= f) = .ub ↔ r = .ub) := by
  cases r with
  | ok x => obtain ⟨y, e⟩ := h x; rw [Res.bind_ok, e]; exact ⟨⟨(nomatch ·), (nomatch ·)⟩, ⟨(nomatch ·), (nomatch ·)⟩⟩
  | err _ => exact ⟨⟨(nomatch ·), (nomatch ·)⟩, ⟨(nomatch ·), (nomatch ·)⟩⟩
  | abort => exact ⟨⟨fun _ => rfl, fun _ => rfl⟩, ⟨(nomatch ·), (nomatch ·)⟩⟩
  | ub => exact ⟨⟨(nomatch ·), (nomatch ·)⟩, ⟨fun _ => rfl, fun _ => rfl⟩⟩

theorem catch_noErr {α β : Type} {r : Res α} {f : Except Err α → Res β} (h : ∀ x, ∃ y, f x = .ok y) (e : Err) : (catchErr r >>= f) ≠ .err e := by
  cases r with
  | ok x => obtain ⟨y, e⟩ := h (.ok x); show f (.ok x) ≠ _; rw [e]; exact (nomatch ·)
  | err x => obtain ⟨y, e⟩ := h (.error x); show f (.error x) ≠ _; rw [e]; exact (nomatch ·)
  | abort => exact (nomatch ·)
  | ub => exact (nomatch ·)

/-- C69, reading. Whatever the data files contain: `urkel_tx_get` aborts the process exactly if
there is a record with a path longer than a key on the way of the key, reads outside the key
exactly if there is a branch on the way whose path is all the rest of the key, and otherwise
returns (a value, or an error code). -/
theorem C69_get (hw : Worn E s) (ht : s.txs id = some ⟨some n⟩) (k : B32) :
    (step E s (.get id k) = .abort ↔ MeetsLong s.db.store k n 0) ∧ (step E s (.get id k) = .ub ↔ MeetsFull s.db.store k n 0) ∧
      ∀ e, step E s (.get id k) ≠ .err e := by
  have hf := hw.held.txs id _ ht n rfl
  have e : step E s (.get id k) = (catchErr (treeGet s.db.store k true treeFuel n 0) >>= fun r => pure (s, .ofBytes r)) := by
    simp only [step, step_tx ht, Res.bind_ok]; rfl
  have m := map_fails (r := catchErr (treeGet s.db.store k true treeFuel n 0)) (f := fun r => (pure (s, .ofBytes r) : Res (Sys × Ret))) fun x => ⟨_, rfl⟩
  rw [e, m.1, m.2, catchErr_abort, catchErr_ub]
  exact ⟨(treeGet_iff hf).1, (treeGet_iff hf).2, catch_noErr fun x => ⟨_, rfl⟩⟩

/-- C69, testing for a key. -/
theorem C69_has (hw : Worn E s) (ht : s.txs id = some ⟨some n⟩) (k : B32) :
    (step E s (.has id k) = .abort ↔ MeetsLong s.db.store k n 0) ∧ (step E s (.has id k) = .ub ↔ MeetsFull s.db.store k n 0) ∧
      ∀ e, step E s (.has id k) ≠ .err e := by
  have hf := hw.held.txs id _ ht n rfl
  have e : step E s (.has id k) = (catchErr (treeGet s.db.store k false treeFuel n 0 >>= fun _ => pure ()) >>= fun r => pure (s, .ofUnit r)) := by
    simp only [step, step_tx ht, Res.bind_ok]; rfl
  have m := map_fails (r := catchErr (treeGet s.db.store k false treeFuel n 0 >>= fun _ => pure ())) (f := fun r => (pure (s, .ofUnit r) : Res (Sys × Ret)))
    fun x => ⟨_, rfl⟩
  have m' := map_fails (r := treeGet s.db.store k false treeFuel n 0) (f := fun _ => (pure () : Res Unit)) fun x => ⟨_, rfl⟩
  rw [e, m.1, m.2, catchErr_abort, catchErr_ub, m'.1, m'.2]
  exact ⟨(treeGet_iff hf).1, (treeGet_iff hf).2, catch_noErr fun x => ⟨_, rfl⟩⟩

theorem plain_noErr {α β : Type} {r : Res α} {f : α → Res β} (hr : ∀ e, r ≠ .err e) (h : ∀ x, ∃ y, f x = .ok y) (e : Err) : (r >>= f) ≠ .err e := by
  cases r with
  | ok x => obtain ⟨y, e⟩ := h x; show f x ≠ _; rw [e]; exact (nomatch ·)
  | err x => exact absurd rfl (hr x)
  | abort => exact (nomatch ·)
  | ub => exact (nomatch ·)

/-- C69, inserting. `urkel_tx_insert` of a value that is not too long aborts exactly if there is
a record with a path longer than a key on the way of the key, reads outside the key exactly if
there is a branch on the way whose path begins with all the rest of the key, or a leaf in the
wrong place, and otherwise returns. -/
theorem C69_insert (hw : Worn E s) (ht : s.txs id = some ⟨some n⟩) (k : B32) {v : Bytes} (hv : v.length ≤ 1023) :
    (step E s (.insert id k v) = .abort ↔ MeetsLong s.db.store k n 0) ∧
      (step E s (.insert id k v) = .ub ↔ MeetsOver s.db.store k n 0 ∨ MeetsTwin s.db.store k n 0) ∧
      ∀ e, step E s (.insert id k v) ≠ .err e := by
  have hf := hw.held.txs id _ ht n rfl
  have o := txInsert_outcome (E := E) (db := s.db) (key := k) hf hv
  have e : step E s (.insert id k v) = (txInsert E s.db ⟨some n⟩ k v >>= fun x => pure (s.setTx id (some x.1), .ofUnit x.2)) := by
    simp only [step, step_tx ht, Res.bind_ok]
  have m := map_fails (r := txInsert E s.db ⟨some n⟩ k v) (f := fun x => (pure (s.setTx id (some x.1), .ofUnit x.2) : Res (Sys × Ret))) fun x => ⟨_, rfl⟩
  rw [e, m.1, m.2, meetsLong_iff, meetsOver_iff, meetsTwin_iff]
  refine ⟨o.abort_iff, o.ub_iff, plain_noErr (fun e => ?_) fun x => ⟨_, rfl⟩⟩
  unfold txInsert
  rw [if_neg (by unfold valueSize; omega)]
  show (match treeInsert E s.db.store k v treeFuel n 0 with
    | .ok n' => pure (⟨some n'⟩, .ok ())
    | .err .ENOUPDATE => pure (⟨some n⟩, .ok ())
    | .err e => pure (⟨some n⟩, .error e)
    | .abort => .abort
    | .ub => .ub : Res (Tx × Except Err Unit)) ≠ _
  generalize treeInsert E s.db.store k v treeFuel n 0 = q
  cases q with
  | err x => cases x <;> exact (nomatch ·)
  | _ => exact (nomatch ·)

/-- C69, removing. `urkel_tx_remove` aborts exactly if there is a record with a path longer than
a key on the way of the key, or the key is there and the other side of the last branch cannot
be used: its record cannot be read or is no record, or its path does not fit. It reads outside
the key exactly if there is a branch on the way whose path is all the rest of the key; otherwise
it returns. -/
theorem C69_remove (hw : Worn E s) (ht : s.txs id = some ⟨some n⟩) (k : B32) :
    (step E s (.remove id k) = .abort ↔ MeetsLong s.db.store k n 0 ∨ LostSibling s.db.store k n 0 ∨ LongSibling s.db.store k n 0) ∧
      (step E s (.remove id k) = .ub ↔ MeetsFull s.db.store k n 0) ∧ ∀ e, step E s (.remove id k) ≠ .err e := by
  have hf := hw.held.txs id _ ht n rfl
  have o := txRemove_outcome (db := s.db) (key := k) hf
  have e : step E s (.remove id k) = (txRemove s.db ⟨some n⟩ k >>= fun x => pure (s.setTx id (some x.1), .ofUnit x.2)) := by
    simp only [step, step_tx ht, Res.bind_ok]
  have m := map_fails (r := txRemove s.db ⟨some n⟩ k) (f := fun x => (pure (s.setTx id (some x.1), .ofUnit x.2) : Res (Sys × Ret))) fun x => ⟨_, rfl⟩
  rw [e, m.1, m.2, meetsLong_iff, lostSibling_iff, longSibling_iff, meetsFull_iff]
  refine ⟨o.abort_iff, o.ub_iff, plain_noErr (fun e => ?_) fun x => ⟨_, rfl⟩⟩
  unfold txRemove
  show (match treeRemove s.db.store k treeFuel n 0 with
    | .ok n' => pure (⟨some n'⟩, .ok ())
    | .err e => pure (⟨some n⟩, .error e)
    | .abort => .abort
    | .ub => .ub : Res (Tx × Except Err Unit)) ≠ _
  generalize treeRemove s.db.store k treeFuel n 0 = q
  cases q <;> exact (nomatch ·)

/-- C69, proving. -/
theorem C69_prove (hw : Worn E s) (ht : s.txs id = some ⟨some n⟩) (k : B32) :
    (step E s (.prove id k) = .abort ↔ MeetsLong s.db.store k n 0) ∧ (step E s (.prove id k) = .ub ↔ MeetsFull s.db.store k n 0) ∧
      ∀ e, step E s (.prove id k) ≠ .err e := by
  have hf := hw.held.txs id _ ht n rfl
  have o := txProve_outcome (E := E) (db := s.db) (key := k) hf
  have e : step E s (.prove id k) = (txProve E s.db ⟨some n⟩ k >>= fun x => pure (s.setTx id (some x.1), .ofBytes x.2)) := by
    simp only [step, step_tx ht, Res.bind_ok]
  have m := map_fails (r := txProve E s.db ⟨some n⟩ k) (f := fun x => (pure (s.setTx id (some x.1), .ofBytes x.2) : Res (Sys × Ret))) fun x => ⟨_, rfl⟩
  rw [e, m.1, m.2, meetsLong_iff, meetsFull_iff]
  refine ⟨o.abort_iff, o.ub_iff, fun er h => ?_⟩
  have hne := txProve_ne E s.db ⟨some n⟩ k
  generalize txProve E s.db ⟨some n⟩ k = q at h hne
  cases q with
  | ok _ => cases h
  | err _ => exact hne _ rfl
  | abort => cases h
  | ub => cases h

end

/-! ### Concrete damage -/

/-- The database of Props/Codec.lean (keys 00..00 and 00..01) with the first 192 bytes of the
data file replaced. The leaves are at 0 and 40, the branch at 80. -/
def wornDb (d : Bytes) : Db := { rotDb with store := { rotDb.store with files := rotFiles d } }

theorem worn_exists {d : Bytes} (hl : (rotFiles d).map List.length = rotDb.store.files.map List.length) :
    ∃ s n, Worn toyEnv s ∧ s.db = wornDb d ∧ s.txs 0 = some rotTx1 ∧ s.txs 0 = some ⟨some n⟩ := by
  obtain ⟨s, h1, h2, h3⟩ := rot_reachable
  have : ∃ n, rotTx1 = ⟨some n⟩ := by
    have : rotTx1.root.isSome = true := by decide +kernel
    obtain ⟨n, hn⟩ := Option.isSome_iff_exists.1 this
    exact ⟨n, by cases h : rotTx1; rw [h] at hn; dsimp only at hn; rw [hn]⟩
  obtain ⟨n, hn⟩ := this
  refine ⟨{ s with db := wornDb d }, n, .rot h1.worn ⟨rotFiles d, ?_, ?_⟩, rfl, h3, by rw [← hn]; exact h3⟩
  · rw [h2]; exact hl
  · rw [h2]; rfl

/-- Byte `i` of the first 192 is replaced by `x`. -/
def rotByte (i : Nat) (x : UInt8) : Bytes := ((rotDb.store.files.headD []).take 192).set i x

/-- The pointer to the right side of the branch is replaced by `p`. -/
def rotRight (p : Ptr) : Bytes :=
  let f := (rotDb.store.files.headD []).take 192
  f.take 153 ++ ptrWrite p ++ f.drop 160

theorem worn_lengths : (rotFiles (rotByte 40 0)).map List.length = rotDb.store.files.map List.length ∧
    (rotFiles (rotByte 39 1)).map List.length = rotDb.store.files.map List.length ∧
    (rotFiles (rotRight ⟨1, 80, 112⟩)).map List.length = rotDb.store.files.map List.length := by decide +kernel

/-- One byte of the record of one key is damaged: the other key can be read, but not removed. -/
theorem worn_sibling : txGet (wornDb (rotByte 40 0)) rotTx1 rotK = .ok [] ∧ txRemove (wornDb (rotByte 40 0)) rotTx1 rotK = .abort ∧
    txGet (wornDb (rotByte 40 0)) rotTx1 rotK' = .err .ECORRUPTION := by decide +kernel

theorem worn_twin : txGet (wornDb (rotByte 39 1)) rotTx1 rotK = .err .ENOTFOUND ∧ txInsert toyEnv (wornDb (rotByte 39 1)) rotTx1 rotK [] = .ub := by decide +kernel

theorem worn_join : txGet (wornDb (rotRight ⟨1, 80, 112⟩)) rotTx1 rotK = .ok [] ∧ txRemove (wornDb (rotRight ⟨1, 80, 112⟩)) rotTx1 rotK = .abort := by decide +kernel

/-- C69: one damaged byte in the record of a neighbour kills a process that removes an
undamaged key. -/
theorem C69_remove_aborts : ∃ s n, Worn toyEnv s ∧ s.txs 0 = some ⟨some n⟩ ∧ step toyEnv s (.get 0 rotK) = .ok (s, .bytes []) ∧
    step toyEnv s (.remove 0 rotK) = .abort := by
  obtain ⟨s, n, hw, hdb, ht1, ht⟩ := worn_exists worn_lengths.1
  obtain ⟨g1, g2, _⟩ := worn_sibling
  refine ⟨s, n, hw, ht, ?_, ?_⟩
  · simp only [step, step_tx ht1, Res.bind_ok]
    rw [hdb, g1]; rfl
  · simp only [step, step_tx ht1, Res.bind_ok]
    rw [hdb, g2]; rfl

/-- C69: the same if a pointer to a neighbour leads to a branch with a long path. -/
theorem C69_remove_joins : ∃ s n, Worn toyEnv s ∧ s.txs 0 = some ⟨some n⟩ ∧ step toyEnv s (.get 0 rotK) = .ok (s, .bytes []) ∧
    step toyEnv s (.remove 0 rotK) = .abort := by
  obtain ⟨s, n, hw, hdb, ht1, ht⟩ := worn_exists worn_lengths.2.2
  obtain ⟨g1, g2⟩ := worn_join
  refine ⟨s, n, hw, ht, ?_, ?_⟩
  · simp only [step, step_tx ht1, Res.bind_ok]
    rw [hdb, g1]; rfl
  · simp only [step, step_tx ht1, Res.bind_ok]
    rw [hdb, g2]; rfl

/-- C69: one damaged bit of a stored key, and inserting that key reads outside the key. -/
theorem C69_insert_outside : ∃ s n, Worn toyEnv s ∧ s.txs 0 = some ⟨some n⟩ ∧ step toyEnv s (.get 0 rotK) = .ok (s, .fail .ENOTFOUND) ∧
    step toyEnv s (.insert 0 rotK []) = .ub := by
  obtain ⟨s, n, hw, hdb, ht1, ht⟩ := worn_exists worn_lengths.2.1
  obtain ⟨g1, g2⟩ := worn_twin
  refine ⟨s, n, hw, ht, ?_, ?_⟩
  · simp only [step, step_tx ht1, Res.bind_ok]
    rw [hdb, g1]; rfl
  · simp only [step, step_tx ht1, Res.bind_ok]
    rw [hdb, g2]; rfl

/-- The other conditions occur too: a record with a long path, and a branch that is its own child. -/
example : ∃ s n, Worn toyEnv s ∧ s.txs 0 = some ⟨some n⟩ ∧ MeetsLong s.db.store rotK n 0 := by
  obtain ⟨s, n, hw, hdb, ht1, ht⟩ := worn_exists rot_lengths.1
  refine ⟨s, n, hw, ht, (C69_get hw ht rotK).1.1 ?_⟩
  simp only [step, step_tx ht1, Res.bind_ok]
  rw [hdb, wornDb, rot_long]; rfl

example : ∃ s n, Worn toyEnv s ∧ s.txs 0 = some ⟨some n⟩ ∧ MeetsFull s.db.store rotK n 0 := by
  obtain ⟨s, n, hw, hdb, ht1, ht⟩ := worn_exists rot_lengths.2
  refine ⟨s, n, hw, ht, (C69_get hw ht rotK).2.1.1 ?_⟩
  simp only [step, step_tx ht1, Res.bind_ok]
  rw [hdb, wornDb, rot_deep]; rfl

end Urkel
