import Verif.Props.Recovery
import Verif.Lemmas.Grew
/-
C26-C28: recovery twice, crashes during creation, append-only files.
-/
namespace Urkel
open PTree

/-! ### C26 -/

theorem SameView.refl {E : Env} (db : Db) : SameView E db db := ⟨rfl, fun _ _ => rfl, fun _ _ => Iff.rfl⟩

/-- The data files are left as they are (no truncation, nothing unlinked) by an
open that follows an open, whatever the directory contained, and the second open
has the same outcome: the same error, or a database that cannot be told from the
first one by reading. -/
theorem C26_recovery_idempotent {E : Env} {d d' : Dir} {rand : B32} {r : Except Err Db}
    (h : dbOpen E d rand = .ok (d', r)) (rand' : B32) :
    ∃ r', dbOpen E d' rand' = .ok (d', r') ∧ SameOutcome E r r' := by
  unfold dbOpen at h
  obtain ⟨⟨d1, r1⟩, e1, h⟩ := Res.bind_eq_ok.1 h
  have hd : d1 = d' := by cases r1 <;> cases h <;> rfl
  subst hd
  rcases openStore_again e1 rand' with e2 | ⟨s, rfl, h1, h2, h3, h4, h5, e2⟩
  · refine ⟨r, ?_, ?_⟩
    · unfold dbOpen
      rw [e2]
      exact h
    · cases r with
      | error e => exact rfl
      | ok db => exact SameView.refl db
  · simp only at h
    cases h
    refine ⟨.ok ⟨{ s with lastMeta := Meta.init }, rootHash s, false⟩, ?_, rfl, ?_, ?_⟩
    · unfold dbOpen
      rw [e2]; rfl
    · intro tx k
      unfold txGet
      cases tx.node with
      | ok n => exact treeGet_lastMeta s Meta.init k true treeFuel n 0
      | err _ => simp only [Res.bind_err]
      | abort => simp only [Res.bind_abort]
      | ub => simp only [Res.bind_ub]
    · intro o r
      cases o with
      | none =>
        constructor
        · rintro ⟨a, e⟩; cases e; exact ⟨_, rfl⟩
        · rintro ⟨a, e⟩; cases e; exact ⟨_, rfl⟩
      | some hh =>
        unfold txCreate
        simp only
        rw [readHistory_blank h1 h2 h3 h4 h5, readHistory_blank (s := { s with lastMeta := Meta.init }) h1 h2 h3 h4 h5]
        simp only [Res.bind_ok]
        split
        · constructor
          · rintro ⟨a, e⟩; cases e; exact ⟨_, rfl⟩
          · rintro ⟨a, e⟩; cases e; exact ⟨_, rfl⟩
        · constructor
          · rintro ⟨a, e⟩; cases e; exact ⟨_, rfl⟩
          · rintro ⟨a, e⟩; cases e; exact ⟨_, rfl⟩

/-- A directory whose data files hold rubbish: the first open drops it. -/
example : ∃ d' r, dbOpen toyEnv ⟨some (List.replicate 32 7), [[1, 2, 3], List.replicate 50 9]⟩ B32.zero = .ok (d', .ok r) ∧
    d'.files = [[]] := by
  obtain ⟨s', e, _, _, _, _⟩ := open_empty (E := toyEnv) (d := ⟨some (List.replicate 32 7), [[1, 2, 3], List.replicate 50 9]⟩)
    (rand := B32.zero) (key := ⟨List.replicate 32 7, by decide⟩) rfl
    (by
      intro j f n hj _ hl
      match j with
      | 0 => simp at hj; subst hj; simp [metaSize] at hl
      | 1 =>
        simp at hj; subst hj
        have h38 : metaSize = 38 := rfl
        rw [h38, List.length_cons] at hl
        have : n = 0 := by simp at hl; omega
        subst this
        decide +kernel
      | j + 2 => simp at hj)
    (by
      intro j f n hj _ hl
      match j with
      | 0 => simp at hj; subst hj; simp [metaSize] at hl
      | 1 =>
        simp at hj; subst hj
        have h38 : metaSize = 38 := rfl
        rw [h38, List.length_cons] at hl
        have : n = 0 := by simp at hl; omega
        subst this
        decide +kernel
      | j + 2 => simp at hj)
  have h : dbOpen toyEnv ⟨some (List.replicate 32 7), [[1, 2, 3], List.replicate 50 9]⟩ B32.zero =
      .ok (⟨some (List.replicate 32 7), [[]]⟩, .ok ⟨s', rootHash s', false⟩) := by
    unfold dbOpen
    rw [e]; rfl
  exact ⟨_, _, h, rfl⟩

/-! ### C27 -/

/-- C27 is false: if the process stops after the key file has been created and
before its 32 bytes have been written, no later open succeeds. -/
theorem C27_create_crash_false (E : Env) (rand : B32) :
    ∃ d, CreateImage rand d ∧ ∀ rand', dbOpen E d rand' = .ok (d, .error .EBADOPEN) :=
  ⟨⟨some (rand.bytes.take 0), []⟩, .key 0 (by omega), fun _ => rfl⟩

/-- C27, as far as it is true: at every other point of the creation (nothing
written yet, or the whole key file written), a later open succeeds and gives an
empty database. Missing: a key file written partly; exactly then opening fails. -/
theorem C27_create_crash_partial (E : Env) (rand : B32) {d : Dir} (h : CreateImage rand d) (rand' : B32) :
    (∃ d' db tx, (∀ b, d.keyFile = some b → b.length = 32) ∧ dbOpen E d rand' = .ok (d', .ok db) ∧ d'.files = [[]] ∧
        dbRoot db = B32.zero ∧
        txCreate E db none = .ok (db, .ok tx) ∧ Shows db tx Contents.empty) ∨
    (∃ b, d.keyFile = some b ∧ b.length < 32 ∧ dbOpen E d rand' = .ok (d, .error .EBADOPEN)) := by
  have good : ∀ d : Dir, (∀ b, d.keyFile = some b → b.length = 32) → (d.files = [] ∨ d.files = [[]]) →
      ∃ d' db tx, (∀ b, d.keyFile = some b → b.length = 32) ∧ dbOpen E d rand' = .ok (d', .ok db) ∧ d'.files = [[]] ∧
        dbRoot db = B32.zero ∧
        txCreate E db none = .ok (db, .ok tx) ∧ Shows db tx Contents.empty := by
    intro d hk hf
    have hkey : ∃ key, d.key rand' = some key := by
      unfold Dir.key
      cases hd : d.keyFile with
      | none => exact ⟨_, rfl⟩
      | some b => exact ⟨_, dif_pos (by rw [hk b hd]; exact Nat.le_refl _)⟩
    obtain ⟨key, hkey⟩ := hkey
    have hno : ∀ (j : Nat) (f : Bytes) (n : Nat), d.files[j]? = some f → ¬ metaSize * n + metaSize ≤ f.length := by
      intro j f n hj
      have h38 : metaSize = 38 := rfl
      rcases hf with hf | hf <;> rw [hf] at hj
      · simp at hj
      · match j with
        | 0 => simp at hj; subst hj; rw [h38]; simp
        | j + 1 => simp at hj
    obtain ⟨s', e, hs, _, _, hr⟩ := open_empty (E := E) hkey (fun j f n hj _ hl => (hno j f n hj hl).elim)
      (fun j f n hj _ hl => (hno j f n hj hl).elim)
    refine ⟨⟨some (d.keyFile.getD rand'.bytes), [[]]⟩, ⟨s', rootHash s', false⟩, ⟨some s'.state.rootNode⟩, hk, ?_, rfl, hr, ?_, ?_⟩
    · unfold dbOpen; rw [e]; rfl
    · rfl
    · have := TxIs.shows (db := ⟨s', rootHash s', false⟩) (hist := []) (t := .null) (E := E)
        (DInv.mk hs ⟨.null, by simp, hr.symm⟩ (fun _ => hr)) (tx := ⟨some s'.state.rootNode⟩) ⟨_, rfl, hs.root.repr, Or.inl rfl, trivial⟩
      exact this
  cases h with
  | nothing => exact Or.inl (good _ (fun b hb => nomatch hb) (Or.inl rfl))
  | key n hn =>
    by_cases h32 : n = 32
    · refine Or.inl (good _ ?_ (Or.inl rfl))
      intro b hb
      cases hb
      rw [h32, List.length_take, rand.len]; rfl
    · refine Or.inr ⟨_, rfl, by rw [List.length_take, rand.len]; omega, ?_⟩
      have hl : ¬ 32 ≤ (rand.bytes.take n).length := by rw [List.length_take, rand.len]; omega
      have : Dir.key ⟨some (rand.bytes.take n), []⟩ rand' = none := by
        unfold Dir.key
        exact dif_neg hl
      unfold dbOpen openStore
      rw [this]; rfl
  | all =>
    refine Or.inl (good _ ?_ (Or.inr rfl))
    intro b hb
    cases hb
    exact rand.len

example (rand : B32) : CreateImage rand ⟨some (rand.bytes.take 17), []⟩ := .key 17 (by omega)

/-! ### C28 -/

/-- Whatever calls a program makes while the database is open, successful or
not, whatever the state and whatever the operating system does to the writes:
every data file keeps its index and its bytes and only grows at its end. -/
theorem C28_append_only {E : Env} {s s' : Sys} {ops : List Op} (hno : ∀ rand, Op.reopen rand ∉ ops)
    (h : Calls E s ops s') (j : Nat) (f : Bytes) (hf : s.db.store.files[j]? = some f) :
    ∃ more, s'.db.store.files[j]? = some (f ++ more) := by
  suffices Grew s.db.store.files s'.db.store.files from this j f hf
  clear hf
  induction h with
  | nil s => exact Grew.refl _
  | cons e _ ih =>
    exact (step_grew (fun rand hr => hno rand (by simp [hr])) e).trans
      (ih fun rand hr => hno rand (by simp [hr]))

end Urkel
