import Verif.Lemmas.KeepTotal
import Verif.Props.Answers
/-
C74: commits keep what transactions answer, whatever directory was opened.
-/
namespace Urkel

section
variable {E : Env} {s s' : Sys} {id : Nat} {n : Node}

theorem Sane.held (h : Sane E s) : Held s := ⟨h.db.flat, fun i t ht m hm => by
  obtain ⟨n, e, hf, _⟩ := h.txs i t ht
  rw [e] at hm; cases hm; exact hf⟩

/-- What a commit that returns has done. -/
theorem commit_of (hE : EnvOk E) (ho : FromDir E s) (ht : s.txs id = some ⟨some n⟩) {r : Ret} (e : step E s (.commit id) = .ok (s', r)) :
    r = .unit ∧ ∃ o db', s' = ({ s with db := db' } : Sys).setTx id (some ⟨some o⟩) ∧ Stored E s.db db' n o ∧ Fit n ∧ hashVal E.H o = hashVal E.H n := by
  have hs := ho.sane hE
  simp only [step, step_tx ht, Res.bind_ok] at e
  obtain ⟨⟨db', t', x⟩, e1, e⟩ := Res.bind_eq_ok.1 e
  cases e
  obtain ⟨n0, h0, hf, hc, hn⟩ := hs.txs id _ ht
  cases h0
  obtain ⟨rfl, o, rfl, st⟩ := txCommit_of hE hs.db.store hf hc hn e1
  refine ⟨rfl, o, db', rfl, st, hf, ?_⟩
  unfold txCommit at e1
  simp only [Tx.node, Res.bind_ok] at e1
  obtain ⟨⟨s1, q⟩, e2, e1⟩ := Res.bind_eq_ok.1 e1
  cases q with
  | none => cases e1
  | some q =>
    obtain ⟨⟨s2, ok⟩, e3, e1⟩ := Res.bind_eq_ok.1 e1
    cases ok with
    | false => cases e1
    | true => cases e1; exact treeWrite_val hf e2

theorem gives_get (hf : Fit n) (ht : s.txs id = some ⟨some n⟩) {k : B32} {a : Answer} :
    Gives E s (.get id k) a ↔ a = (match look s.db.store k true n 0 with
      | .ok x => .ret (.bytes x)
      | .err e => .ret (.fail e)
      | .abort => .aborts
      | .ub => .undefined) := by
  unfold Gives
  rw [step_get hf ht]
  cases look s.db.store k true n 0 <;> exact Iff.rfl

theorem gives_has (hf : Fit n) (ht : s.txs id = some ⟨some n⟩) {k : B32} {a : Answer} :
    Gives E s (.has id k) a ↔ a = (match look s.db.store k false n 0 with
      | .ok _ => .ret .unit
      | .err e => .ret (.fail e)
      | .abort => .aborts
      | .ub => .undefined) := by
  unfold Gives
  rw [step_has hf ht]
  cases look s.db.store k false n 0 <;> exact Iff.rfl

/-- Answers carried over from one lookup to another. -/
theorem gives_keep {j j' : Nat} {m m' : Node} (hf : Fit m) (hf' : Fit m') (ht : s.txs j = some ⟨some m⟩) (ht' : s'.txs j' = some ⟨some m'⟩) {k : B32} {a : Answer}
    (hc : a ≠ .ret (.fail .ECORRUPTION)) :
    ((look s.db.store k true m 0 ≠ .err .ECORRUPTION → look s'.db.store k true m' 0 = look s.db.store k true m 0) → Gives E s (.get j k) a → Gives E s' (.get j' k) a) ∧
      ((look s.db.store k false m 0 ≠ .err .ECORRUPTION → look s'.db.store k false m' 0 = look s.db.store k false m 0) → Gives E s (.has j k) a → Gives E s' (.has j' k) a) := by
  rw [gives_get hf ht, gives_get hf' ht', gives_has hf ht, gives_has hf' ht']
  constructor
  · rintro h rfl
    rw [h fun hh => hc (by rw [hh])]
  · rintro h rfl
    rw [h fun hh => hc (by rw [hh])]

/-- C74, the committed transaction. Whatever directory was opened: if `urkel_tx_commit` returns, it
returns success, and every lookup answers as before it, with two exceptions: values that were
inserted since the last commit are cut to their length modulo 256, and a lookup that failed because of
damage (`URKEL_ECORRUPTION`) may answer something else. Without the exceptions it is false:
`C16_commit_preserves_false`, `C74_hides`. -/
theorem C74_commit_partial (hE : EnvOk E) (ho : FromDir E s) (ht : s.txs id = some ⟨some n⟩) {r : Ret} (e : step E s (.commit id) = .ok (s', r)) :
    r = .unit ∧ ∀ k,
      (∀ x, FindsNew s.db.store k n x → Gives E s' (.get id k) (.ret (.bytes (x.take (x.length % 256))))) ∧
      (∀ x, x.length < 256 → Gives E s (.get id k) (.ret (.bytes x)) → Gives E s' (.get id k) (.ret (.bytes x))) ∧
      (∀ a, a ≠ .ret (.fail .ECORRUPTION) →
        (Gives E s (.get id k) a → (∀ x, ¬ FindsNew s.db.store k n x) → Gives E s' (.get id k) a) ∧
        (Gives E s (.has id k) a → Gives E s' (.has id k) a)) := by
  have hs := ho.sane hE
  obtain ⟨rfl, o, db', rfl, st, hf, _⟩ := commit_of hE ho ht e
  refine ⟨rfl, fun k => ?_⟩
  obtain ⟨f1, f2, f3⟩ := setTx_frame (s := { s with db := db' }) (id := id) (tx := ⟨some o⟩)
  have hle : Rd.Le s.db.store.rd db'.store.rd := by
    rw [hs.db.store.sok.rd_eq, st.sane.sok.rd_eq]; exact vrd_mono st.ext
  have lk := look_kept st.kept st.sane.sok (FExt.refl _) hf hle k
  have hfo := st.flat.fit
  have new : ∀ x, FindsNew s.db.store k n x → Gives E (({ s with db := db' } : Sys).setTx id (some ⟨some o⟩)) (.get id k) (.ret (.bytes (x.take (x.length % 256)))) := fun x hx => by
    rw [gives_get hfo f3, f1, lk.1 x hx]
  have old : ∀ a, a ≠ .ret (.fail .ECORRUPTION) → Gives E s (.get id k) a → (∀ x, ¬ FindsNew s.db.store k n x) →
      Gives E (({ s with db := db' } : Sys).setTx id (some ⟨some o⟩)) (.get id k) a := fun a ha hg hn =>
    (gives_keep hf hfo ht f3 ha).1 (fun hc => by rw [f1]; exact lk.2 true (fun _ => hn) hc) hg
  refine ⟨new, fun x hx hg => ?_, fun a ha => ⟨old a ha, fun hg => ?_⟩⟩
  · by_cases hn : ∃ y, FindsNew s.db.store k n y
    · obtain ⟨y, hy⟩ := hn
      have hxy : x = y := by
        rw [gives_get hf ht] at hg
        obtain ⟨h, vp, d, w⟩ := hy
        obtain ⟨hf', _⟩ := w.fit hf (by omega)
        rw [look_way w hf (by omega), look_self] at hg
        obtain ⟨_, ⟨z, hz, hz'⟩ | ⟨hz, _⟩⟩ := hf'
        · cases hz
          have c : y.length ≤ valueSize := hz'
          simp only [storeRetrieve, c, decide_true, check_true, Res.bind_ok, Res.pure_eq] at hg
          cases hg; rfl
        · cases hz
      subst hxy
      have := new x hy
      rwa [Nat.mod_eq_of_lt hx, List.take_length] at this
    · exact old _ (by simp) hg fun y hy => hn ⟨y, hy⟩
  · exact (gives_keep hf hfo ht f3 ha).2 (fun hc => by rw [f1]; exact lk.2 false (nomatch ·) hc) hg

/-- C74, other transactions. A commit changes no answer of another transaction, except that a lookup that
failed because of damage may answer something else; the handle stays what it was. -/
theorem C74_others_partial (hE : EnvOk E) (ho : FromDir E s) (ht : s.txs id = some ⟨some n⟩) {r : Ret} (e : step E s (.commit id) = .ok (s', r)) :
    ∀ j, j ≠ id → s'.txs j = s.txs j ∧ ∀ k a, a ≠ .ret (.fail .ECORRUPTION) →
      (Gives E s (.get j k) a → Gives E s' (.get j k) a) ∧ (Gives E s (.has j k) a → Gives E s' (.has j k) a) := by
  have hs := ho.sane hE
  obtain ⟨rfl, o, db', rfl, st, hf, _⟩ := commit_of hE ho ht e
  intro j hj
  obtain ⟨f1, f2, f3⟩ := setTx_frame (s := { s with db := db' }) (id := id) (tx := ⟨some o⟩)
  have f4 := f2 j hj
  refine ⟨f4, fun k a ha => ?_⟩
  have hle : Rd.Le s.db.store.rd db'.store.rd := by
    rw [hs.db.store.sok.rd_eq, st.sane.sok.rd_eq]; exact vrd_mono st.ext
  cases hx : s.txs j with
  | none =>
    have hx' := f4.trans hx
    unfold Gives
    simp only [step, Sys.tx, hx, hx']
    exact ⟨fun h => h, fun h => h⟩
  | some t =>
    obtain ⟨m, hm, hfm, _⟩ := hs.txs j t hx
    obtain ⟨q⟩ := t
    cases hm
    have hx' := f4.trans hx
    have lk : ∀ want, look s.db.store k want m 0 ≠ .err .ECORRUPTION → look db'.store k want m 0 = look s.db.store k want m 0 := fun want h =>
      (look_mono (key := k) (want := want) (d := 0) hle hfm (by omega)).resolve_left h
    exact ⟨(gives_keep hfm hfm hx hx' ha).1 (by rw [f1]; exact lk true), (gives_keep hfm hfm hx hx' ha).2 (by rw [f1]; exact lk false)⟩

theorem gives_root (hf : Fit n) (ht : s.txs id = some ⟨some n⟩) {a : Answer} : Gives E s (.txRoot id) a ↔ a = .ret (.hash (hashVal E.H n)) := by
  obtain ⟨n', e, _⟩ := nodeHash_norm E.H n hf
  unfold Gives
  simp only [step, step_tx ht, Res.bind_ok, txRoot, Tx.node, e, Res.pure_eq]

/-- C74, roots: after the commit `urkel_root` and `urkel_tx_root` give what `urkel_tx_root` gave before it. -/
theorem C74_root (hE : EnvOk E) (ho : FromDir E s) (ht : s.txs id = some ⟨some n⟩) {r : Ret} (e : step E s (.commit id) = .ok (s', r)) :
    ∃ h, Gives E s (.txRoot id) (.ret (.hash h)) ∧ Gives E s' (.txRoot id) (.ret (.hash h)) ∧ Gives E s' .root (.ret (.hash h)) := by
  obtain ⟨rfl, o, db', rfl, st, hf, hv⟩ := commit_of hE ho ht e
  obtain ⟨f1, f2, f3⟩ := setTx_frame (s := { s with db := db' }) (id := id) (tx := ⟨some o⟩)
  refine ⟨hashVal E.H n, (gives_root hf ht).2 rfl, (gives_root st.flat.fit f3).2 (by rw [hv]), ?_⟩
  unfold Gives
  simp only [step, dbRoot, f1, st.hash]
  rw [← hv]
  have := st.flat
  cases o with
  | null => rfl
  | hash h p => rfl
  | leaf _ _ _ _ _ => exact this.elim
  | internal _ _ _ _ _ => exact this.elim

/-- The same lookups in transactions with the same root. -/
theorem gives_same {j j' : Nat} {m : Node} (hf : Fit m) (hdb : s'.db = s.db) (ht : s.txs j = some ⟨some m⟩) (ht' : s'.txs j' = some ⟨some m⟩) (k : B32) (a : Answer) :
    (Gives E s' (.get j' k) a ↔ Gives E s (.get j k) a) ∧ (Gives E s' (.has j' k) a ↔ Gives E s (.has j k) a) := by
  rw [gives_get hf ht, gives_get hf ht', gives_has hf ht, gives_has hf ht', hdb]
  exact ⟨Iff.rfl, Iff.rfl⟩

/-- C74, new transactions. A transaction created after the commit (on a database without
`urkel_inject`), or cleared after it, answers every lookup exactly like the committed one. -/
theorem C74_fresh (hE : EnvOk E) (ho : FromDir E s) (ht : s.txs id = some ⟨some n⟩) {r : Ret} (e : step E s (.commit id) = .ok (s', r)) :
    (s.db.revert = false → ∀ j, ∃ s2, step E s' (.create j none) = .ok (s2, .unit) ∧
      ∀ k a, (Gives E s2 (.get j k) a ↔ Gives E s' (.get id k) a) ∧ (Gives E s2 (.has j k) a ↔ Gives E s' (.has id k) a)) ∧
    ∀ j, s'.txs j ≠ none → ∃ s2, step E s' (.clear j) = .ok (s2, .unit) ∧
      ∀ k a, (Gives E s2 (.get j k) a ↔ Gives E s' (.get id k) a) ∧ (Gives E s2 (.has j k) a ↔ Gives E s' (.has id k) a) := by
  have hs' := (ho.call e).sane hE
  obtain ⟨rfl, o, db', rfl, st, hf, hv⟩ := commit_of hE ho ht e
  obtain ⟨f1, f2, f3⟩ := setTx_frame (s := { s with db := db' }) (id := id) (tx := ⟨some o⟩)
  generalize hS : ({ s with db := db' } : Sys).setTx id (some ⟨some o⟩) = S at *
  subst f1
  have hfo := st.flat.fit
  constructor
  · intro hr j
    refine ⟨S.setTx j (some ⟨some o⟩), ?_, fun k a => ?_⟩
    · simp only [step, txCreate]
      rw [if_neg (by rw [st.revert, hr]; decide), st.root]
      rfl
    · obtain ⟨g1, _, g3⟩ := setTx_frame (s := S) (id := j) (tx := ⟨some o⟩)
      exact gives_same hfo g1 f3 g3 k a
  · intro j hj
    cases hx : S.txs j with
    | none => exact (hj hx).elim
    | some t =>
      obtain ⟨m, hm, _⟩ := hs'.txs j t hx
      obtain ⟨q⟩ := t
      cases hm
      refine ⟨S.setTx j (some ⟨some o⟩), ?_, fun k a => ?_⟩
      · simp only [step, step_tx hx, txClear, Tx.node, Res.bind_ok, Res.pure_eq]
        rw [st.root]
      · obtain ⟨g1, _, g3⟩ := setTx_frame (s := S) (id := j) (tx := ⟨some o⟩)
        exact gives_same hfo g1 f3 g3 k a

/-- C74, opening again. If the last file ends at a multiple of the record size (so that the commit
record is where it is looked for) and the directory can be opened again, a new transaction then
answers every lookup exactly like the committed one. -/
theorem C74_reopen_partial (hE : EnvOk E) (ho : FromDir E s) (ht : s.txs id = some ⟨some n⟩) {r : Ret} (e : step E s (.commit id) = .ok (s', r))
    (hal : (s'.db.store.files.getLastD []).length % 38 = 0) {rand : B32} {s2 : Sys} {r2 : Ret} (e2 : step E s' (.reopen rand) = .ok (s2, r2)) (j : Nat) :
    s2.db.store.files = s'.db.store.files ∧ ∃ s3, step E s2 (.create j none) = .ok (s3, .unit) ∧
      ∀ k a, (Gives E s3 (.get j k) a ↔ Gives E s' (.get id k) a) ∧ (Gives E s3 (.has j k) a ↔ Gives E s' (.has id k) a) := by
  have ho' := ho.call e
  have hs' := ho'.sane hE
  have hs2 := (ho'.call e2).sane hE
  obtain ⟨rfl, o, db', rfl, st, hf, hv⟩ := commit_of hE ho ht e
  obtain ⟨f1, f2, f3⟩ := setTx_frame (s := { s with db := db' }) (id := id) (tx := ⟨some o⟩)
  generalize hS : ({ s with db := db' } : Sys).setTx id (some ⟨some o⟩) = S at *
  subst f1
  obtain ⟨⟨d, x⟩, e3, e2⟩ := Res.bind_eq_ok.1 e2
  cases x with
  | error _ => cases e2
  | ok db2 =>
    cases e2
    obtain ⟨vf, p, stt, l0, l1, l2, l3, l4, l5, l6⟩ := st.layout
    subst l3
    rw [← st.key] at l6
    rw [List.getLastD_eq_getLast?] at hal
    obtain ⟨_, a1, a2, a3⟩ := reopen_of hE (padFiles_ne l0) l5 l4 l6 hal e3
    refine ⟨a1, (⟨db2, fun _ => none⟩ : Sys).setTx j (some ⟨some db2.store.state.rootNode⟩), ?_, fun k a => ?_⟩
    · simp only [step, txCreate]
      rw [if_neg (by rw [a2]; decide)]
      rfl
    · obtain ⟨g1, _, g3⟩ := setTx_frame (s := ⟨db2, fun _ => none⟩) (id := j) (tx := ⟨some db2.store.state.rootNode⟩)
      have hfo := st.flat.fit
      have hf2 := hs2.db.flat.fit
      have hrd : db2.store.rd = S.db.store.rd := by
        rw [hs2.db.store.sok.rd_eq, hs'.db.store.sok.rd_eq, a1]
      have same : ∀ want m, Fit m → look db2.store k want m 0 = look S.db.store k want m 0 := fun want m hm => by
        rcases look_mono (s := db2.store) (S := S.db.store) (key := k) (want := want) (d := 0) (by rw [hrd]; exact Rd.Le.refl _) hm (by omega) with h1 | h1
        · rcases look_mono (s := S.db.store) (S := db2.store) (key := k) (want := want) (d := 0) (by rw [hrd]; exact Rd.Le.refl _) hm (by omega) with h2 | h2
          · rw [h1, h2]
          · exact h2
        · exact h1.symm
      have lk : ∀ want, look db2.store k want db2.store.state.rootNode 0 = look S.db.store k want o 0 := fun want => by
        rw [same want _ hf2]
        have hfl := st.flat
        cases o with
        | null =>
          have hp : stt.rootPtr = Ptr.zero := by injection l2 with l2; exact l2.symm
          rcases a3 with ⟨h, _⟩ | ⟨h, h'⟩
          · rw [h]
          · have := (hs2.db.store.root _ _ h').idx
            rw [hp] at this
            exact absurd this (by decide)
        | hash h q =>
          have hp : stt.rootPtr = q := by injection l2 with l2; exact l2.symm
          rcases a3 with ⟨_, h0⟩ | ⟨h, h'⟩
          · have := (st.nroot _ _ rfl).idx
            rw [hp] at h0
            omega
          · rw [h', hp]; exact look_ref
        | leaf _ _ _ _ _ => exact hfl.elim
        | internal _ _ _ _ _ => exact hfl.elim
      rw [gives_get hfo f3, gives_get hf2 g3, gives_has hfo f3, gives_has hf2 g3, g1]
      rw [lk true, lk false]
      exact ⟨Iff.rfl, Iff.rfl⟩

end

/-! ### A directory with a damaged pointer

Two keys with empty values; the value of one of them is now said to be one byte at 384, behind the
end of the file. -/

def brokenDir : Dir := ⟨some rotDb.store.key.bytes, rotDb.store.files.map fun f => (f.set 4 3).set 7 1⟩
def broken0 : Res (Dir × Except Err Db) := dbOpen toyEnv brokenDir B32.zero
def brokenDb : Db := match broken0 with | .ok (_, .ok db) => db | _ => db0
def brokenTx : Tx := ⟨some brokenDb.store.state.rootNode⟩
def brokenKey : B32 := ⟨0x80 :: List.replicate 31 0, by simp⟩
def brokenVal : Bytes := List.replicate 200 7
def broken1 : Res (Tx × Except Err Unit) := txInsert toyEnv brokenDb brokenTx brokenKey brokenVal
def brokenTx1 : Tx := match broken1 with | .ok (tx, _) => tx | _ => ⟨none⟩
def broken2 : Res (Db × Tx × Except Err Unit) := txCommit toyEnv brokenDb brokenTx1
def brokenDb2 : Db := match broken2 with | .ok (db, _, _) => db | _ => db0
def brokenTx2 : Tx := match broken2 with | .ok (_, tx, _) => tx | _ => ⟨none⟩
def broken3 : Res (Tx × Except Err Unit) := txRemove brokenDb brokenTx rotK'
def brokenTx3 : Tx := match broken3 with | .ok (tx, _) => tx | _ => ⟨none⟩
def broken4 : Res (Db × Tx × Except Err Unit) := txCommit toyEnv brokenDb brokenTx3
def brokenDb4 : Db := match broken4 with | .ok (db, _, _) => db | _ => db0
def brokenTx4 : Tx := match broken4 with | .ok (_, tx, _) => tx | _ => ⟨none⟩

theorem broken0_ok : ∃ d, dbOpen toyEnv brokenDir B32.zero = .ok (d, .ok brokenDb) := by
  have : (match broken0 with | .ok (_, .ok _) => true | _ => false) = true := by decide +kernel
  show ∃ d, broken0 = _
  unfold brokenDb
  split at this
  · next d db e => exact ⟨d, by rw [e]⟩
  · cases this

theorem broken1_ok : txInsert toyEnv brokenDb brokenTx brokenKey brokenVal = .ok (brokenTx1, .ok ()) := by
  have : (match broken1 with | .ok (_, .ok ()) => true | _ => false) = true := by decide +kernel
  show broken1 = _
  unfold brokenTx1
  split at this
  · next e => rw [e]
  · cases this

theorem broken2_ok : txCommit toyEnv brokenDb brokenTx1 = .ok (brokenDb2, brokenTx2, .ok ()) := by
  have : (match broken2 with | .ok (_, _, .ok ()) => true | _ => false) = true := by decide +kernel
  show broken2 = _
  unfold brokenDb2 brokenTx2
  split at this
  · next e => rw [e]
  · cases this

theorem broken3_ok : txRemove brokenDb brokenTx rotK' = .ok (brokenTx3, .ok ()) := by
  have : (match broken3 with | .ok (_, .ok ()) => true | _ => false) = true := by decide +kernel
  show broken3 = _
  unfold brokenTx3
  split at this
  · next e => rw [e]
  · cases this

theorem broken4_ok : txCommit toyEnv brokenDb brokenTx3 = .ok (brokenDb4, brokenTx4, .ok ()) := by
  have : (match broken4 with | .ok (_, _, .ok ()) => true | _ => false) = true := by decide +kernel
  show broken4 = _
  unfold brokenDb4 brokenTx4
  split at this
  · next e => rw [e]
  · cases this

theorem broken_gets : txGet brokenDb brokenTx1 rotK = .err .ECORRUPTION ∧ txGet brokenDb brokenTx1 rotK' = .ok [] ∧ txGet brokenDb brokenTx1 brokenKey = .ok brokenVal ∧
    txGet brokenDb2 brokenTx2 rotK = .ok [7] := by decide +kernel

theorem broken_reopen : (match dbOpen toyEnv brokenDb4.dir B32.zero with | .ok (_, .error .EBADOPEN) => true | _ => false) = true := by decide +kernel
theorem broken_revert : brokenDb.revert = false := by decide +kernel

/-- The program that has opened the damaged directory and created a transaction. -/
theorem broken_opened : ∃ s, FromDir toyEnv s ∧ s.db = brokenDb ∧ s.txs 0 = some brokenTx := by
  obtain ⟨d, e⟩ := broken0_ok
  have hl : ∀ f ∈ brokenDir.files, f.length ≤ toyEnv.cfg.maxFile := by decide +kernel
  have hn : brokenDir.files.length < toyEnv.cfg.maxFiles ∧ 1 < toyEnv.cfg.maxFiles := by decide +kernel
  have hr := broken_revert
  have htx : brokenTx = ⟨some brokenDb.store.state.rootNode⟩ := rfl
  generalize brokenTx = T at htx ⊢
  generalize brokenDb = D at e hr htx ⊢
  have h0 : FromDir toyEnv ⟨D, fun _ => none⟩ := .opened hl hn.1 hn.2 e
  have h1 : step toyEnv ⟨D, fun _ => none⟩ (.create 0 none) = .ok ((⟨D, fun _ => none⟩ : Sys).setTx 0 (some T), .unit) := by
    simp only [step, txCreate]
    rw [if_neg (by rw [hr]; decide), htx]
    rfl
  obtain ⟨a1, _, a3⟩ := setTx_frame (s := ⟨D, fun _ => none⟩) (id := 0) (tx := T)
  exact ⟨_, h0.call h1, a1, a3⟩

/-- C74 is false for damaged keys: a key that could not be read before the commit is read
afterwards, as a piece of the value of another key. -/
theorem C74_hides : ∃ s s' n, FromDir toyEnv s ∧ s.txs 0 = some ⟨some n⟩ ∧ Gives toyEnv s (.get 0 rotK) (.ret (.fail .ECORRUPTION)) ∧
    step toyEnv s (.commit 0) = .ok (s', .unit) ∧ Gives toyEnv s' (.get 0 rotK) (.ret (.bytes [7])) := by
  obtain ⟨s, ho, hdb, htx⟩ := broken_opened
  obtain ⟨g1, g2, g3, g4⟩ := broken_gets
  have e1 := broken1_ok
  have e2 := broken2_ok
  have hn : ∃ n, brokenTx1 = ⟨some n⟩ := by
    have : brokenTx1.root.isSome = true := by decide +kernel
    obtain ⟨n, hn⟩ := Option.isSome_iff_exists.1 this
    exact ⟨n, by cases h : brokenTx1; rw [h] at hn; dsimp only at hn; rw [hn]⟩
  obtain ⟨n, hn⟩ := hn
  generalize brokenTx2 = T2 at *
  generalize brokenDb2 = D2 at *
  generalize brokenTx1 = T1 at *
  generalize brokenTx = T at *
  generalize brokenDb = D at *
  have h1 := ho.call (step_insert htx (hdb ▸ e1))
  obtain ⟨a1, _, a3⟩ := setTx_frame (s := s) (id := 0) (tx := T1)
  generalize s.setTx 0 (some T1) = s1 at h1 a1 a3
  rw [hdb] at a1
  have h2 := step_commit a3 (a1 ▸ e2)
  obtain ⟨b1, _, b3⟩ := setTx_frame (s := { s1 with db := D2 }) (id := 0) (tx := T2)
  refine ⟨s1, _, n, h1, by rw [← hn]; exact a3, ?_, h2, ?_⟩
  · simp only [Gives, step, step_tx a3, Res.bind_ok]
    rw [a1, g1]; rfl
  · simp only [Gives, step, step_tx b3, Res.bind_ok]
    rw [b1, g4]; rfl

/-- And a commit can make a damaged directory unusable: the directory can be opened, one key is
removed, the commit reports success, and then the directory cannot be opened any more. -/
theorem C74_unopenable : ∃ s s1 s2 rand, FromDir toyEnv s ∧ step toyEnv s (.remove 0 rotK') = .ok (s1, .unit) ∧ step toyEnv s1 (.commit 0) = .ok (s2, .unit) ∧
    (∃ s', step toyEnv s (.reopen rand) = .ok (s', .unit)) ∧ step toyEnv s2 (.reopen rand) = .err .EBADOPEN := by
  obtain ⟨s, ho, hdb, htx⟩ := broken_opened
  have e3 := broken3_ok
  have e4 := broken4_ok
  have r4 := broken_reopen
  have r0 : (match dbOpen toyEnv brokenDb.dir B32.zero with | .ok (_, .ok _) => true | _ => false) = true := by decide +kernel
  generalize brokenTx4 = T4 at *
  generalize brokenDb4 = D4 at *
  generalize brokenTx3 = T3 at *
  generalize brokenTx = T at *
  generalize brokenDb = D at *
  have h1 := step_remove (E := toyEnv) htx (hdb ▸ e3)
  obtain ⟨a1, _, a3⟩ := setTx_frame (s := s) (id := 0) (tx := T3)
  generalize s.setTx 0 (some T3) = s1 at h1 a1 a3
  rw [hdb] at a1
  have h2 := step_commit a3 (a1 ▸ e4)
  refine ⟨s, s1, _, B32.zero, ho, h1, h2, ?_, ?_⟩
  · subst hdb
    simp only [step]
    generalize dbOpen toyEnv s.db.dir B32.zero = q at r0
    split at r0
    · exact ⟨_, rfl⟩
    · cases r0
  · obtain ⟨b1, _, _⟩ := setTx_frame (s := { s1 with db := D4 }) (id := 0) (tx := T4)
    simp only [step]
    rw [b1]
    generalize dbOpen toyEnv _ B32.zero = q at r4
    split at r4
    · rfl
    · cases r4

/-- **C74** A commit on any directory returns, and succeeds, as long as there are numbers left
for files (each piece of the new data begins at most one new file, and so do the padding and the commit
record). -/
theorem C74_returns {E : Env} (hE : EnvOk E) {s : Sys} {id : Nat} {n : Node} (ho : FromDir E s) (ht : s.txs id = some ⟨some n⟩)
    (hcap : s.db.store.files.length + appends n + 2 < E.cfg.maxFiles) : ∃ s', step E s (.commit id) = .ok (s', .unit) := by
  have hs := ho.sane hE
  obtain ⟨n0, h0, hf, hc, hn⟩ := hs.txs id _ ht
  cases h0
  obtain ⟨db', t', e⟩ := txCommit_total hE hs.db.store hf hc hn hcap
  refine ⟨?w, ?_⟩
  rotate_left
  simp only [step, step_tx ht, Res.bind_ok]
  rw [e]
  rfl

/-- The bound of `C74_returns` holds on a damaged directory with a new key to write. -/
example : ∃ s n, FromDir toyEnv s ∧ s.txs 0 = some ⟨some n⟩ ∧ appends n = 4 ∧ s.db.store.files.length + appends n + 2 < toyEnv.cfg.maxFiles := by
  obtain ⟨s, ho, hdb, htx⟩ := broken_opened
  have e1 := broken1_ok
  have hb : (match brokenTx1.root with | some n => decide (appends n = 4) && decide (brokenDb.store.files.length + appends n + 2 < toyEnv.cfg.maxFiles) | none => false) = true := by decide +kernel
  generalize brokenTx1 = T1 at *
  generalize brokenTx = T at *
  generalize brokenDb = D at *
  have h1 := ho.call (step_insert htx (hdb ▸ e1))
  obtain ⟨a1, _, a3⟩ := setTx_frame (s := s) (id := 0) (tx := T1)
  obtain ⟨q⟩ := T1
  cases q with
  | none => cases hb
  | some n =>
    simp only [Bool.and_eq_true, decide_eq_true_eq] at hb
    exact ⟨_, n, h1, a3, hb.1, by rw [a1, hdb]; exact hb.2⟩

/-- The hypotheses of the theorems occur on a damaged directory, with answers of all kinds, a new value
and a last file that ends at a multiple of the record size. -/
example : ∃ s s' n, FromDir toyEnv s ∧ s.txs 0 = some ⟨some n⟩ ∧ step toyEnv s (.commit 0) = .ok (s', .unit) ∧
    FindsNew s.db.store brokenKey n brokenVal ∧ Gives toyEnv s (.get 0 rotK') (.ret (.bytes [])) ∧
    (s'.db.store.files.getLastD []).length % 38 = 0 ∧ ∃ s2, step toyEnv s' (.reopen B32.zero) = .ok (s2, .unit) := by
  obtain ⟨s, ho, hdb, htx⟩ := broken_opened
  obtain ⟨g1, g2, g3, g4⟩ := broken_gets
  have e1 := broken1_ok
  have e2 := broken2_ok
  have hn : (match brokenTx1.root with
    | some (.internal _ _ pre _ (.leaf _ none k (some x) _)) => decide (pre.size = 0) && decide (k = brokenKey) && decide (x = brokenVal)
    | _ => false) = true := by decide +kernel
  have hal : (brokenDb2.store.files.getLastD []).length % 38 = 0 := by decide +kernel
  have r2 : (match dbOpen toyEnv brokenDb2.dir B32.zero with | .ok (_, .ok _) => true | _ => false) = true := by decide +kernel
  generalize brokenTx2 = T2 at *
  generalize brokenDb2 = D2 at *
  generalize brokenTx1 = T1 at *
  generalize brokenTx = T at *
  generalize brokenDb = D at *
  have h1 := ho.call (step_insert htx (hdb ▸ e1))
  obtain ⟨a1, _, a3⟩ := setTx_frame (s := s) (id := 0) (tx := T1)
  generalize s.setTx 0 (some T1) = s1 at h1 a1 a3
  rw [hdb] at a1
  have h2 := step_commit a3 (a1 ▸ e2)
  obtain ⟨b1, _, b3⟩ := setTx_frame (s := { s1 with db := D2 }) (id := 0) (tx := T2)
  split at hn
  · next h p pre l h' k x vp e =>
    simp only [Bool.and_eq_true, decide_eq_true_eq] at hn
    obtain ⟨⟨n1, n2⟩, n3⟩ := hn
    obtain ⟨q⟩ := T1
    dsimp only at e
    subst e
    subst n2 n3
    refine ⟨s1, _, _, h1, a3, h2, ⟨h', vp, 1, ?_⟩, ?_, by rw [b1]; exact hal, ?_⟩
    · have hp : pre.path <+: brokenKey.bits.drop 0 := by
        unfold Bits.path; rw [n1]; exact List.nil_prefix
      have := Way.down (s := s1.db.store) (h := h) (p := p) (l := l) (r := .leaf h' none brokenKey (some brokenVal) vp) (b := true) (d := 0) hp (by rw [n1]; decide) (.here _ _)
      rw [n1] at this
      exact this
    · simp only [Gives, step, step_tx a3, Res.bind_ok]
      rw [a1, g2]; rfl
    · simp only [step]
      rw [b1]
      generalize dbOpen toyEnv _ B32.zero = q at r2
      split at r2
      · exact ⟨_, rfl⟩
      · cases r2
  · cases hn

end Urkel
