import Verif.Lemmas.Cost
import Verif.Props.Keep
/-
C77: what a commit appends to the data files is bounded by the changes made, whatever the size of
the database.
-/
namespace Urkel

section
variable {E : Env} {s s0 s1 s2 s3 s' : Sys} {id : Nat}

theorem fext_total {a b : List Bytes} (h : FExt a b) : totalBytes a ≤ totalBytes b := by
  rcases h with rfl | ⟨i, l, junk, extra, rfl, rfl⟩
  · exact Nat.le_refl _
  · simp [totalBytes]; omega

theorem commit_cost (hE : EnvOk E) (ho : FromDir E s) {b : Nat} (hb : TxCost s id b) {r : Ret} (e : step E s (.commit id) = .ok (s', r)) :
    totalBytes s.db.store.files + 38 ≤ totalBytes s'.db.store.files ∧ totalBytes s'.db.store.files ≤ totalBytes s.db.store.files + b + 75 := by
  have hs := ho.sane hE
  obtain ⟨t, e1, e⟩ := Res.bind_eq_ok.1 e
  obtain ⟨⟨db, t1, x⟩, e2, e⟩ := Res.bind_eq_ok.1 e
  cases e
  obtain ⟨m, hm, hf, hc, hr⟩ := hs.txs id t (Sys.tx_some e1)
  obtain ⟨o⟩ := t
  dsimp only at hm
  subst hm
  have h1 := txCommit_cost hE hs.db.store hf hc hr e2
  have h2 := hb m (Sys.tx_some e1)
  refine ⟨?_, by show totalBytes db.store.files ≤ _; omega⟩
  obtain ⟨_, o, _, h3⟩ := txCommit_of hE hs.db.store hf hc hr e2
  obtain ⟨vf, p, st, hne, hx, _, _, _, _, hl⟩ := h3.layout
  show _ ≤ totalBytes db.store.files
  rw [hl, totalBytes_vappend _ (padFiles_ne hne), length_metaWrite hE.mac]
  have hp : totalBytes vf ≤ totalBytes (padFiles E.cfg.maxFile vf) := by
    unfold padFiles
    split
    · rw [totalBytes_vappend _ hne]; omega
    · omega
  have := fext_total hx
  unfold metaSize
  omega

/-- A commit appends at least one commit record and at most what the changes made through the
transaction since it was created weigh, plus one commit record with its padding. How many keys the
database has, what else the program does and how damaged the files are does not matter. -/
theorem C77_commit (hE : EnvOk E) (ho : FromDir E s0) {h : Option B32} (hc : step E s0 (.create id h) = .ok (s1, .unit)) {ops : List Op}
    (hr : Calls E s1 ops s2) {r : Ret} (e : step E s2 (.commit id) = .ok (s3, r)) :
    totalBytes s2.db.store.files + 38 ≤ totalBytes s3.db.store.files ∧
    totalBytes s3.db.store.files ≤ totalBytes s2.db.store.files + (ops.map (Op.weight id)).sum + 75 := by
  have h1 : TxCost s1 id 0 := by
    have hs := ho.sane hE
    obtain ⟨⟨db, x⟩, e1, hc⟩ := Res.bind_eq_ok.1 hc
    cases x with
    | error _ => cases hc
    | ok t =>
      cases hc
      exact .set_self fun n hn => by cases hn; exact Nat.le_of_eq (txCreate_cost hs.db e1 n rfl)
  have h2 := calls_cost hE hr (ho.call hc) h1
  rw [Nat.zero_add] at h2
  exact commit_cost hE ((ho.call hc).calls hr) h2 e

/-- The same for a transaction that goes on after a commit: only what changed since then counts. -/
theorem C77_next (hE : EnvOk E) (ho : FromDir E s0) {r : Ret} (hc : step E s0 (.commit id) = .ok (s1, r)) {ops : List Op}
    (hr : Calls E s1 ops s2) {r' : Ret} (e : step E s2 (.commit id) = .ok (s3, r')) :
    totalBytes s2.db.store.files + 38 ≤ totalBytes s3.db.store.files ∧
    totalBytes s3.db.store.files ≤ totalBytes s2.db.store.files + (ops.map (Op.weight id)).sum + 75 := by
  have h1 : TxCost s1 id 0 := by
    have hs := ho.sane hE
    obtain ⟨t, e1, hc⟩ := Res.bind_eq_ok.1 hc
    obtain ⟨⟨db, t1, x⟩, e2, hc⟩ := Res.bind_eq_ok.1 hc
    cases hc
    obtain ⟨m, hm, hf, hco, hn⟩ := hs.txs id t (Sys.tx_some e1)
    obtain ⟨o⟩ := t
    dsimp only at hm
    subst hm
    obtain ⟨_, o, rfl, h3⟩ := txCommit_of hE hs.db.store hf hco hn e2
    exact .set_self fun n hn => by cases hn; exact Nat.le_of_eq (cost_flat h3.flat)
  have h2 := calls_cost hE hr (ho.call hc) h1
  rw [Nat.zero_add] at h2
  exact commit_cost hE ((ho.call hc).calls hr) h2 e

/-- Committing a transaction through which nothing was changed appends one commit record, with up to
37 bytes of padding. -/
theorem C77_unchanged (hE : EnvOk E) (ho : FromDir E s0) {h : Option B32} (hc : step E s0 (.create id h) = .ok (s1, .unit)) {ops : List Op}
    (hr : Calls E s1 ops s2) (hno : ∀ op ∈ ops, (∀ k v, op ≠ .insert id k v) ∧ ∀ k, op ≠ .remove id k) {r : Ret}
    (e : step E s2 (.commit id) = .ok (s3, r)) :
    totalBytes s2.db.store.files + 38 ≤ totalBytes s3.db.store.files ∧ totalBytes s3.db.store.files ≤ totalBytes s2.db.store.files + 75 := by
  have h1 := C77_commit hE ho hc hr e
  have h2 : (ops.map (Op.weight id)).sum = 0 := by
    clear hr h1
    induction ops with
    | nil => rfl
    | cons op ops ih =>
      rw [List.map_cons, List.sum_cons, ih fun o ho => hno o (by simp [ho]), Nat.add_zero]
      have h := hno op (by simp)
      cases op with
      | insert i k v => exact if_neg fun (hi : i = id) => h.1 k v (by rw [hi])
      | remove i k => exact if_neg fun (hi : i = id) => h.2 k (by rw [hi])
      | _ => rfl
  omega

/-- `urkel_insert`. -/
theorem C77_insert (hE : EnvOk E) (ho : FromDir E s) {k : B32} {v : Bytes} {r : Ret} (e : step E s (.insert1 k v) = .ok (s', r)) :
    totalBytes s'.db.store.files ≤ totalBytes s.db.store.files + 257 * 113 + 40 + v.length + 75 := by
  have hs := ho.sane hE
  obtain ⟨⟨db, x⟩, e1, e⟩ := Res.bind_eq_ok.1 e
  cases e
  show totalBytes db.store.files ≤ _
  obtain ⟨⟨db1, y⟩, e2, e1⟩ := Res.bind_eq_ok.1 e1
  obtain ⟨a, b, c, d⟩ := txCreate_sane hs.db e2
  cases y with
  | error _ => cases e1; rw [b]; omega
  | ok t =>
    obtain ⟨⟨t1, z⟩, e4, e1⟩ := Res.bind_eq_ok.1 e1
    obtain ⟨m, hm, hf, hc, hr⟩ := txInsert_sane (d t rfl) e4
    obtain ⟨o⟩ := t1
    dsimp only at hm
    subst hm
    have h1 := txInsert_cost (b := 0) (fun n hn => Nat.le_of_eq (txCreate_cost hs.db (hn ▸ e2) n rfl)) e4
    cases z with
    | error _ =>
      obtain ⟨_, _, e1⟩ := Res.bind_eq_ok.1 e1
      cases e1; rw [b]; omega
    | ok u =>
      obtain ⟨⟨db2, t2, w⟩, e3, e1⟩ := Res.bind_eq_ok.1 e1
      obtain ⟨_, _, e1⟩ := Res.bind_eq_ok.1 e1
      cases e1
      have h2 := txCommit_cost hE a.store hf hc hr e3
      rw [b] at h2
      omega

/-- `urkel_remove`. -/
theorem C77_remove (hE : EnvOk E) (ho : FromDir E s) {k : B32} {r : Ret} (e : step E s (.remove1 k) = .ok (s', r)) :
    totalBytes s'.db.store.files ≤ totalBytes s.db.store.files + 257 * 113 + 75 := by
  have hs := ho.sane hE
  obtain ⟨⟨db, x⟩, e1, e⟩ := Res.bind_eq_ok.1 e
  cases e
  show totalBytes db.store.files ≤ _
  obtain ⟨⟨db1, y⟩, e2, e1⟩ := Res.bind_eq_ok.1 e1
  obtain ⟨a, b, c, d⟩ := txCreate_sane hs.db e2
  cases y with
  | error _ => cases e1; rw [b]; omega
  | ok t =>
    obtain ⟨⟨t1, z⟩, e4, e1⟩ := Res.bind_eq_ok.1 e1
    obtain ⟨m, hm, hf, hc, hr⟩ := txRemove_sane (d t rfl) e4
    obtain ⟨o⟩ := t1
    dsimp only at hm
    subst hm
    have h1 := txRemove_cost (b := 0) (fun n hn => Nat.le_of_eq (txCreate_cost hs.db (hn ▸ e2) n rfl)) e4
    cases z with
    | error _ =>
      obtain ⟨_, _, e1⟩ := Res.bind_eq_ok.1 e1
      cases e1; rw [b]; omega
    | ok u =>
      obtain ⟨⟨db2, t2, w⟩, e3, e1⟩ := Res.bind_eq_ok.1 e1
      obtain ⟨_, _, e1⟩ := Res.bind_eq_ok.1 e1
      cases e1
      have h2 := txCommit_cost hE a.store hf hc hr e3
      rw [b] at h2
      omega

/-- No other call than commits, `urkel_insert`, `urkel_remove` and opening changes the files. -/
theorem C77_only {op : Op} {r : Ret} (hE : EnvOk E) (ho : FromDir E s) (e : step E s op = .ok (s', r)) (h1 : ∀ id, op ≠ .commit id)
    (h2 : ∀ k v, op ≠ .insert1 k v) (h3 : ∀ k, op ≠ .remove1 k) (h4 : ∀ rand, op ≠ .reopen rand) :
    s'.db.store.files = s.db.store.files := by
  have hs := ho.sane hE
  cases op with
  | root => cases e; rfl
  | inject h' =>
    obtain ⟨⟨db, x⟩, e1, e⟩ := Res.bind_eq_ok.1 e
    cases e
    obtain ⟨⟨s1, ok⟩, e2, e1⟩ := Res.bind_eq_ok.1 e1
    obtain ⟨⟨s2, o⟩, e3, e2⟩ := Res.bind_eq_ok.1 e2
    obtain ⟨a, b, c, _, _⟩ := readHistory_sane hs.db e3
    cases o with
    | none => cases e2
    | some _ =>
      cases e2
      cases e1
      exact c
  | create id h' =>
    obtain ⟨⟨db, x⟩, e1, e⟩ := Res.bind_eq_ok.1 e
    obtain ⟨_, b, _, _⟩ := txCreate_sane hs.db e1
    cases x with
    | error _ => cases e; exact b
    | ok t => cases e; exact b
  | destroy id =>
    obtain ⟨t, _, e⟩ := Res.bind_eq_ok.1 e
    obtain ⟨_, _, e⟩ := Res.bind_eq_ok.1 e
    cases e; rfl
  | clear id =>
    obtain ⟨t, _, e⟩ := Res.bind_eq_ok.1 e
    obtain ⟨_, _, e⟩ := Res.bind_eq_ok.1 e
    cases e; rfl
  | txRoot id =>
    obtain ⟨t, _, e⟩ := Res.bind_eq_ok.1 e
    obtain ⟨_, _, e⟩ := Res.bind_eq_ok.1 e
    cases e; rfl
  | txInject id h' =>
    obtain ⟨t, e1, e⟩ := Res.bind_eq_ok.1 e
    obtain ⟨⟨db, t1, x⟩, e2, e⟩ := Res.bind_eq_ok.1 e
    cases e
    obtain ⟨⟨s1, o⟩, e3, e2⟩ := Res.bind_eq_ok.1 e2
    obtain ⟨a, b, c, d, f⟩ := readHistory_sane hs.db e3
    cases o with
    | none => cases e2; exact c
    | some n =>
      obtain ⟨_, _, e2⟩ := Res.bind_eq_ok.1 e2
      cases e2; exact c
  | get id k =>
    obtain ⟨t, _, e⟩ := Res.bind_eq_ok.1 e
    obtain ⟨_, _, e⟩ := Res.bind_eq_ok.1 e
    cases e; rfl
  | has id k =>
    obtain ⟨t, _, e⟩ := Res.bind_eq_ok.1 e
    obtain ⟨_, _, e⟩ := Res.bind_eq_ok.1 e
    cases e; rfl
  | insert id k v =>
    obtain ⟨t, _, e⟩ := Res.bind_eq_ok.1 e
    obtain ⟨_, _, e⟩ := Res.bind_eq_ok.1 e
    cases e; rfl
  | remove id k =>
    obtain ⟨t, _, e⟩ := Res.bind_eq_ok.1 e
    obtain ⟨_, _, e⟩ := Res.bind_eq_ok.1 e
    cases e; rfl
  | prove id k =>
    obtain ⟨t, _, e⟩ := Res.bind_eq_ok.1 e
    obtain ⟨_, _, e⟩ := Res.bind_eq_ok.1 e
    cases e; rfl
  | commit id => exact (h1 id rfl).elim
  | reopen rand => exact (h4 rand rfl).elim
  | get1 k h' =>
    obtain ⟨⟨db, x⟩, e1, e⟩ := Res.bind_eq_ok.1 e
    cases e
    obtain ⟨⟨db1, y⟩, e2, e1⟩ := Res.bind_eq_ok.1 e1
    obtain ⟨_, b, _, _⟩ := txCreate_sane hs.db e2
    cases y with
    | error _ => cases e1; exact b
    | ok t =>
      obtain ⟨_, _, e1⟩ := Res.bind_eq_ok.1 e1
      obtain ⟨_, _, e1⟩ := Res.bind_eq_ok.1 e1
      cases e1; exact b
  | has1 k h' =>
    obtain ⟨⟨db, x⟩, e1, e⟩ := Res.bind_eq_ok.1 e
    cases e
    obtain ⟨⟨db1, y⟩, e2, e1⟩ := Res.bind_eq_ok.1 e1
    obtain ⟨_, b, _, _⟩ := txCreate_sane hs.db e2
    cases y with
    | error _ => cases e1; exact b
    | ok t =>
      obtain ⟨_, _, e1⟩ := Res.bind_eq_ok.1 e1
      obtain ⟨_, _, e1⟩ := Res.bind_eq_ok.1 e1
      cases e1; exact b
  | insert1 k v => exact (h2 k v rfl).elim
  | remove1 k => exact (h3 k rfl).elim
  | prove1 k h' =>
    obtain ⟨⟨db, x⟩, e1, e⟩ := Res.bind_eq_ok.1 e
    cases e
    obtain ⟨⟨db1, y⟩, e2, e1⟩ := Res.bind_eq_ok.1 e1
    obtain ⟨_, b, _, _⟩ := txCreate_sane hs.db e2
    cases y with
    | error _ => cases e1; exact b
    | ok t =>
      obtain ⟨_, _, e1⟩ := Res.bind_eq_ok.1 e1
      obtain ⟨_, _, e1⟩ := Res.bind_eq_ok.1 e1
      cases e1; exact b

end

/-- The hypotheses hold for a program that inserts a pair and commits it; the commit of a short value
appends 114 bytes: value, leaf and padding up to 76, and the commit record. -/
example : FromDir toyEnv sys0 ∧ step toyEnv sys0 (.create 0 none) = .ok (sys1, .unit) ∧
    Calls toyEnv sys1 [.insert 0 B32.zero [1, 2, 3]] (sys2 B32.zero [1, 2, 3]) ∧
    ∃ s3, step toyEnv (sys2 B32.zero [1, 2, 3]) (.commit 0) = .ok (s3, .unit) ∧ totalBytes s3.db.store.files = totalBytes db0.store.files + 114 := by
  refine ⟨.opened (d := Dir.fresh) (fun _ h => nomatch h) (by decide +kernel) (by decide +kernel) open_db0, sys1_step, .cons (sys2_step _ _ (by decide)) (.nil _), ?_⟩
  have h : (match txCommit toyEnv db0 (leafTx B32.zero [1, 2, 3]) with
    | .ok (db, _, .ok ()) => decide (totalBytes db.store.files = totalBytes db0.store.files + 114)
    | _ => false) = true := by decide +kernel
  have h1 := sys2_tx B32.zero [1, 2, 3]
  have h2 := sys2_db B32.zero [1, 2, 3]
  generalize sys2 B32.zero [1, 2, 3] = S at *
  generalize leafTx B32.zero [1, 2, 3] = T at *
  generalize db0 = D at *
  split at h
  · next db t e =>
    exact ⟨_, step_commit h1 (h2 ▸ e), of_decide_eq_true h⟩
  · cases h

end Urkel
