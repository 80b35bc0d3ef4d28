import Verif.Lemmas.Work
import Verif.Props.Keep
import Verif.Props.Format
/-
C92: how often calls hash: a bound in the changes made, whatever the size of the database.
-/
namespace Urkel

section
variable {E : Env} {s s0 s1 s2 s' : Sys} {id : Nat}

/-- Verifying: at most two strings for the end of the proof and one for each of its nodes, of which
there are at most 256 and at most one for 32 bytes. No string is longer than the largest value. -/
theorem C92_verify (H : HashFn) (raw : Bytes) (key root : B32) :
    Asks H (2 + min 256 (raw.length / 32)) 1023 (fun H' => urkelVerify H' raw key root) := urkelVerify_asks

/-- Opening a directory, whatever is in it, hashes the newest root only: one branch, or one leaf with its value. -/
theorem C92_open (E : Env) (d : Dir) (rand : B32) : Asks E.H 2 1023 (fun H' => dbOpen (E.hashing H') d rand) := dbOpen_asks

/-- Looking up and removing hash nothing. -/
theorem C92_none (E : Env) (s : Sys) {op : Op}
    (h : op = .root ∨ op = .destroy id ∨ op = .clear id ∨ (∃ k, op = .get id k) ∨ (∃ k, op = .has id k) ∨ ∃ k, op = .remove id k) :
    Asks E.H 0 0 (fun H' => step (E.hashing H') s op) := by
  rcases h with rfl | rfl | rfl | ⟨k, rfl⟩ | ⟨k, rfl⟩ | ⟨k, rfl⟩ <;> exact .const _

/-- An insertion hashes the value and the leaf. -/
theorem C92_insert (E : Env) (s : Sys) (id : Nat) (k : B32) (v : Bytes) : Asks E.H 2 1023 (fun H' => step (E.hashing H') s (.insert id k v)) := by
  simp only [step]
  exact Asks.bind0 fun t _ => Asks.bind (n := 2) (m := 0) txInsert_asks fun _ _ => .const _

/-- Some bound holds for every transaction. -/
theorem FromDir.work (hE : EnvOk E) (h : FromDir E s) (id : Nat) : ∃ b, TxWork s id b := by
  induction h with
  | opened _ _ _ _ => exact ⟨0, fun n hn => nomatch hn⟩
  | call h e ih =>
    obtain ⟨b, hb⟩ := ih
    exact ⟨_, step_work hE (h.sane hE) hb e⟩

/-- After these calls everything in the transaction has its hash. -/
theorem settled_work (hE : EnvOk E) (ho : FromDir E s0) {op : Op} {r : Ret}
    (hop : ((∃ h, op = .create id h) ∧ r = .unit) ∨ op = .clear id ∨ op = .txRoot id ∨ op = .commit id)
    (hc : step E s0 op = .ok (s1, r)) : TxWork s1 id 0 := by
  have hs := ho.sane hE
  obtain ⟨b, hb⟩ := ho.work hE id
  have z : ∀ {n : Node}, hcost n = 0 ∧ Tidy n → hcost n ≤ 0 ∧ Tidy n := fun hn => ⟨by omega, hn.2⟩
  rcases hop with ⟨⟨h, rfl⟩, rfl⟩ | rfl | rfl | rfl
  · obtain ⟨⟨db, x⟩, e1, hc⟩ := Res.bind_eq_ok.1 hc
    cases x with
    | error _ => cases hc
    | ok t =>
      cases hc
      exact .set_self fun n hn => by cases hn; exact z (txCreate_work hs.db e1 n rfl)
  · obtain ⟨t, e1, e⟩ := Res.bind_eq_ok.1 hc
    obtain ⟨t1, e2, e⟩ := Res.bind_eq_ok.1 e
    cases e
    obtain ⟨_, _, e2⟩ := Res.bind_eq_ok.1 e2
    cases e2
    exact .set_self fun n hn => by cases hn; exact z (hcost_flat hs.db.flat)
  · obtain ⟨t, e1, e⟩ := Res.bind_eq_ok.1 hc
    obtain ⟨⟨t1, x⟩, e2, e⟩ := Res.bind_eq_ok.1 e
    cases e
    refine .set_self fun n hn => ?_
    cases hn
    obtain ⟨m, e3, e2⟩ := Res.bind_eq_ok.1 e2
    obtain ⟨⟨x', m'⟩, e4, e2⟩ := Res.bind_eq_ok.1 e2
    cases e2
    obtain ⟨o⟩ := t
    cases o with
    | none => cases e3
    | some m0 =>
      cases e3
      exact z (nodeHash_done (tx_work hb e1 m rfl).2 e4)
  · obtain ⟨t, e1, e⟩ := Res.bind_eq_ok.1 hc
    obtain ⟨⟨db, t1, x⟩, e2, e⟩ := Res.bind_eq_ok.1 e
    cases e
    refine .set_self fun n hn => ?_
    obtain ⟨m, hm, hf, hco, hr⟩ := hs.txs id t (Sys.tx_some e1)
    obtain ⟨o⟩ := t
    dsimp only at hm
    subst hm
    obtain ⟨_, o, h2, h3⟩ := txCommit_of hE hs.db.store hf hco hr e2
    subst h2
    cases hn
    exact z (hcost_flat h3.flat)

theorem work_root (hE : EnvOk E) (ho : FromDir E s) {b : Nat} (hb : TxWork s id b) : Asks E.H b 1023 (fun H' => step (E.hashing H') s (.txRoot id)) := by
  have hs := ho.sane hE
  simp only [step]
  refine Asks.bind0 fun t e1 => ?_
  obtain ⟨m, hm, hf, _⟩ := hs.txs id t (Sys.tx_some e1)
  obtain ⟨o⟩ := t
  dsimp only at hm
  subst hm
  refine Asks.le (n := hcost m) ?_ (hb m (Sys.tx_some e1)).1
  exact Asks.bind (m := 0) (txRoot_asks hf) fun _ _ => .const _

theorem work_prove (hE : EnvOk E) (ho : FromDir E s) {b : Nat} (hb : TxWork s id b) (k : B32) :
    Asks E.H (b + 1) 1023 (fun H' => step (E.hashing H') s (.prove id k)) := by
  have hs := ho.sane hE
  simp only [step]
  refine Asks.bind0 fun t e1 => ?_
  obtain ⟨m, hm, hf, _⟩ := hs.txs id t (Sys.tx_some e1)
  obtain ⟨o⟩ := t
  dsimp only at hm
  subst hm
  refine Asks.le (n := hcost m + 1) ?_ (Nat.succ_le_succ (hb m (Sys.tx_some e1)).1)
  exact Asks.bind (m := 0) (txProve_asks hf) fun _ _ => .const _

theorem work_commit (hE : EnvOk E) (ho : FromDir E s) {b : Nat} (hb : TxWork s id b) : Asks E.H b 1023 (fun H' => step (E.hashing H') s (.commit id)) := by
  have hs := ho.sane hE
  simp only [step]
  refine Asks.bind0 fun t e1 => ?_
  obtain ⟨m, hm, hf, _⟩ := hs.txs id t (Sys.tx_some e1)
  obtain ⟨o⟩ := t
  dsimp only at hm
  subst hm
  refine Asks.mono (n := hcost m) (len := 99) ?_ (hb m (Sys.tx_some e1)).1 (by omega)
  exact Asks.bind (m := 0) (txCommit_asks hf) fun _ _ => .const _

/-- The root of a transaction, a proof and a commit hash at most 257 strings for each change made
through the transaction since it was created or cleared, or since its root was last computed or
committed; a proof may hash one more, a value. How many keys the database has does not matter. -/
theorem C92_changes (hE : EnvOk E) (ho : FromDir E s0) {op : Op} {r : Ret}
    (hop : ((∃ h, op = .create id h) ∧ r = .unit) ∨ op = .clear id ∨ op = .txRoot id ∨ op = .commit id)
    (hc : step E s0 op = .ok (s1, r)) {ops : List Op} (hr : Calls E s1 ops s2) :
    Asks E.H (257 * (ops.map (Op.changes id)).sum) 1023 (fun H' => step (E.hashing H') s2 (.txRoot id)) ∧
    (∀ k, Asks E.H (257 * (ops.map (Op.changes id)).sum + 1) 1023 (fun H' => step (E.hashing H') s2 (.prove id k))) ∧
    Asks E.H (257 * (ops.map (Op.changes id)).sum) 1023 (fun H' => step (E.hashing H') s2 (.commit id)) := by
  have h2 := calls_work hE hr (ho.call hc) (settled_work hE ho hop hc)
  rw [Nat.zero_add] at h2
  have ho2 := (ho.call hc).calls hr
  exact ⟨work_root hE ho2 h2, work_prove hE ho2 h2, work_commit hE ho2 h2⟩

/-- Asking again for the root, committing right after it, or committing a transaction that was not
changed, hashes nothing. -/
theorem C92_again (hE : EnvOk E) (ho : FromDir E s0) {op : Op} {r : Ret}
    (hop : ((∃ h, op = .create id h) ∧ r = .unit) ∨ op = .clear id ∨ op = .txRoot id ∨ op = .commit id)
    (hc : step E s0 op = .ok (s1, r)) {ops : List Op} (hr : Calls E s1 ops s2)
    (hno : ∀ op ∈ ops, (∀ k v, op ≠ .insert id k v) ∧ ∀ k, op ≠ .remove id k) (H' : HashFn) :
    step (E.hashing H') s2 (.txRoot id) = step E s2 (.txRoot id) ∧ step (E.hashing H') s2 (.commit id) = step E s2 (.commit id) := by
  obtain ⟨a, c, b⟩ := C92_changes hE ho hop hc hr
  have h0 : (ops.map (Op.changes id)).sum = 0 := by
    clear hr a b c
    induction ops with
    | nil => rfl
    | cons op ops ih =>
      rw [List.map_cons, List.sum_cons, ih fun o ho => hno o (by simp [ho]), Nat.add_zero]
      have h := hno op (by simp)
      cases op with
      | insert i k v => exact if_neg fun (hi : i = id) => h.1 k v (by rw [hi])
      | remove i k => exact if_neg fun (hi : i = id) => h.2 k (by rw [hi])
      | _ => rfl
  rw [h0] at a b
  have fin : ∀ f : HashFn → Res (Sys × Ret), Asks E.H (257 * 0) 1023 f → f H' = f E.H := by
    intro f ⟨Q, q, _, c⟩
    have : Q = [] := List.length_eq_zero_iff.1 (by omega)
    subst this
    exact c H' fun _ h => nomatch h
  exact ⟨fin _ a, fin _ b⟩

/-! ### The calls that take a root -/

/-- What the one-shot calls and the lookups of roots hash if finding a root costs at most `b`. -/
structure Lookups (E : Env) (s : Sys) (b : Nat) (h : Option B32) : Prop where
  create : ∀ id, Asks E.H b 1023 (fun H' => step (E.hashing H') s (.create id h))
  get : ∀ k, Asks E.H b 1023 (fun H' => step (E.hashing H') s (.get1 k h))
  has : ∀ k, Asks E.H b 1023 (fun H' => step (E.hashing H') s (.has1 k h))
  prove : ∀ k, Asks E.H (b + 1) 1023 (fun H' => step (E.hashing H') s (.prove1 k h))

theorem lookups_of (hs : Sane E s) {b : Nat} {h : Option B32} (hb : Asks E.H b 1023 (fun H' => txCreate (E.hashing H') s.db h)) : Lookups E s b h := by
  refine ⟨fun id => ?_, fun k => ?_, fun k => ?_, fun k => ?_⟩
  · simp only [step]
    exact Asks.bind (m := 0) hb fun ⟨_, r⟩ _ => by cases r <;> exact .const _
  · simp only [step]
    refine Asks.bind (n := b) (m := 0) ?_ fun _ _ => .const _
    exact Asks.bind (m := 0) hb fun ⟨_, r⟩ _ => by cases r <;> exact .const _
  · simp only [step]
    refine Asks.bind (n := b) (m := 0) ?_ fun _ _ => .const _
    exact Asks.bind (m := 0) hb fun ⟨_, r⟩ _ => by cases r <;> exact .const _
  · simp only [step]
    refine Asks.bind (n := b + 1) (m := 0) ?_ fun _ _ => .const _
    refine Asks.bind (m := 1) hb fun ⟨db, r⟩ e => ?_
    have e : txCreate E s.db h = .ok (db, r) := e
    cases r with
    | error _ => exact .const _
    | ok t =>
      obtain ⟨m, hm, hf, _⟩ := (txCreate_sane hs.db e).2.2.2 t rfl
      obtain ⟨o⟩ := t
      dsimp only at hm
      subst hm
      refine Asks.le (n := hcost m + 1) ?_ (by have := (txCreate_work hs.db e m rfl).1; omega)
      exact Asks.bind (m := 0) (txProve_asks hf) fun _ _ => .const _

theorem changes_of (hs : Sane E s) {b : Nat} (hb : Asks E.H b 1023 (fun H' => txCreate (E.hashing H') s.db none)) :
    (∀ k v, Asks E.H (b + 259) 1023 (fun H' => step (E.hashing H') s (.insert1 k v))) ∧
    ∀ k, Asks E.H (b + 257) 1023 (fun H' => step (E.hashing H') s (.remove1 k)) := by
  have commit : ∀ {db : Db} {t : Tx} {c : Nat} {rd : Rd}, SaneTx rd t → (∀ n, t = ⟨some n⟩ → hcost n ≤ c) →
      Asks E.H c 1023 (fun H' => txCommit (E.hashing H') db t) := by
    intro db t c rd ht hc
    obtain ⟨m, hm, hf, _⟩ := ht
    obtain ⟨o⟩ := t
    dsimp only at hm
    subst hm
    exact (txCommit_asks hf).mono (hc m rfl) (by omega)
  refine ⟨fun k v => ?_, fun k => ?_⟩
  · simp only [step]
    refine Asks.bind (n := b + 259) (m := 0) ?_ fun _ _ => .const _
    refine Asks.bind (m := 259) hb fun ⟨db, r⟩ e => ?_
    have e : txCreate E s.db none = .ok (db, r) := e
    cases r with
    | error _ => exact .const _
    | ok t =>
      refine Asks.bind (n := 2) (m := 257) txInsert_asks fun ⟨t1, r1⟩ e1 => ?_
      have e1 : txInsert E db t k v = .ok (t1, r1) := e1
      cases r1 with
      | error _ => exact .const _
      | ok _ =>
        refine Asks.bind (n := 257) (m := 0) (commit (txInsert_sane ((txCreate_sane hs.db e).2.2.2 t rfl) e1) fun n hn => ?_) fun _ _ => .const _
        subst hn
        have := (txInsert_work (b := 0) (fun n hn => ⟨Nat.le_of_eq (txCreate_work hs.db e n hn).1, (txCreate_work hs.db e n hn).2⟩) e1).1
        omega
  · simp only [step]
    refine Asks.bind (n := b + 257) (m := 0) ?_ fun _ _ => .const _
    refine Asks.bind (m := 257) hb fun ⟨db, r⟩ e => ?_
    have e : txCreate E s.db none = .ok (db, r) := e
    cases r with
    | error _ => exact .const _
    | ok t =>
      refine Asks.bind0 (x := txRemove db t k) fun ⟨t1, r1⟩ e1 => ?_
      cases r1 with
      | error _ => exact .const _
      | ok _ =>
        refine Asks.bind (n := 257) (m := 0) (commit (txRemove_sane ((txCreate_sane hs.db e).2.2.2 t rfl) e1) fun n hn => ?_) fun _ _ => .const _
        subst hn
        have := (txRemove_work (b := 0) (fun n hn => ⟨Nat.le_of_eq (txCreate_work hs.db e n hn).1, (txCreate_work hs.db e n hn).2⟩) e1).1
        omega

/-- Finding the root of an earlier commit hashes at most two strings for each commit there has been,
so that is what the calls that take a root hash at most; a proof hashes one more, a one-shot
insertion 259 more and a one-shot removal 257 more. -/
theorem C92_history (hE : EnvOk E) (h1 : 1 < E.cfg.maxFiles) {log : List (B32 × Contents)} (hl : Logged E log s) (h : Option B32) :
    Lookups E s (2 * log.length) h ∧
    (∀ h, Asks E.H (2 * log.length) 1023 (fun H' => step (E.hashing H') s (.inject h))) ∧
    (∀ id h, Asks E.H (2 * log.length) 1023 (fun H' => step (E.hashing H') s (.txInject id h))) ∧
    (∀ k v, Asks E.H (2 * log.length + 259) 1023 (fun H' => step (E.hashing H') s (.insert1 k v))) ∧
    ∀ k, Asks E.H (2 * log.length + 257) 1023 (fun H' => step (E.hashing H') s (.remove1 k)) := by
  obtain ⟨sp, hist, hsim, he, _⟩ := hl.sim hE
  have hs := (hl.reachable.fromDir h1).sane hE
  have hlen : hist.length = log.length := by
    have := congrArg List.length (hsim.hist.symm.trans he)
    simpa using this
  have hb : ∀ h, Asks E.H (2 * log.length) 1023 (fun H' => readHistory (E.hashing H') s.db.store h) := fun h => by
    rw [← hlen]; exact readHistory_chain hE hsim.db.inv
  obtain ⟨c1, c2⟩ := changes_of hs (txCreate_asks hb)
  refine ⟨lookups_of hs (txCreate_asks hb), fun h => ?_, fun id h => ?_, c1, c2⟩
  · simp only [step]
    exact Asks.bind (m := 0) (dbInject_asks hb) fun _ _ => .const _
  · simp only [step]
    exact Asks.bind0 fun t _ => Asks.bind (m := 0) (txInject_asks hb) fun _ _ => .const _

/-- A program that opened a directory, whatever is in it, and did not change the root of the database
with `urkel_inject`: without a root, the one-shot lookups hash nothing, a proof at most one value, and
a one-shot insertion or removal at most 259 or 257 strings. -/
theorem C92_oneshot (hE : EnvOk E) {d d' : Dir} {rand : B32} {db : Db} (h1 : ∀ f ∈ d.files, f.length ≤ E.cfg.maxFile)
    (h2 : d.files.length < E.cfg.maxFiles) (h3 : 1 < E.cfg.maxFiles) (ho : dbOpen E d rand = .ok (d', .ok db)) {ops : List Op}
    (hr : Calls E ⟨db, fun _ => none⟩ ops s) (hno : ∀ h, Op.inject h ∉ ops) :
    Lookups E s 0 none ∧ (∀ k v, Asks E.H 259 1023 (fun H' => step (E.hashing H') s (.insert1 k v))) ∧
    ∀ k, Asks E.H 257 1023 (fun H' => step (E.hashing H') s (.remove1 k)) := by
  have hf : FromDir E ⟨db, fun _ => none⟩ := .opened h1 h2 h3 ho
  have h0 : (⟨db, fun _ => none⟩ : Sys).db.revert = false := by
    obtain ⟨⟨d, o⟩, _, e1⟩ := Res.bind_eq_ok.1 ho
    cases o <;> cases e1
    rfl
  have key : s.db.revert = false ∧ FromDir E s := by
    clear ho h1 h2
    generalize (⟨db, fun _ => none⟩ : Sys) = a at *
    induction hr with
    | nil => exact ⟨h0, hf⟩
    | cons e _ ih =>
      refine ih (fun h hm => hno h (by simp [hm])) (hf.call e) (step_revert e (fun h hh => hno h (by simp [hh])) h0)
  have hs := key.2.sane hE
  have hb := txCreate_asks_head (E := E) key.1
  obtain ⟨c1, c2⟩ := changes_of hs hb
  exact ⟨lookups_of hs hb, by simpa using c1, by simpa using c2⟩

end

/-- The hypotheses of `C92_changes` hold for a program that inserts a pair and commits it. -/
example : FromDir toyEnv sys0 ∧ step toyEnv sys0 (.create 0 none) = .ok (sys1, .unit) ∧
    Calls toyEnv sys1 [.insert 0 B32.zero [1, 2, 3]] (sys2 B32.zero [1, 2, 3]) ∧ ([Op.insert 0 B32.zero [1, 2, 3]].map (Op.changes 0)).sum = 1 :=
  ⟨.opened (d := Dir.fresh) (fun _ h => nomatch h) (by decide +kernel) (by decide +kernel) open_db0, sys1_step,
    .cons (sys2_step _ _ (by decide)) (.nil _), rfl⟩

/-- Inserting does depend on the hash function: it does not hash nothing. -/
example : ¬ Asks toyEnv.H 0 1023 (fun H' => createLeaf H' B32.zero [1, 2, 3]) := by
  rintro ⟨Q, q, _, c⟩
  have : Q = [] := List.length_eq_zero_iff.1 (by omega)
  subst this
  have h := c (fun _ => ⟨List.replicate 32 255, by decide⟩) fun _ h => nomatch h
  revert h
  decide +kernel

end Urkel
