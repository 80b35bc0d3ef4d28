import Verif.Props.Failed
import Verif.Props.Open
/-
C46, C49, C50: no aborts, one-shot calls, refinement of the whole API.
-/
namespace Urkel
open PTree

/-! ### C46 -/

/-- On every reachable database, every allowed call returns: no consistency check
fails, nothing undefined happens, and no call runs out of fuel, whatever keys and
values are used. -/
theorem C46_no_abort {E : Env} (hE : EnvOk E) {s : Sys} (hr : Reachable E s) {op : Op} (ha : Allowed E s op) :
    ∃ s' r, step E s op = .ok (s', r) := by
  obtain ⟨sp, hist, hs⟩ := hr.sim hE
  obtain ⟨s', r, _, _, e, _⟩ := step_sim hE hs op ha
  exact ⟨s', r, e⟩

/-- In particular for any open transaction and any keys and values. -/
theorem C46_no_abort_tx {E : Env} (hE : EnvOk E) {s : Sys} (hr : Reachable E s) {id : Nat} {tx : Tx} (hid : s.txs id = some tx)
    (k : B32) (v : Bytes) :
    (∃ r, txInsert E s.db tx k v = .ok r) ∧ (∃ r, txRemove s.db tx k = .ok r) ∧ (txGet s.db tx k).Safe ∧ (txHas s.db tx k).Safe ∧
      (∃ r, txProve E s.db tx k = .ok r) ∧ (∃ r, txRoot E tx = .ok r) ∧ (CanCommit E s.db tx → ∃ r, txCommit E s.db tx = .ok r) := by
  have hne : s.txs id ≠ none := by rw [hid]; simp
  have htx : s.tx id = .ok tx := by unfold Sys.tx; rw [hid]
  have catch_safe : ∀ {α : Type} {x : Res α} {y}, catchErr x = .ok y → x.Safe := by
    intro α x y h
    cases x <;> first | trivial | cases h
  refine ⟨?_, ?_, ?_, ?_, ?_, ?_, ?_⟩
  · obtain ⟨s', r, e⟩ := C46_no_abort hE hr (op := .insert id k v) hne
    simp only [step, htx, Res.bind_ok] at e
    obtain ⟨a, e1, _⟩ := Res.bind_eq_ok.1 e
    exact ⟨a, e1⟩
  · obtain ⟨s', r, e⟩ := C46_no_abort hE hr (op := .remove id k) hne
    simp only [step, htx, Res.bind_ok] at e
    obtain ⟨a, e1, _⟩ := Res.bind_eq_ok.1 e
    exact ⟨a, e1⟩
  · obtain ⟨s', r, e⟩ := C46_no_abort hE hr (op := .get id k) hne
    simp only [step, htx, Res.bind_ok] at e
    obtain ⟨a, e1, _⟩ := Res.bind_eq_ok.1 e
    exact catch_safe e1
  · obtain ⟨s', r, e⟩ := C46_no_abort hE hr (op := .has id k) hne
    simp only [step, htx, Res.bind_ok] at e
    obtain ⟨a, e1, _⟩ := Res.bind_eq_ok.1 e
    exact catch_safe e1
  · obtain ⟨hist, t, hd, ht⟩ := hr.tree hE hid
    obtain ⟨tx', raw, e, _⟩ := txProve_ok hd ht k
    exact ⟨_, e⟩
  · obtain ⟨s', r, e⟩ := C46_no_abort hE hr (op := .txRoot id) hne
    simp only [step, htx, Res.bind_ok] at e
    obtain ⟨a, e1, _⟩ := Res.bind_eq_ok.1 e
    exact ⟨a, e1⟩
  · intro hc
    obtain ⟨s', r, e⟩ := C46_no_abort hE hr (op := .commit id) ⟨tx, hid, hc⟩
    simp only [step, htx, Res.bind_ok] at e
    obtain ⟨a, e1, _⟩ := Res.bind_eq_ok.1 e
    exact ⟨a, e1⟩

example : ∃ s tx, Reachable toyEnv s ∧ s.txs 0 = some tx ∧ txGet s.db tx (keyOf 1) = .ok [7] := by
  obtain ⟨s, tx, h, h0, h1, _⟩ := demo
  exact ⟨s, tx, h, h0, h1⟩

/-! ### C49 -/

/-- Creating a transaction at the root `h`, running `body` and destroying the
transaction. -/
def around (E : Env) (s : Sys) (id : Nat) (h : Option B32) (body : Sys → Res (Sys × Ret)) : Res (Sys × Ret) := do
  let (s, r) ← step E s (.create id h)
  match r with
  | .fail e => pure (s, .fail e)
  | _ => do
    let (s, r) ← body s
    let (s, _) ← step E s (.destroy id)
    pure (s, r)

/-- Doing `op` and, if it succeeds, committing. -/
def thenCommit (E : Env) (id : Nat) (op : Op) (s : Sys) : Res (Sys × Ret) := do
  let (s, r) ← step E s op
  match r with
  | .fail e => pure (s, .fail e)
  | _ => step E s (.commit id)

/-- The one-shot calls are their transaction forms, on every database, in every
state, including what they do when a system call fails (`id` is any unused
handle). -/
theorem C49_one_shot (E : Env) (s : Sys) (id : Nat) (hid : s.txs id = none) (k : B32) (v : Bytes) (h : Option B32) :
    step E s (.get1 k h) = around E s id h (fun s => step E s (.get id k)) ∧
    step E s (.has1 k h) = around E s id h (fun s => step E s (.has id k)) ∧
    step E s (.prove1 k h) = around E s id h (fun s => step E s (.prove id k)) ∧
    step E s (.insert1 k v) = around E s id none (thenCommit E id (.insert id k v)) ∧
    step E s (.remove1 k) = around E s id none (thenCommit E id (.remove id k)) := by
  have hset : ∀ (db : Db) (t : Option Tx), ((({ s with db := db } : Sys).setTx id t).setTx id none) = { s with db := db } := by
    intro db t
    unfold Sys.setTx
    simp only [Sys.mk.injEq, true_and]
    funext i
    by_cases hi : i = id
    · rw [if_pos hi, hi, hid]
    · rw [if_neg hi, if_neg hi]
  have hset2 : ∀ (db : Db) (t t' : Option Tx),
      (((({ s with db := db } : Sys).setTx id t).setTx id t').setTx id none) = { s with db := db } := by
    intro db t t'
    rw [← hset db t']
    unfold Sys.setTx
    simp only [Sys.mk.injEq, true_and]
    funext i
    by_cases hi : i = id
    · simp only [if_pos hi]
    · simp only [if_neg hi]
  have hset3 : ∀ (db db2 : Db) (t t' t2 : Option Tx),
      (({ (({ s with db := db } : Sys).setTx id t).setTx id t' with db := db2 } : Sys).setTx id t2).setTx id none = { s with db := db2 } := by
    intro db db2 t t' t2
    rw [← hset2 db2 t t']
    unfold Sys.setTx
    simp only [Sys.mk.injEq, true_and]
    funext i
    by_cases hi : i = id
    · simp only [if_pos hi]
    · simp only [if_neg hi]
  have htx : ∀ (s : Sys) (t : Tx), (s.setTx id (some t)).tx id = .ok t := by
    intro s t; simp [Sys.tx, Sys.setTx]
  have hdb : ∀ (s : Sys) (t : Option Tx), (s.setTx id t).db = s.db := fun _ _ => rfl
  refine ⟨?_, ?_, ?_, ?_, ?_⟩
  · simp only [step, around, urkelGet]
    cases txCreate E s.db h with
    | err e => rfl
    | abort => rfl
    | ub => rfl
    | ok x =>
      obtain ⟨db, r⟩ := x
      cases r with
      | error e => rfl
      | ok t =>
        simp only [Res.bind_ok, Res.pure_eq, htx, hdb]
        cases catchErr (txGet db t k) with
        | ok r =>
          simp only [Res.bind_ok, htx]
          cases txDestroy t with
          | ok _ => simp only [Res.bind_ok, Res.pure_eq, hset]
          | err e => rfl
          | abort => rfl
          | ub => rfl
        | err e => rfl
        | abort => rfl
        | ub => rfl
  · simp only [step, around, urkelHas]
    cases txCreate E s.db h with
    | err e => rfl
    | abort => rfl
    | ub => rfl
    | ok x =>
      obtain ⟨db, r⟩ := x
      cases r with
      | error e => rfl
      | ok t =>
        simp only [Res.bind_ok, Res.pure_eq, htx, hdb]
        cases catchErr (txHas db t k) with
        | ok r =>
          simp only [Res.bind_ok, htx]
          cases txDestroy t with
          | ok _ => simp only [Res.bind_ok, Res.pure_eq, hset]
          | err e => rfl
          | abort => rfl
          | ub => rfl
        | err e => rfl
        | abort => rfl
        | ub => rfl
  · simp only [step, around, urkelProve]
    cases txCreate E s.db h with
    | err e => rfl
    | abort => rfl
    | ub => rfl
    | ok x =>
      obtain ⟨db, r⟩ := x
      cases r with
      | error e => rfl
      | ok t =>
        simp only [Res.bind_ok, Res.pure_eq, htx, hdb]
        cases txProve E db t k with
        | ok p =>
          obtain ⟨t', r⟩ := p
          simp only [Res.bind_ok, htx]
          cases txDestroy t' with
          | ok _ => simp only [Res.bind_ok, Res.pure_eq, hset, hset2]
          | err e => rfl
          | abort => rfl
          | ub => rfl
        | err e => rfl
        | abort => rfl
        | ub => rfl
  · simp only [step, around, urkelInsert, thenCommit]
    cases txCreate E s.db none with
    | err e => rfl
    | abort => rfl
    | ub => rfl
    | ok x =>
      obtain ⟨db, r⟩ := x
      cases r with
      | error e => rfl
      | ok t =>
        simp only [Res.bind_ok, Res.pure_eq, htx, hdb]
        cases txInsert E db t k v with
        | ok x =>
          obtain ⟨t1, r⟩ := x
          cases r with
          | error e =>
            simp only [Res.bind_ok, Res.pure_eq, Ret.ofUnit, htx]
            cases txDestroy t1 with
            | ok _ => simp only [Res.bind_ok, Res.pure_eq, hset, hset2]
            | err e => rfl
            | abort => rfl
            | ub => rfl
          | ok u =>
            simp only [Res.bind_ok, Res.pure_eq, Ret.ofUnit, htx, hdb]
            cases txCommit E db t1 with
            | ok x =>
              obtain ⟨db2, t2, r⟩ := x
              simp only [Res.bind_ok, htx]
              cases txDestroy t2 with
              | ok _ => simp only [Res.bind_ok, Res.pure_eq, hset3]
              | err e => rfl
              | abort => rfl
              | ub => rfl
            | err e => rfl
            | abort => rfl
            | ub => rfl
        | err e => rfl
        | abort => rfl
        | ub => rfl
  · simp only [step, around, urkelRemove, thenCommit]
    cases txCreate E s.db none with
    | err e => rfl
    | abort => rfl
    | ub => rfl
    | ok x =>
      obtain ⟨db, r⟩ := x
      cases r with
      | error e => rfl
      | ok t =>
        simp only [Res.bind_ok, Res.pure_eq, htx, hdb]
        cases txRemove db t k with
        | ok x =>
          obtain ⟨t1, r⟩ := x
          cases r with
          | error e =>
            simp only [Res.bind_ok, Res.pure_eq, Ret.ofUnit, htx]
            cases txDestroy t1 with
            | ok _ => simp only [Res.bind_ok, Res.pure_eq, hset, hset2]
            | err e => rfl
            | abort => rfl
            | ub => rfl
          | ok u =>
            simp only [Res.bind_ok, Res.pure_eq, Ret.ofUnit, htx, hdb]
            cases txCommit E db t1 with
            | ok x =>
              obtain ⟨db2, t2, r⟩ := x
              simp only [Res.bind_ok, htx]
              cases txDestroy t2 with
              | ok _ => simp only [Res.bind_ok, Res.pure_eq, hset3]
              | err e => rfl
              | abort => rfl
              | ub => rfl
            | err e => rfl
            | abort => rfl
            | ub => rfl
        | err e => rfl
        | abort => rfl
        | ub => rfl

/-- Every state has unused handles as long as finitely many are in use; a new database has none in use. -/
example : sys0.txs 5 = none ∧ (sys2 (keyOf 1) [7]).txs 5 = none ∧ (sys2 (keyOf 1) [7]).txs 0 ≠ none :=
  ⟨rfl, rfl, fun h => nomatch h⟩

/-! ### C50 -/

/-- The whole API refines the specification of Spec/Db.lean: any sequence of
allowed calls from a new directory returned what a list of committed maps and a
map per transaction could return, and the next allowed call will, too. -/
theorem C50_refinement {E : Env} (hE : EnvOk E) {tr : List (Op × Ret)} {s : Sys} (h : Exec E tr s) :
    ∃ sp, SpecExec E.H SpecDb.new tr sp ∧
      ∀ op, Allowed E s op → ∃ s' r sp', step E s op = .ok (s', r) ∧ SpecStep E.H sp op r sp' := by
  obtain ⟨sp, hist, h1, h2⟩ := exec_sim hE h
  refine ⟨sp, h1, fun op ha => ?_⟩
  obtain ⟨s', r, sp', _, e, a, _⟩ := step_sim hE h2 op ha
  exact ⟨s', r, sp', e, a⟩

example : ∃ tr s, Exec toyEnv tr s ∧ ∃ tx, s.txs 0 = some tx ∧ txGet s.db tx (keyOf 1) = .ok [7] := by
  obtain ⟨s, tx, ⟨tr, h⟩, h0, h1, _⟩ := demo
  exact ⟨tr, s, h, tx, h0, h1⟩

end Urkel
