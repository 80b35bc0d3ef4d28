import Verif.Props.Recovery
/-
A concrete new database in the toy environment, evaluated by the kernel: used by
the examples and counterexamples.
-/
namespace Urkel
open PTree

instance : DecidableEq (Except Err Db)
  | .ok a, .ok b => if h : a = b then isTrue (h ▸ rfl) else isFalse (fun e => h (Except.ok.inj e))
  | .error a, .error b => if h : a = b then isTrue (h ▸ rfl) else isFalse (fun e => h (Except.error.inj e))
  | .ok _, .error _ => isFalse (fun e => nomatch e)
  | .error _, .ok _ => isFalse (fun e => nomatch e)

/-- A new database with key zero. -/
def store0 : Store := ⟨B32.zero, [[]], 1, 0, { Slab.init with filePos := 0, fileIndex := 1 }, [], Meta.init, Meta.init, [], []⟩
def db0 : Db := ⟨store0, B32.zero, false⟩

theorem open_db0 : dbOpen toyEnv Dir.fresh B32.zero = .ok (⟨some B32.zero.bytes, [[]]⟩, .ok db0) := by decide +kernel

/-- A transaction in which one pair has been inserted. -/
def leafTx (k : B32) (v : Bytes) : Tx := ⟨some (createLeaf toyEnv.H k v)⟩

def sys0 : Sys := ⟨db0, fun _ => none⟩
def sys1 : Sys := sys0.setTx 0 (some ⟨some .null⟩)
def sys2 (k : B32) (v : Bytes) : Sys := sys1.setTx 0 (some (leafTx k v))

theorem sys0_started : Started toyEnv sys0 := ⟨B32.zero, _, _, open_db0, rfl⟩

theorem sys1_step : step toyEnv sys0 (.create 0 none) = .ok (sys1, .unit) := rfl

theorem insert_empty (E : Env) (s : Store) (k : B32) (v : Bytes) (f : Nat) :
    treeInsert E s k v (f + 1) .null 0 = .ok (createLeaf E.H k v) := rfl

theorem txInsert_null (db : Db) (k : B32) (v : Bytes) (hv : v.length ≤ 1023) :
    txInsert toyEnv db ⟨some .null⟩ k v = .ok (leafTx k v, .ok ()) := by
  unfold txInsert
  rw [if_neg (by simp only [valueSize]; omega)]
  simp only [Tx.node, Res.bind_ok]
  rw [show treeFuel = 599 + 1 from rfl, insert_empty]
  rfl

theorem sys2_step (k : B32) (v : Bytes) (hv : v.length ≤ 1023) :
    step toyEnv sys1 (.insert 0 k v) = .ok (sys2 k v, .unit) := by
  have : sys1.tx 0 = .ok ⟨some .null⟩ := rfl
  simp only [step, this, Res.bind_ok]
  rw [show sys1.db = db0 from rfl, txInsert_null db0 k v hv]
  rfl

theorem sys2_logged (k : B32) (v : Bytes) (hv : v.length ≤ 1023) : Logged toyEnv [] (sys2 k v) := by
  have l0 : Logged toyEnv [] sys0 := .start sys0_started
  have l1 : Logged toyEnv [] sys1 := .other (op := .create 0 none) l0 trivial sys1_step (Or.inr fun c hc => hc.elim)
  exact .other (op := .insert 0 k v) l1 (by simp only [Allowed]; exact fun h => nomatch h) (sys2_step k v hv)
    (Or.inr fun c hc => hc.elim)

theorem sys2_tx (k : B32) (v : Bytes) : (sys2 k v).txs 0 = some (leafTx k v) := rfl
theorem sys2_db (k : B32) (v : Bytes) : (sys2 k v).db = db0 := rfl

theorem sys2_shows (k : B32) (v : Bytes) (hv : v.length ≤ 1023) : Shows db0 (leafTx k v) (Contents.ofList [(k, v)]) := by
  obtain ⟨hist, t, hd, ht⟩ := (Logged.other (op := .create 0 none) (.start sys0_started) trivial sys1_step
    (Or.inr fun c hc => hc.elim) : Logged toyEnv [] sys1).reachable.tree toyEnv_ok (id := 0) (tx := ⟨some .null⟩) rfl
  obtain ⟨tx', e, ht'⟩ := txInsert_ok hd ht k (v := v) hv
  rw [show sys1.db = db0 from rfl, txInsert_null db0 k v hv] at e
  cases e
  have := ht'.shows hd
  rw [(Top.insert ht.top k v).2] at this
  obtain ⟨n, hn, hr, _⟩ := ht
  cases hn
  have : t = .null := hr
  subst this
  assumption

theorem sys2_can (k : B32) (v : Bytes) (hv : v.length ≤ 255) : CanCommit toyEnv db0 (leafTx k v) := by
  obtain ⟨hist, t, hd, ht⟩ := (sys2_logged k v (by omega)).reachable.tree toyEnv_ok (sys2_tx k v)
  refine canCommit_of hd ht (sys2_shows k v (by omega)) (ofList_vals (l := [(k, v)]) (by simp [hv])) [k] ofList_keys ?_
  exact (by decide : 1 * 2147479552 + 0 + 2 * (408 * 1 + 76) < 2147479552 * 32767)

end Urkel
