import Verif.Props.Commit
import Verif.Lemmas.Scenario
/-
C18-C22, C51: isolation, snapshots by root hash, inject, clear, root cache.
-/
namespace Urkel
open PTree

/-- Contents with the same root are equal, or the trees collide. -/
theorem IsRoot.binds {H : HashFn} {c c' : Contents} {h : B32} (a : IsRoot H c h) (b : IsRoot H c' h) :
    c' = c ∨ TreesCollide H c c' := by
  obtain ⟨t, ht, rfl, e⟩ := a
  obtain ⟨u, hu, rfl, e'⟩ := b
  rcases hash_inj (H := H) (S := t.inputs H ++ u.inputs H) (p := []) ht hu
    (fun x h => List.mem_append_left _ h) (fun x h => List.mem_append_right _ h) (e.trans e'.symm) with hb | rfl
  · exact Or.inr ⟨t, u, ht, hu, rfl, rfl, hb⟩
  · exact Or.inl rfl

theorem SpecStep.keeps {H : HashFn} {s s' : SpecDb} {op : Op} {r : Ret} (h : SpecStep H s op r s') {id : Nat}
    (hn : ¬ op.Changes id) : s'.txs id = s.txs id := by
  have other : ∀ {i c}, ¬ i = id → (s.setTx i c).txs id = s.txs id := by
    intro i c hi
    simp only [SpecDb.setTx]
    rw [if_neg (fun e => hi e.symm)]
  have com : ∀ {c}, CommitTo H s c s' → s'.txs id = s.txs id := by rintro c ⟨_, _, rfl⟩; rfl
  cases op with
  | root => rw [h.2]
  | inject h' => rw [h.2.2]
  | create i x =>
    rcases h with ⟨c, _, _, e⟩ | ⟨_, _, e⟩
    · rw [e]; exact other hn
    · rw [e]
  | destroy i => rw [h.2]; exact other hn
  | clear i => rw [h.2]; exact other hn
  | txRoot i => obtain ⟨_, _, _, _, _, e⟩ := h; rw [e]
  | txInject i x =>
    rcases h with ⟨c, _, _, e⟩ | ⟨_, _, e⟩
    · rw [e]; exact other hn
    · rw [e]
  | get i k => obtain ⟨_, _, _, e⟩ := h; rw [e]
  | has i k => obtain ⟨_, _, _, e⟩ := h; rw [e]
  | insert i k v => obtain ⟨_, _, _, _, e⟩ := h; rw [e]; exact other hn
  | remove i k => obtain ⟨_, _, _, _, e⟩ := h; rw [e]; exact other hn
  | prove i k => obtain ⟨_, _, _, _, _, e⟩ := h; rw [e]
  | commit i => obtain ⟨_, _, _, h⟩ := h; exact com h
  | reopen rand => exact (hn trivial).elim
  | get1 k x => rw [h.2]
  | has1 k x => rw [h.2]
  | prove1 k x => rw [h.2]
  | insert1 k v =>
    obtain ⟨_, _, _, _, h1, h2⟩ := h
    by_cases hr : r = .unit
    · exact com (h1 hr)
    · rw [h2 hr]
  | remove1 k =>
    obtain ⟨_, _, _, _, h1, h2⟩ := h
    by_cases hr : r = .unit
    · exact com (h1 hr)
    · rw [h2 hr]

/-- C18. Whatever calls are made on the database and on other transactions, and
whatever reads, proofs and commits on this one, as long as no call inserts into,
removes from, clears, injects into or ends this transaction, its reads and its
root stay the same. -/
theorem C18_isolation {E : Env} (hE : EnvOk E) {s s' : Sys} (hr : Reachable E s) {id : Nat} {tx : Tx}
    (hid : s.txs id = some tx) {ops : List Op} (hrun : Run E s ops s') (hno : ∀ op ∈ ops, ¬ op.Changes id) :
    ∃ tx', s'.txs id = some tx' ∧ (∀ k, txGet s'.db tx' k = txGet s.db tx k) ∧
      ∃ a b r, txRoot E tx = .ok (a, r) ∧ txRoot E tx' = .ok (b, r) := by
  obtain ⟨sp, hist, hs⟩ := hr.sim hE
  have key : ∀ {s s' : Sys} {ops}, Run E s ops s' → (∀ op ∈ ops, ¬ op.Changes id) → ∀ {sp hist}, Sim E s sp hist →
      ∃ sp' hist', Sim E s' sp' hist' ∧ sp'.txs id = sp.txs id := by
    intro s s' ops h
    induction h with
    | nil => intro _ sp hist hs; exact ⟨sp, hist, hs, rfl⟩
    | cons ha he _ ih =>
      intro hno sp hist hs
      obtain ⟨sp1, hist1, h1, h2⟩ := hs.next hE ha he
      obtain ⟨sp2, hist2, h3, h4⟩ := ih (fun op hm => hno op (List.mem_cons_of_mem _ hm)) h2
      exact ⟨sp2, hist2, h3, h4.trans (h1.keeps (hno _ List.mem_cons_self))⟩
  obtain ⟨sp', hist', hs', e⟩ := key hrun hno hs
  obtain ⟨tx0, t, e1, _, ht, e2⟩ := hs.tx (id := id) (by rw [hid]; simp)
  rw [hid] at e1; cases e1
  rw [e2] at e
  have hm := hs'.txs id
  cases hx : s'.txs id with
  | none => rw [hx, e] at hm; exact hm.elim
  | some tx' =>
    rw [hx, e] at hm
    obtain ⟨t', ht', hf⟩ := hm
    have : t' = t := find_inj ht'.top ht.top hf
    subst this
    obtain ⟨a, ea, _⟩ := txRoot_ok ht
    obtain ⟨b, eb, _⟩ := txRoot_ok ht'
    exact ⟨tx', rfl, fun k => by rw [ht'.shows hs'.db, ht.shows hs.db], a, b, _, ea, eb⟩

/-- A run with a second transaction that overwrites and commits. -/
example : ∃ s s' tx, Reachable toyEnv s ∧ s.txs 0 = some tx ∧ txGet s.db tx (keyOf 1) = .ok [7] ∧
    Run toyEnv s [.create 1 none, .insert 1 (keyOf 1) [9], .get 1 (keyOf 1)] s' ∧
    ∀ op ∈ [Op.create 1 none, Op.insert 1 (keyOf 1) [9], Op.get 1 (keyOf 1)], ¬ op.Changes 0 := by
  obtain ⟨s, tx, a, b, c, _⟩ := demo
  obtain ⟨sp, hist, hs⟩ := a.sim toyEnv_ok
  obtain ⟨db1, tx1, c1, e1, _⟩ := hs.create_none toyEnv_ok
  have s1 : step toyEnv s (.create 1 none) = .ok (({ s with db := db1 } : Sys).setTx 1 (some tx1), .unit) := by
    simp only [step, e1, Res.bind_ok]; rfl
  have a1 := a.next (op := .create 1 none) trivial s1
  have i1 : (({ s with db := db1 } : Sys).setTx 1 (some tx1)).txs 1 = some tx1 := by simp [Sys.setTx]
  obtain ⟨tx2, e2, g2, _⟩ := C01_read_your_writes toyEnv_ok a1 i1 (keyOf 1) [9] (by decide)
  have s2 : step toyEnv (({ s with db := db1 } : Sys).setTx 1 (some tx1)) (.insert 1 (keyOf 1) [9]) =
      .ok ((({ s with db := db1 } : Sys).setTx 1 (some tx1)).setTx 1 (some tx2), .unit) := by
    simp only [step, Sys.tx, i1, Res.bind_ok, e2]; rfl
  have i2 : ((({ s with db := db1 } : Sys).setTx 1 (some tx1)).setTx 1 (some tx2)).txs 1 = some tx2 := by simp [Sys.setTx]
  have g2' : txGet ((({ s with db := db1 } : Sys).setTx 1 (some tx1)).setTx 1 (some tx2)).db tx2 (keyOf 1) = .ok [9] := g2
  have s3 : step toyEnv ((({ s with db := db1 } : Sys).setTx 1 (some tx1)).setTx 1 (some tx2)) (.get 1 (keyOf 1)) =
      .ok ((({ s with db := db1 } : Sys).setTx 1 (some tx1)).setTx 1 (some tx2), .bytes [9]) := by
    simp only [step, Sys.tx, i2, Res.bind_ok, g2', catchErr]; rfl
  have hrun := Run.cons (op := .create 1 none) trivial s1 (.cons (op := .insert 1 (keyOf 1) [9]) (by simp [Allowed, i1]) s2
    (.cons (op := .get 1 (keyOf 1)) (by simp [Allowed, i2]) s3 (.nil _)))
  refine ⟨s, _, tx, a, b, c, hrun, ?_⟩
  · intro op hop
    simp only [List.mem_cons, List.not_mem_nil, or_false] at hop
    rcases hop with rfl | rfl | rfl <;> simp [Op.Changes]

/-- C19. Every root in the log, and the zero root, can be opened by hash, and
shows contents that were committed with that root: those of the log entry, unless
two committed trees with this root collide under the hash. -/
theorem C19_snapshots {E : Env} (hE : EnvOk E) {log : List (B32 × Contents)} {s : Sys} (hl : Logged E log s) {h : B32} {c : Contents}
    (hm : (h, c) ∈ (B32.zero, Contents.empty) :: log) :
    ∃ db' tx c', txCreate E s.db (some h) = .ok (db', .ok tx) ∧ Shows db' tx c' ∧
      (h, c') ∈ (B32.zero, Contents.empty) :: log ∧ (c' = c ∨ TreesCollide E.H c c') := by
  obtain ⟨sp, hist, hs, e1, e2⟩ := hl.sim hE
  obtain ⟨db', r, e, hs', _, hc⟩ := create_read hE hs (some h)
  have hsn : sp.Snapshot E.H h c := (hs.snapshot_log e1 e2).2 hm
  rcases hc with ⟨tx, t, rfl, ht, hsn'⟩ | ⟨_, hno⟩
  · exact ⟨db', tx, t.find, e, ht.shows hs'.db, (hs.snapshot_log e1 e2).1 hsn', hsn.2.binds hsn'.2⟩
  · exact (hno c hsn).elim

example : ∃ (s : Sys) (h1 h2 : B32), Logged toyEnv [(h2, demoC2), (h1, demoC1)] s ∧
    (h1, demoC1) ∈ (B32.zero, Contents.empty) :: [(h2, demoC2), (h1, demoC1)] ∧ h1 ≠ h2 ∧ demoC1 (keyOf 1) = some [7] := by
  obtain ⟨s, h1, h2, g, hne, _⟩ := demo2
  exact ⟨s, h1, h2, g.logged, by simp, hne, rfl⟩

/-- Nothing a program can see of the database differs between `db` and `db'`:
the root, the data files, and the reads of every open transaction. -/
structure Unchanged (s : Sys) (db' : Db) : Prop where
  root : dbRoot db' = dbRoot s.db
  files : db'.store.files = s.db.store.files
  reads : ∀ id tx k, s.txs id = some tx → txGet db' tx k = txGet s.db tx k

theorem Sim.unchanged {E : Env} {s : Sys} {sp : SpecDb} {hist : List PTree} (hs : Sim E s sp hist) {db' : Db}
    (hs' : Sim E { s with db := db' } sp hist) (hsame : SameDb s.db db') : Unchanged s db' := by
  refine ⟨hsame.hash, hsame.store.files, fun id tx k hid => ?_⟩
  obtain ⟨tx1, t, e1, _, ht, e2⟩ := hs.tx (id := id) (by rw [hid]; simp)
  rw [hid] at e1; cases e1
  rw [hs.shows hid e2 k]
  exact hs'.shows (s := { s with db := db' }) hid e2 k

/-- C20, as far as it is true: opening a transaction at a hash that is neither
zero nor in the log, or injecting it into a transaction, fails with ENOTFOUND and
changes nothing. Missing: `urkel_inject`, for which the claim is false
(`C20_inject_unknown_false`). -/
theorem C20_unknown_root_partial {E : Env} (hE : EnvOk E) {log : List (B32 × Contents)} {s : Sys} (hl : Logged E log s) {h : B32}
    (hz : h ≠ B32.zero) (hu : ∀ c, (h, c) ∉ log) :
    (∃ db', txCreate E s.db (some h) = .ok (db', .error .ENOTFOUND) ∧ Unchanged s db') ∧
    ∀ id tx, s.txs id = some tx → ∃ db', txInject E s.db tx h = .ok (db', tx, .error .ENOTFOUND) ∧ Unchanged s db' := by
  obtain ⟨sp, hist, hs, e1, e2⟩ := hl.sim hE
  have hno : ∀ c, ¬ sp.Snapshot E.H h c := by
    intro c hc
    rcases List.mem_cons.1 ((hs.snapshot_log e1 e2).1 hc) with e | hm
    · cases e; exact hz rfl
    · exact hu c hm
  have hno' : ∀ t ∈ PTree.null :: hist, t.hash E.H ≠ h := fun t ht e => hno t.find (hs.snapshot.2 ⟨t, ht, rfl, e⟩)
  constructor
  · obtain ⟨db', r, e, hs', hsame, hc⟩ := create_read hE hs (some h)
    rcases hc with ⟨tx, t, rfl, ht, hsn⟩ | ⟨rfl, _⟩
    · exact (hno _ hsn).elim
    · exact ⟨db', e, hs.unchanged hs' hsame⟩
  · intro id tx hid
    obtain ⟨tx0, t0, f1, _, ht0, f2⟩ := hs.tx (id := id) (by rw [hid]; simp)
    rw [hid] at f1; cases f1
    obtain ⟨db', tx', r, e, hd', hsame, hc⟩ := txInject_ok hE hs.db ht0 h
    rcases hc with ⟨t, rfl, htm, hth, _⟩ | ⟨rfl, rfl, _⟩
    · exact (hno' t htm hth).elim
    · exact ⟨db', e, hs.unchanged (hs.withDb hd' hsame) hsame⟩

/-- C20 is false for `urkel_inject`: with a hash that is neither zero nor in the
log its behaviour is undefined (it clears a node that was never initialised). -/
theorem C20_inject_unknown_false {E : Env} (hE : EnvOk E) {log : List (B32 × Contents)} {s : Sys} (hl : Logged E log s) {h : B32}
    (hz : h ≠ B32.zero) (hu : ∀ c, (h, c) ∉ log) : dbInject E s.db h = .ub := by
  obtain ⟨sp, hist, hs, e1, e2⟩ := hl.sim hE
  refine dbInject_unknown hE hs.db fun t ht e => ?_
  rcases List.mem_cons.1 ((hs.snapshot_log e1 e2).1 (hs.snapshot.2 ⟨t, ht, rfl, e⟩)) with e' | hm
  · have := congrArg Prod.fst e'
    exact hz this
  · exact hu _ hm

example : ∃ (s : Sys) (log : List (B32 × Contents)) (h : B32), Logged toyEnv log s ∧ h ≠ B32.zero ∧ (∀ c, (h, c) ∉ log) ∧
    log.length = 2 := by
  obtain ⟨s, h1, h2, g, _⟩ := demo2
  have : ∃ h : B32, h ≠ B32.zero ∧ h ≠ h1 ∧ h ≠ h2 := by
    by_cases a : keyOf 1 = h1 ∨ keyOf 1 = h2
    · by_cases b : keyOf 2 = h1 ∨ keyOf 2 = h2
      · have n12 : keyOf 1 ≠ keyOf 2 := by decide
        have n13 : keyOf 3 ≠ keyOf 1 := by decide
        have n23 : keyOf 3 ≠ keyOf 2 := by decide
        refine ⟨keyOf 3, by decide, ?_, ?_⟩ <;> intro e <;> rcases a with a | a <;> rcases b with b | b <;>
          first
          | exact n12 (a.trans b.symm)
          | exact n13 (e.trans a.symm)
          | exact n23 (e.trans b.symm)
      · exact ⟨keyOf 2, by decide, fun e => b (Or.inl e), fun e => b (Or.inr e)⟩
    · exact ⟨keyOf 1, by decide, fun e => a (Or.inl e), fun e => a (Or.inr e)⟩
  obtain ⟨h, a, b, c⟩ := this
  exact ⟨s, _, h, g.logged, a, by simp [b, c], rfl⟩

/-- C21. `urkel_inject` of a root in the log (or zero) succeeds; the database then
reports that root and new transactions show contents committed with it;
`urkel_tx_inject` does the same for one transaction. -/
theorem C21_inject {E : Env} (hE : EnvOk E) {log : List (B32 × Contents)} {s : Sys} (hl : Logged E log s) {h : B32} {c : Contents}
    (hm : (h, c) ∈ (B32.zero, Contents.empty) :: log) :
    (∃ db' db'' new c', dbInject E s.db h = .ok (db', .ok ()) ∧ dbRoot db' = h ∧
      txCreate E db' none = .ok (db'', .ok new) ∧ Shows db'' new c' ∧ (h, c') ∈ (B32.zero, Contents.empty) :: log ∧
      (c' = c ∨ TreesCollide E.H c c') ∧ ∀ id tx k, s.txs id = some tx → txGet db' tx k = txGet s.db tx k) ∧
    ∀ id tx, s.txs id = some tx → ∃ db' tx' c' a, txInject E s.db tx h = .ok (db', tx', .ok ()) ∧ Shows db' tx' c' ∧
      (h, c') ∈ (B32.zero, Contents.empty) :: log ∧ (c' = c ∨ TreesCollide E.H c c') ∧ txRoot E tx' = .ok (a, h) ∧
      dbRoot db' = dbRoot s.db := by
  obtain ⟨sp, hist, hs, e1, e2⟩ := hl.sim hE
  have hsn : sp.Snapshot E.H h c := (hs.snapshot_log e1 e2).2 hm
  obtain ⟨t, ht, rfl, hth⟩ := hs.snapshot.1 hsn
  have back : ∀ {u : PTree}, u ∈ PTree.null :: hist → u.hash E.H = h →
      (h, u.find) ∈ (B32.zero, Contents.empty) :: log ∧ (u.find = t.find ∨ TreesCollide E.H t.find u.find) := by
    intro u hu huh
    have hsu : sp.Snapshot E.H h u.find := hs.snapshot.2 ⟨u, hu, rfl, huh⟩
    exact ⟨(hs.snapshot_log e1 e2).1 hsu, hsn.2.binds hsu.2⟩
  constructor
  · obtain ⟨db', e, hd', hsame, hh, hrv⟩ := dbInject_ok hE hs.db ht hth
    obtain ⟨db'', r, ec, hd'', hsame', hc⟩ := txCreate_ok hE hd' none
    rcases hc with ⟨new, u, rfl, hu, huh, hnew, _⟩ | ⟨rfl, hno⟩
    · rw [Option.getD_none, hh] at huh
      obtain ⟨b1, b2⟩ := back hu huh
      refine ⟨db', db'', new, u.find, e, hh, ec, hnew.shows hd'', b1, b2, fun id tx k hid => ?_⟩
      obtain ⟨tx1, w, f1, _, hw, f2⟩ := hs.tx (id := id) (by rw [hid]; simp)
      rw [hid] at f1; cases f1
      rw [hw.shows hs.db, (hw.files hsame.files).shows hd']
    · exact (hno t ht (by rw [Option.getD_none, hh, hth])).elim
  · intro id tx hid
    obtain ⟨tx0, t0, f1, _, ht0, f2⟩ := hs.tx (id := id) (by rw [hid]; simp)
    rw [hid] at f1; cases f1
    obtain ⟨db', tx', r, e, hd', hsame, hc⟩ := txInject_ok hE hs.db ht0 h
    rcases hc with ⟨u, rfl, hu, huh, htx'⟩ | ⟨_, _, hno⟩
    · obtain ⟨b1, b2⟩ := back hu huh
      obtain ⟨a, ea, _⟩ := txRoot_ok htx'
      exact ⟨db', tx', u.find, a, e, htx'.shows hd', b1, b2, by rw [ea, huh], hsame.hash⟩
    · exact (hno t ht hth).elim

example : ∃ (s : Sys) (h1 h2 : B32), Logged toyEnv [(h2, demoC2), (h1, demoC1)] s ∧ s.txs 0 ≠ none ∧
    (h1, demoC1) ∈ (B32.zero, Contents.empty) :: [(h2, demoC2), (h1, demoC1)] ∧ dbRoot s.db ≠ h1 := by
  obtain ⟨s, h1, h2, g, hne, _, _, hr⟩ := demo2
  obtain ⟨tx, htx, _⟩ := g.tx
  exact ⟨s, h1, h2, g.logged, by simp [htx], by simp, by rw [hr]; exact hne.symm⟩

/-- C22, as far as it is true: if `urkel_inject` has not been called, clearing a
transaction gives exactly the transaction that `urkel_tx_create(tree, NULL)`
gives. Missing: after `urkel_inject` the claim is false (`C22_clear_false`). -/
theorem C22_clear_partial {E : Env} (hE : EnvOk E) {tr : List (Op × Ret)} {s : Sys} (hx : Exec E tr s) (hn : NoInject tr)
    {id : Nat} {tx : Tx} (hid : s.txs id = some tx) :
    ∃ new, txCreate E s.db none = .ok (s.db, .ok new) ∧ txClear s.db tx = .ok new := by
  have hr : Reachable E s := ⟨tr, hx⟩
  obtain ⟨hist, t, hd, ht⟩ := hr.tree hE hid
  obtain ⟨n, hn', _⟩ := ht
  refine ⟨⟨some s.db.store.state.rootNode⟩, ?_, ?_⟩
  · simp only [txCreate]; rw [if_neg (by simp [hx.revert hn])]
  · simp only [txClear, Tx.node, hn', Res.bind_ok, Res.pure_eq]

example : ∃ tr s tx, Exec toyEnv tr s ∧ NoInject tr ∧ s.txs 0 = some tx := by
  obtain ⟨s0, h0, _⟩ := started_exists toyEnv B32.zero
  obtain ⟨sp, hist, hs⟩ := Reachable.sim (s := s0) toyEnv_ok ⟨[], .start h0⟩
  obtain ⟨db, tx, c, e, _⟩ := hs.create_none toyEnv_ok
  have s1 : step toyEnv s0 (.create 0 none) = .ok (({ s0 with db := db } : Sys).setTx 0 (some tx), .unit) := by
    simp only [step, e, Res.bind_ok]; rfl
  refine ⟨_, _, tx, Exec.step (op := .create 0 none) (.start h0) trivial s1, ?_, by simp [Sys.setTx]⟩
  intro h r hm; simp at hm

/-- C22 is false after `urkel_inject`: in a reachable state, a new transaction
does not show key 129 (the database was rewound to a root without it), a
cleared one does. -/
theorem C22_clear_false : ∃ (s : Sys) (tx new cleared : Tx) (db : Db), Reachable toyEnv s ∧ s.txs 0 = some tx ∧
    txCreate toyEnv s.db none = .ok (db, .ok new) ∧ txClear s.db tx = .ok cleared ∧
    txGet db new (keyOf 129) = .err .ENOTFOUND ∧ txGet s.db cleared (keyOf 129) = .ok [] := by
  obtain ⟨s, h1, h2, g, hne, hz1, hz2, hr⟩ := demo2
  obtain ⟨sp, hist, hs, e1, e2⟩ := g.logged.sim toyEnv_ok
  obtain ⟨tx, htx, hsh⟩ := g.tx
  have hm : (h1, demoC1) ∈ (B32.zero, Contents.empty) :: [(h2, demoC2), (h1, demoC1)] := by simp
  obtain ⟨⟨db', db'', new, c', f1, f2, f3, f4, f5, _, f6⟩, _⟩ := C21_inject toyEnv_ok g.logged hm
  have hc' : c' = demoC1 := by
    simp only [List.mem_cons, Prod.mk.injEq, List.not_mem_nil, or_false] at f5
    rcases f5 with h | h | h
    · exact (hz1 h.1).elim
    · exact (hne h.1).elim
    · exact h.2
  subst hc'
  have s1 : step toyEnv s (.inject h1) = .ok ({ s with db := db' }, .unit) := by
    simp only [step, f1, Res.bind_ok]; rfl
  obtain ⟨d0, t0, _, c0, _⟩ := C19_snapshots toyEnv_ok g.logged hm
  have hr1 := g.logged.reachable.next (op := .inject h1) ⟨d0, t0, c0⟩ s1
  obtain ⟨hist', t, hd, ht⟩ := hr1.tree toyEnv_ok (id := 0) (tx := tx) htx
  obtain ⟨x, ex, hx⟩ := txClear_ok hd ht
  refine ⟨_, tx, new, x, db'', hr1, htx, f3, ex, by rw [f4]; rfl, ?_⟩
  -- the store's own root is still the newest commit
  obtain ⟨sp2, hist2, hs2, e3, _⟩ := (Logged.other (op := .inject h1) g.logged ⟨d0, t0, c0⟩ s1
    (Or.inr fun c hc => hc.elim)).sim toyEnv_ok
  obtain ⟨tx1, w, g1, _, hw, _⟩ := hs2.tx (id := 0) (by simp [htx])
  have g2 : tx1 = tx := by
    have := g1.symm.trans htx
    exact Option.some.inj this
  subst g2
  obtain ⟨y, ey, hy⟩ := txClear_ok hs2.db hw
  rw [ex] at ey; cases ey
  have := hy.shows hs2.db
  rw [← hs2.last] at this
  unfold SpecDb.last at this
  rw [e3] at this
  rw [this]; rfl

/-- Look up a list of root hashes, one after the other, and forget the results. -/
def lookups (E : Env) : Db → List B32 → Res Db
  | db, [] => .ok db
  | db, h :: hs => do
    let (db, _) ← txCreate E db (some h)
    lookups E db hs

/-- The same database with an empty root cache: as if just opened, every lookup
walks the commit chain on disk. -/
def Db.forget (db : Db) : Db := { db with store := { db.store with cache := [], lastMeta := db.store.state } }

/-- C51. Whatever hashes have been looked up before, and even if the root cache is
emptied, a lookup fails exactly when it did before, and shows the same contents
(unless two committed trees collide). -/
theorem C51_cache {E : Env} (hE : EnvOk E) {s : Sys} (hr : Reachable E s) (hs : List B32) (h : B32) :
    ∃ db1, lookups E s.db hs = .ok db1 ∧ ∀ db2, db2 = db1 ∨ db2 = db1.forget →
      ((∃ d, txCreate E s.db (some h) = .ok (d, .error .ENOTFOUND)) ∧ (∃ d, txCreate E db2 (some h) = .ok (d, .error .ENOTFOUND))) ∨
      (∃ d tx c d' tx' c', txCreate E s.db (some h) = .ok (d, .ok tx) ∧ Shows d tx c ∧
        txCreate E db2 (some h) = .ok (d', .ok tx') ∧ Shows d' tx' c' ∧ (c' = c ∨ TreesCollide E.H c c')) := by
  obtain ⟨sp, hist, hsim⟩ := hr.sim hE
  have key : ∀ (hs : List B32) (db : Db), DInv E db hist → ∃ db1, lookups E db hs = .ok db1 ∧ DInv E db1 hist := by
    intro hs
    induction hs with
    | nil => intro db hd; exact ⟨db, rfl, hd⟩
    | cons x hs ih =>
      intro db hd
      obtain ⟨db', r, e, hd', _⟩ := txCreate_ok hE hd (some x)
      obtain ⟨db1, e1, h1⟩ := ih db' hd'
      exact ⟨db1, by simp only [lookups, e, Res.bind_ok, e1], h1⟩
  obtain ⟨db1, e1, hd1⟩ := key hs s.db hsim.db
  refine ⟨db1, e1, fun db2 h2 => ?_⟩
  have hd2 : DInv E db2 hist := by
    rcases h2 with rfl | rfl
    · exact hd1
    · exact ⟨hd1.inv.update [] db1.store.state (by intro _ _ hm; cases hm) ⟨[], hist, rfl, hd1.inv.chain, by simp⟩, hd1.known, hd1.cur⟩
  obtain ⟨d, r, e, hd, _, hc⟩ := txCreate_ok hE hsim.db (some h)
  obtain ⟨d', r', e', hd', _, hc'⟩ := txCreate_ok hE hd2 (some h)
  rcases hc with ⟨tx, t, rfl, htm, hth, htx, _⟩ | ⟨rfl, hno⟩
  · rcases hc' with ⟨tx', t', rfl, htm', hth', htx', _⟩ | ⟨rfl, hno'⟩
    · refine Or.inr ⟨d, tx, t.find, d', tx', t'.find, e, htx.shows hd, e', htx'.shows hd', ?_⟩
      exact IsRoot.binds (h := h) ⟨t, htx.top, rfl, hth⟩ ⟨t', htx'.top, rfl, hth'⟩
    · exact (hno' t htm hth).elim
  · rcases hc' with ⟨tx', t', rfl, htm', hth', htx', _⟩ | ⟨rfl, hno'⟩
    · exact (hno t' htm' hth').elim
    · exact Or.inl ⟨⟨d, e⟩, d', e'⟩

example : ∃ s, Reachable toyEnv s ∧ dbRoot s.db ≠ B32.zero := by
  obtain ⟨s, h1, h2, g, _, _, hz, hr⟩ := demo2
  exact ⟨s, g.logged.reachable, by rw [hr]; exact hz⟩

end Urkel
