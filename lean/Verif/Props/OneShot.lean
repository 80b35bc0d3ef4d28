import Verif.Props.Whole
import Verif.Props.Conc
/-
C60: are the one-shot calls atomic when several threads make them?
-/
namespace Urkel
open PTree

/-- The transaction calls that `urkel_insert` makes, with `id` for its transaction
(tree.c:706-726; `C49_one_shot`). -/
def insertCalls (id : Nat) (k : B32) (v : Bytes) : List Op := [.create id none, .insert id k v, .commit id, .destroy id]

/-- `l` is an interleaving of `a` and `b`. -/
inductive Interleaves {α : Type} : List α → List α → List α → Prop
  | nil : Interleaves [] [] []
  | left (x : α) {a b l : List α} : Interleaves a b l → Interleaves (x :: a) b (x :: l)
  | right (x : α) {a b l : List α} : Interleaves a b l → Interleaves a (x :: b) (x :: l)

/-- A small one-file database without `urkel_inject`, in the state `sp` of the specification. -/
structure Small (E : Env) (sp : SpecDb) (n : Nat) (s : Sys) : Prop where
  sim : ∃ hist, Sim E s sp hist
  rev : s.db.revert = false
  one : s.db.store.files.length = 1
  size : lastLen s.db.store.files ≤ n

theorem create_last {E : Env} {s : Sys} {sp : SpecDb} {hist : List PTree} (h : Sim E s sp hist) (hrv : s.db.revert = false) :
    txCreate E s.db none = .ok (s.db, .ok ⟨some s.db.store.state.rootNode⟩) ∧
      TxIs E s.db ⟨some s.db.store.state.rootNode⟩ (hist.headD .null) := by
  refine ⟨by simp only [txCreate]; rw [if_neg (by simp [hrv])], ?_⟩
  obtain ⟨a, b⟩ := RootIs.tx h.db.inv h.db.inv.root (SInv.head_mem hist)
  exact ⟨_, rfl, h.db.inv.root.repr, a, b⟩

theorem get1_last {E : Env} {s : Sys} {sp : SpecDb} {hist : List PTree} (h : Sim E s sp hist) (hrv : s.db.revert = false) (k : B32) :
    step E s (.get1 k none) = .ok (s, sp.last.getRet k) := by
  obtain ⟨e, ht⟩ := create_last h hrv
  obtain ⟨r, hr, hr2⟩ := lookup_getRet (t := hist.headD .null) (k := k)
  have hg := ht.shows h.db k
  simp only [step, urkelGet, e, Res.bind_ok]
  have : catchErr (txGet s.db ⟨some s.db.store.state.rootNode⟩ k) = .ok r := by
    rw [← hr, hg]
    unfold Contents.read lookupRes
    cases (hist.headD .null).find k <;> rfl
  rw [this]
  simp only [Res.bind_ok, txDestroy, Tx.node, Res.pure_eq]
  rw [hr2, h.last]

theorem small_create {E : Env} {sp : SpecDb} {n : Nat} {s : Sys} (h : Small E sp n s) (id : Nat) :
    ∃ s', step E s (.create id none) = .ok (s', .unit) ∧ Small E (sp.setTx id (some sp.last)) n s' := by
  obtain ⟨hist, hs⟩ := h.sim
  obtain ⟨e, ht⟩ := create_last hs h.rev
  have e3 : step E s (.create id none) = .ok (s.setTx id (some ⟨some s.db.store.state.rootNode⟩), .unit) := by
    simp only [step, e, Res.bind_ok]; rfl
  refine ⟨_, e3, ⟨hist, hs.set id ⟨_, ht, ?_⟩⟩, h.rev, h.one, h.size⟩
  rw [hs.last]

theorem small_insert {E : Env} {sp : SpecDb} {n : Nat} {s : Sys} (h : Small E sp n s) (id : Nat) {c : Contents} (hc : sp.txs id = some c)
    (k : B32) (v : Bytes) (hv : v.length ≤ 1023) :
    ∃ s', step E s (.insert id k v) = .ok (s', .unit) ∧ Small E (sp.setTx id (some (c.set k (some v)))) n s' := by
  obtain ⟨hist, hs⟩ := h.sim
  have hne : s.txs id ≠ none := by
    intro hn
    have := hs.txs id
    rw [hn, hc] at this
    exact this.elim
  obtain ⟨tx, t, h1, h2, ht, h3⟩ := hs.tx hne
  rw [hc] at h3; cases h3
  obtain ⟨tx', e, ht'⟩ := txInsert_ok hs.db ht k (v := v) hv
  have e1 : step E s (.insert id k v) = .ok (s.setTx id (some tx'), .unit) := by
    simp only [step, h2, Res.bind_ok, e]; rfl
  exact ⟨_, e1, ⟨hist, hs.set id ⟨_, ht', (Top.insert ht.top k v).2⟩⟩, h.rev, h.one, h.size⟩

theorem small_destroy {E : Env} {sp : SpecDb} {n : Nat} {s : Sys} (h : Small E sp n s) (id : Nat) {c : Contents} (hc : sp.txs id = some c) :
    ∃ s', step E s (.destroy id) = .ok (s', .unit) ∧ Small E (sp.setTx id none) n s' := by
  obtain ⟨hist, hs⟩ := h.sim
  have hne : s.txs id ≠ none := by
    intro hn
    have := hs.txs id
    rw [hn, hc] at this
    exact this.elim
  obtain ⟨tx, t, h1, h2, ht, h3⟩ := hs.tx hne
  obtain ⟨nd, hn, _⟩ := ht
  have e1 : step E s (.destroy id) = .ok (s.setTx id none, .unit) := by
    simp only [step, h2, Res.bind_ok, txDestroy, Tx.node, hn]; rfl
  exact ⟨_, e1, ⟨hist, hs.set id (a := none) (b := none) trivial⟩, h.rev, h.one, h.size⟩

theorem small_commit {E : Env} (hE : EnvOk E) (hcfg : E.cfg.maxFile = 0x7ffff000 ∧ E.cfg.maxFiles = 0x7fff) {sp : SpecDb} {n : Nat} {s : Sys}
    (h : Small E sp n s) (id : Nat) {l : List (B32 × Bytes)} (hc : sp.txs id = some (Contents.ofList l)) (hl : ∀ p ∈ l, p.2.length ≤ 255)
    (hn : n + 408 * l.length + 76 ≤ 2147479552) :
    ∃ s' h', step E s (.commit id) = .ok (s', .unit) ∧
      Small E { sp with hist := Contents.ofList l :: sp.hist, root := h' } (n + 408 * l.length + 76) s' := by
  obtain ⟨hist, hs⟩ := h.sim
  have hne : s.txs id ≠ none := by
    intro hn
    have := hs.txs id
    rw [hn, hc] at this
    exact this.elim
  obtain ⟨tx, t, h1, h2, ht, h3⟩ := hs.tx hne
  rw [hc] at h3
  have hf : Contents.ofList l = t.find := Option.some.inj h3
  have hsz := h.size
  have hsh : Shows s.db tx (Contents.ofList l) := hf ▸ ht.shows hs.db
  have hcan : CanCommit E s.db tx := by
    refine canCommit_of hs.db ht hsh (ofList_vals hl) (l.map (·.1)) ofList_keys ?_
    have : (s.db.store.files.getLastD []).length = lastLen s.db.store.files := by
      rw [List.getLastD_eq_getLast?]; rfl
    simp only [HasRoom, hcfg.1, hcfg.2, List.length_map, h.one, this]
    omega
  obtain ⟨hv, hcap⟩ := canCommit_tree hs.db ht hcan
  obtain ⟨db', tx', e3, hd', ht', hcm, hh, hrv⟩ := txCommit_ok hE hs.db ht hv hcap
  have e1 : step E s (.commit id) = .ok (({ s with db := db' } : Sys).setTx id (some tx'), .unit) := by
    simp only [step, h2, Res.bind_ok, e3, Res.pure_eq]; rfl
  have hb : t.bytes ≤ 408 * l.length := by
    have := Top.bytes_le ht.top hv (ks := l.map (·.1)) (fun k hk => by
      refine ofList_keys k ?_
      rw [hf]
      intro hn
      rw [hn] at hk; cases hk)
    simpa using this
  have hfit := hcm.fits (by rw [hcfg.1]; omega)
  obtain ⟨sp', ⟨h', _, hsp⟩, _, hsim⟩ := hs.commit hd' hcm.ext hh ht.top
  refine ⟨_, h', e1, ⟨t :: hist, ?_⟩, by simp [Sys.setTx, hrv, h.rev], hfit.1.trans h.one, ?_⟩
  · rw [hf, ← hsp]
    exact hsim.keep (id := id) (c := t.find) (by rw [hsp]; show sp.txs id = _; rw [hc, hf]) ht' rfl
  · have := hfit.2.1
    simp only [Sys.setTx]; omega

/-- The transaction of another handle is not touched. -/
theorem SpecDb.setTx_other {sp : SpecDb} {i j : Nat} (h : i ≠ j) (c : Option Contents) : (sp.setTx j c).txs i = sp.txs i := if_neg h

theorem SpecDb.setTx_self {sp : SpecDb} {i : Nat} (c : Option Contents) : (sp.setTx i c).txs i = c := if_pos rfl

/-- `urkel_insert` on a small database. -/
theorem small_insert1 {E : Env} (hE : EnvOk E) (hcfg : E.cfg.maxFile = 0x7ffff000 ∧ E.cfg.maxFiles = 0x7fff) {sp : SpecDb} {n : Nat} {s : Sys}
    (h : Small E sp n s) (hid : s.txs 0 = none) {l : List (B32 × Bytes)} (hc : sp.last = Contents.ofList l)
    (k : B32) (v : Bytes) (hl : ∀ p ∈ l ++ [(k, v)], p.2.length ≤ 255) (hn : n + 408 * (l.length + 1) + 76 ≤ 2147479552) :
    ∃ s' sp', step E s (.insert1 k v) = .ok (s', .unit) ∧ Small E sp' (n + 408 * (l.length + 1) + 76) s' ∧ s'.txs 0 = none ∧
      sp'.last = Contents.ofList (l ++ [(k, v)]) := by
  obtain ⟨s1, e1, h1⟩ := small_create h 0
  obtain ⟨s2, e2, h2⟩ := small_insert h1 0 (SpecDb.setTx_self _) k v (by have := hl (k, v) (by simp); simp only at this; omega)
  obtain ⟨s3, r3, e3, h3⟩ := small_commit hE hcfg h2 0 (l := l ++ [(k, v)]) (by rw [SpecDb.setTx_self, ofList_snoc, hc]) hl
    (by simp only [List.length_append, List.length_singleton]; omega)
  obtain ⟨s4, e4, h4⟩ := small_destroy h3 0 rfl
  refine ⟨s4, _, ?_, by simpa using h4, ?_, rfl⟩
  · rw [(C49_one_shot E s 0 hid k v none).2.2.2.1]
    simp only [around, thenCommit, e1, Res.bind_ok, e2, e3, e4]
    rfl
  · obtain ⟨hist, hs⟩ := h4.sim
    have := hs.txs 0
    rw [SpecDb.setTx_self] at this
    cases hx : s4.txs 0 with
    | none => rfl
    | some t => rw [hx] at this; exact this.elim

theorem small_new (E : Env) (hE : EnvOk E) : ∃ s, Started E s ∧ Small E SpecDb.new 0 s := by
  obtain ⟨s0, h0, _, hf⟩ := started_exists E B32.zero
  have hrv : s0.db.revert = false := (Exec.start h0).revert (by simp [NoInject])
  obtain ⟨sp, hist, hx, hs⟩ := exec_sim hE (.start h0)
  have key : ∀ {tr : List (Op × Ret)}, SpecExec E.H SpecDb.new tr sp → tr = [] → sp = SpecDb.new := by
    intro tr hx he
    cases hx with
    | nil => rfl
    | snoc h _ => simp at he
  have := key hx rfl
  subst this
  exact ⟨s0, h0, ⟨hist, hs⟩, hrv, by rw [hf]; rfl, by rw [hf]; exact Nat.le_refl _⟩

/-- C60 is false for `urkel_insert`: let two threads insert different keys into a new
database. There is an interleaving of the transaction calls that the two `urkel_insert` make
(each of which is atomic by C59) such that both report success, and then `urkel_get` of the
first key reports ENOTFOUND; if one of the two is made after the other, in either order, it
returns the value. -/
theorem C60_lost_update {E : Env} (hE : EnvOk E) (hcfg : E.cfg = realCfg) {k1 k2 : B32} (hk : k1 ≠ k2) {v1 v2 : Bytes}
    (hv1 : v1.length ≤ 255) (hv2 : v2.length ≤ 255) :
    ∃ s, Started E s ∧
      (∃ ops s' s'', Interleaves (insertCalls 1 k1 v1) (insertCalls 2 k2 v2) ops ∧ Seq E s (ops.map fun op => (op, Ret.unit)) s' ∧
        step E s' (.get1 k1 none) = .ok (s'', .fail .ENOTFOUND)) ∧
      (∃ s' s'', Seq E s [(.insert1 k1 v1, .unit), (.insert1 k2 v2, .unit)] s' ∧ step E s' (.get1 k1 none) = .ok (s'', .bytes v1)) ∧
      (∃ s' s'', Seq E s [(.insert1 k2 v2, .unit), (.insert1 k1 v1, .unit)] s' ∧ step E s' (.get1 k1 none) = .ok (s'', .bytes v1)) := by
  have hcfg : E.cfg.maxFile = 0x7ffff000 ∧ E.cfg.maxFiles = 0x7fff := by rw [hcfg]; exact ⟨rfl, rfl⟩
  obtain ⟨s, hst, h0⟩ := small_new E hE
  have hno : s.txs 0 = none := by obtain ⟨_, _, _, _, rfl⟩ := hst; rfl
  have one : ∀ {k : B32} {v : Bytes}, v.length ≤ 255 → ∀ p ∈ [(k, v)], p.2.length ≤ 255 := by
    intro k v hv p hp; rw [List.mem_singleton.1 hp]; exact hv
  refine ⟨s, hst, ?_, ?_, ?_⟩
  · obtain ⟨s1, e1, h1⟩ := small_create h0 1
    obtain ⟨s2, e2, h2⟩ := small_create h1 2
    obtain ⟨s3, e3, h3⟩ := small_insert h2 1 rfl k1 v1 (by omega)
    obtain ⟨s4, e4, h4⟩ := small_insert h3 2 rfl k2 v2 (by omega)
    obtain ⟨s5, r5, e5, h5⟩ := small_commit hE hcfg h4 1 (l := [(k1, v1)]) rfl (one hv1) (by simp)
    obtain ⟨s6, r6, e6, h6⟩ := small_commit hE hcfg h5 2 (l := [(k2, v2)]) rfl (one hv2) (by simp)
    obtain ⟨s7, e7, h7⟩ := small_destroy h6 1 rfl
    obtain ⟨s8, e8, h8⟩ := small_destroy h7 2 rfl
    obtain ⟨hist, hs⟩ := h8.sim
    refine ⟨[.create 1 none, .create 2 none, .insert 1 k1 v1, .insert 2 k2 v2, .commit 1, .commit 2, .destroy 1, .destroy 2], s8, s8, ?_, ?_, ?_⟩
    · exact .left _ (.right _ (.left _ (.right _ (.left _ (.right _ (.left _ (.right _ .nil)))))))
    · exact .cons e1 (.cons e2 (.cons e3 (.cons e4 (.cons e5 (.cons e6 (.cons e7 (.cons e8 (.nil _))))))))
    · rw [get1_last hs h8.rev]
      simp [SpecDb.last, SpecDb.setTx, Contents.getRet, Contents.ofList, Contents.set, Contents.empty, hk]
  · obtain ⟨s1, sp1, e1, h1, n1, l1⟩ := small_insert1 hE hcfg h0 hno (l := []) rfl k1 v1 (one hv1) (by simp)
    obtain ⟨s2, sp2, e2, h2, n2, l2⟩ := small_insert1 hE hcfg h1 n1 (l := [(k1, v1)]) l1 k2 v2
      (by intro p hp; rcases List.mem_append.1 hp with hp | hp; exact one hv1 p hp; exact one hv2 p hp) (by simp)
    obtain ⟨hist, hs⟩ := h2.sim
    refine ⟨s2, s2, .cons e1 (.cons e2 (.nil _)), ?_⟩
    rw [get1_last hs h2.rev, l2]
    simp [Contents.getRet, Contents.ofList, Contents.set, hk]
  · obtain ⟨s1, sp1, e1, h1, n1, l1⟩ := small_insert1 hE hcfg h0 hno (l := []) rfl k2 v2 (one hv2) (by simp)
    obtain ⟨s2, sp2, e2, h2, n2, l2⟩ := small_insert1 hE hcfg h1 n1 (l := [(k2, v2)]) l1 k1 v1
      (by intro p hp; rcases List.mem_append.1 hp with hp | hp; exact one hv2 p hp; exact one hv1 p hp) (by simp)
    obtain ⟨hist, hs⟩ := h2.sim
    refine ⟨s2, s2, .cons e1 (.cons e2 (.nil _)), ?_⟩
    rw [get1_last hs h2.rev, l2]
    simp [Contents.getRet, Contents.ofList, Contents.set]

example : EnvOk toyEnv ∧ toyEnv.cfg = realCfg ∧ keyOf 1 ≠ keyOf 3 := ⟨toyEnv_ok, rfl, by decide⟩

/-! ### What is atomic -/

theorem run_keeps {E : Env} (hE : EnvOk E) {id : Nat} {s s' : Sys} {ops : List Op} (h : Run E s ops s') : (∀ op ∈ ops, ¬ op.Changes id) →
    ∀ {sp hist}, Sim E s sp hist → ∃ sp' hist', Sim E s' sp' hist' ∧ sp'.txs id = sp.txs id := by
  induction h with
  | nil => intro _ sp hist hs; exact ⟨sp, hist, hs, rfl⟩
  | cons ha he _ ih =>
    intro hno sp hist hs
    obtain ⟨sp1, hist1, h1, h2⟩ := hs.next hE ha he
    obtain ⟨sp2, hist2, h3, h4⟩ := ih (fun op hm => hno op (List.mem_cons_of_mem _ hm)) h2
    exact ⟨sp2, hist2, h3, h4.trans (h1.keeps (hno _ List.mem_cons_self))⟩

/-- C60 for the one-shot reads: let `urkel_get`, `urkel_has` or `urkel_prove` create its
transaction in the state `s`, and let other threads make whatever calls before it reads: it
returns what it would have returned if it had been made alone in the state `s`. -/
theorem C60_reads_partial {E : Env} (hE : EnvOk E) {s s1 s2 : Sys} (hr : Reachable E s) {id : Nat} {h : Option B32}
    (hcr : step E s (.create id h) = .ok (s1, .unit)) {ops : List Op} (hrun : Run E s1 ops s2) (hno : ∀ op ∈ ops, ¬ op.Changes id) (k : B32) :
    (∃ r a b, step E s2 (.get id k) = .ok (a, r) ∧ step E s (.get1 k h) = .ok (b, r)) ∧
    (∃ r a b, step E s2 (.has id k) = .ok (a, r) ∧ step E s (.has1 k h) = .ok (b, r)) ∧
    (∃ r a b, step E s2 (.prove id k) = .ok (a, r) ∧ step E s (.prove1 k h) = .ok (b, r)) := by
  obtain ⟨sp, hist, hs⟩ := hr.sim hE
  obtain ⟨db1, r1, e1, hs1, _, hc⟩ := create_read hE hs h
  rcases hc with ⟨tx, t, rfl, ht, hsn⟩ | ⟨rfl, _⟩
  swap
  · simp only [step, e1, Res.bind_ok] at hcr
    cases hcr
  have hcr2 : step E s (.create id h) = .ok (({ s with db := db1 } : Sys).setTx id (some tx), .unit) := by
    simp only [step, e1, Res.bind_ok]; rfl
  rw [hcr2] at hcr
  cases hcr
  have hs1' := hs1.set id (a := some tx) (b := some t.find) ⟨t, ht, rfl⟩
  obtain ⟨sp2, hist2, hs2, e2⟩ := run_keeps hE hrun hno hs1'
  rw [SpecDb.setTx_self] at e2
  have hne : s2.txs id ≠ none := by
    intro hn
    have := hs2.txs id
    rw [hn, e2] at this
    exact this.elim
  obtain ⟨tx2, t2, g1, g2, ht2, g3⟩ := hs2.tx hne
  rw [e2] at g3
  have : t = t2 := find_inj ht.top ht2.top (Option.some.inj g3)
  subst this
  have ht' := ht
  obtain ⟨nd, hnd, _⟩ := ht'
  refine ⟨?_, ?_, ?_⟩
  · have hg : txGet s2.db tx2 k = txGet db1 tx k := by rw [ht2.shows hs2.db, ht.shows hs1.db]
    have hsafe : ∃ r, catchErr (txGet db1 tx k) = .ok r := by
      rw [ht.shows hs1.db]; unfold Contents.read; cases t.find k <;> exact ⟨_, rfl⟩
    obtain ⟨r, hr⟩ := hsafe
    refine ⟨.ofBytes r, s2, { s with db := db1 }, ?_, ?_⟩
    · simp only [step, g2, Res.bind_ok, hg, hr]; rfl
    · simp only [step, urkelGet, e1, Res.bind_ok, hr, txDestroy, Tx.node, hnd, Res.pure_eq]
  · have hsafe : ∃ r, catchErr (txHas db1 tx k) = .ok r := by
      rw [txHas_ok hs1.db ht]; unfold hasRes; cases t.find k <;> exact ⟨_, rfl⟩
    have hg : txHas s2.db tx2 k = txHas db1 tx k := by rw [txHas_ok hs2.db ht2, txHas_ok hs1.db ht]
    obtain ⟨r, hr⟩ := hsafe
    refine ⟨.ofUnit r, s2, { s with db := db1 }, ?_, ?_⟩
    · simp only [step, g2, Res.bind_ok, hg, hr]; rfl
    · simp only [step, urkelHas, e1, Res.bind_ok, hr, txDestroy, Tx.node, hnd, Res.pure_eq]
  · obtain ⟨x, raw, ep, hx, rfl, _⟩ := txProve_ok hs1.db ht k
    obtain ⟨y, raw2, ep2, hy, rfl, _⟩ := txProve_ok hs2.db ht2 k
    obtain ⟨nx, hnx, _⟩ := hx
    refine ⟨.bytes (encProof (proveSpec E.H k t 0)), s2.setTx id (some y), { s with db := db1 }, ?_, ?_⟩
    · simp only [step, g2, Res.bind_ok, ep2, catchErr]; rfl
    · simp only [step, urkelProve, e1, Res.bind_ok, ep, catchErr, txDestroy, Tx.node, hnx, Res.pure_eq]; rfl

/-- Calls that change what a new transaction sees. -/
def Op.Publishes : Op → Prop
  | .commit _ | .insert1 _ _ | .remove1 _ | .inject _ | .reopen _ => True
  | _ => False

theorem SpecStep.quiet {H : HashFn} {s s' : SpecDb} {op : Op} {r : Ret} (h : SpecStep H s op r s') (hn : ¬ op.Publishes) : s'.hist = s.hist := by
  cases op with
  | root => rw [h.2]
  | inject h' => exact (hn trivial).elim
  | create i x => rcases h with ⟨c, _, _, e⟩ | ⟨_, _, e⟩ <;> rw [e] <;> rfl
  | destroy i => rw [h.2]; rfl
  | clear i => rw [h.2]; rfl
  | txRoot i => obtain ⟨_, _, _, _, _, e⟩ := h; rw [e]
  | txInject i x => rcases h with ⟨c, _, _, e⟩ | ⟨_, _, e⟩ <;> rw [e] <;> rfl
  | get i k => obtain ⟨_, _, _, e⟩ := h; rw [e]
  | has i k => obtain ⟨_, _, _, e⟩ := h; rw [e]
  | insert i k v => obtain ⟨_, _, _, _, e⟩ := h; rw [e]; rfl
  | remove i k => obtain ⟨_, _, _, _, e⟩ := h; rw [e]; rfl
  | prove i k => obtain ⟨_, _, _, _, _, e⟩ := h; rw [e]
  | commit i => exact (hn trivial).elim
  | reopen rand => exact (hn trivial).elim
  | get1 k x => rw [h.2]
  | has1 k x => rw [h.2]
  | prove1 k x => rw [h.2]
  | insert1 k v => exact (hn trivial).elim
  | remove1 k => exact (hn trivial).elim

/-- Runs in which nothing is published and transaction `id` is not changed. -/
theorem run_quiet {E : Env} (hE : EnvOk E) {id : Nat} {s s' : Sys} {ops : List Op} (h : Run E s ops s') :
    (∀ op ∈ ops, ¬ op.Changes id ∧ ¬ op.Publishes) → ∀ {sp hist tr}, Sim E s sp hist → Exec E tr s → NoInject tr →
      ∃ sp' hist' tr', Sim E s' sp' hist' ∧ Exec E tr' s' ∧ NoInject tr' ∧ sp'.txs id = sp.txs id ∧ sp'.last = sp.last := by
  induction h with
  | nil => intro _ sp hist tr hs hx hn; exact ⟨sp, hist, tr, hs, hx, hn, rfl, rfl⟩
  | @cons s s1 s2 op ops r ha he _ ih =>
    intro hno sp hist tr hs hx hn
    obtain ⟨sp1, hist1, h1, h2⟩ := hs.next hE ha he
    obtain ⟨n1, n2⟩ := hno op (.head _)
    obtain ⟨sp2, hist2, tr2, h3, h4, h5, h6, h7⟩ := ih (fun op hm => hno op (.tail _ hm)) h2 (hx.step ha he) (by
      intro a b hm
      rcases List.mem_append.1 hm with hm | hm
      · exact hn a b hm
      · have := List.mem_singleton.1 hm
        cases this
        exact n2 trivial)
    exact ⟨sp2, hist2, tr2, h3, h4, h5, h6.trans (h1.keeps n1), h7.trans (by unfold SpecDb.last; rw [h1.quiet n2])⟩

/-- C60 for the one-shot writes, as far as it is true: let `urkel_insert` or `urkel_remove`
create its transaction (state `s`), change it, and commit it (from `s4` to `s5`), and let
other threads make calls in between. If none of those publishes anything (commits, injects
or reopens), the call takes effect at its commit: `urkel_get` then returns what it returned
just before, but for the one key.
Missing: other threads that commit in between, when the claim is false
(`C60_lost_update`). -/
theorem C60_writes_partial {E : Env} (hE : EnvOk E) {tr : List (Op × Ret)} {s s1 s2 s3 s4 s5 : Sys} (hx : Exec E tr s) (hn : NoInject tr)
    {id : Nat} (hcr : step E s (.create id none) = .ok (s1, .unit))
    {ops : List Op} (hrun : Run E s1 ops s2) (hno : ∀ op ∈ ops, ¬ op.Changes id ∧ ¬ op.Publishes)
    {op : Op} {k : B32} {x : Option Bytes} (hop : (∃ v, op = .insert id k v ∧ x = some v) ∨ (op = .remove id k ∧ x = none))
    (hch : step E s2 op = .ok (s3, .unit))
    {ops' : List Op} (hrun' : Run E s3 ops' s4) (hno' : ∀ op ∈ ops', ¬ op.Changes id ∧ ¬ op.Publishes)
    (hal : Allowed E s4 (.commit id)) (hcm : step E s4 (.commit id) = .ok (s5, .unit)) (k' : B32) :
    ∃ r a b, step E s4 (.get1 k' none) = .ok (a, r) ∧
      step E s5 (.get1 k' none) = .ok (b, if k' = k then Contents.getRet (fun _ => x) k else r) := by
  have snoc : ∀ {tr s s' op r}, Exec E tr s → NoInject tr → Allowed E s op → step E s op = .ok (s', r) → (∀ h, op ≠ .inject h) →
      ∃ tr', Exec E tr' s' ∧ NoInject tr' := by
    intro tr s s' op r hx hn ha he hni
    refine ⟨_, hx.step ha he, fun a b hm => ?_⟩
    rcases List.mem_append.1 hm with hm | hm
    · exact hn a b hm
    · have := List.mem_singleton.1 hm
      exact hni a (congrArg Prod.fst this).symm
  obtain ⟨sp, hist, _, hs⟩ := exec_sim hE hx
  obtain ⟨e0, ht0⟩ := create_last hs (hx.revert hn)
  have hcr2 : step E s (.create id none) = .ok (s.setTx id (some ⟨some s.db.store.state.rootNode⟩), .unit) := by
    simp only [step, e0, Res.bind_ok]; rfl
  rw [hcr2] at hcr
  cases hcr
  obtain ⟨tr1, x1, n1⟩ := snoc (op := .create id none) hx hn trivial hcr2 (fun _ h => nomatch h)
  have hs1 := hs.set id (a := some ⟨some s.db.store.state.rootNode⟩) (b := some sp.last) ⟨_, ht0, by rw [hs.last]⟩
  obtain ⟨sp2, hist2, tr2, hs2, x2, n2, t2, l2⟩ := run_quiet hE hrun hno hs1 x1 n1
  rw [SpecDb.setTx_self] at t2
  have l2 : sp2.last = sp.last := l2
  have hid2 : s2.txs id ≠ none := by
    intro hn
    have := hs2.txs id
    rw [hn, t2] at this
    exact this.elim
  have hal2 : Allowed E s2 op := by
    rcases hop with ⟨v, rfl, rfl⟩ | ⟨rfl, rfl⟩ <;> exact hid2
  obtain ⟨sp3, hist3, hst, hs3⟩ := hs2.next hE hal2 hch
  have hsp3 : sp3.txs id = some (sp.last.set k x) ∧ sp3.last = sp.last := by
    rcases hop with ⟨v, rfl, rfl⟩ | ⟨rfl, rfl⟩
    · obtain ⟨c, c', h1, h2, rfl⟩ := hst
      rw [t2] at h1; cases h1
      unfold InsertTo at h2
      split at h2
      · obtain ⟨_, rfl⟩ := h2
        exact ⟨SpecDb.setTx_self _, l2⟩
      · exact nomatch h2.1
    · obtain ⟨c, c', h1, h2, rfl⟩ := hst
      rw [t2] at h1; cases h1
      unfold RemoveTo at h2
      split at h2
      · obtain ⟨_, rfl⟩ := h2
        exact ⟨SpecDb.setTx_self _, l2⟩
      · exact nomatch h2.1
  obtain ⟨tr3, x3, n3⟩ := snoc x2 n2 hal2 hch (by rcases hop with ⟨v, rfl, _⟩ | ⟨rfl, _⟩ <;> exact fun _ h => nomatch h)
  obtain ⟨sp4, hist4, tr4, hs4, x4, n4, t4, l4⟩ := run_quiet hE hrun' hno' hs3 x3 n3
  rw [hsp3.1] at t4
  rw [hsp3.2] at l4
  obtain ⟨sp5, hist5, ⟨c, h1, _, ⟨_, _, rfl⟩⟩, hs5⟩ := hs4.next hE hal hcm
  rw [t4] at h1; cases h1
  obtain ⟨tr5, x5, n5⟩ := snoc x4 n4 hal hcm (fun _ h => nomatch h)
  refine ⟨_, _, s5, get1_last hs4 (x4.revert n4) k', (get1_last hs5 (x5.revert n5) k').trans ?_⟩
  rw [l4]
  congr 2
  by_cases hk : k' = k
  · rw [if_pos hk]
    subst hk
    cases x <;> simp [SpecDb.last, Contents.getRet, Contents.set]
  · rw [if_neg hk]
    simp [SpecDb.last, Contents.getRet, Contents.set, hk]

/-- A run that meets the hypotheses of `C60_writes_partial` and of `C60_reads_partial`: while
one thread is in `urkel_insert` with transaction 1, another opens transaction 2 and inserts
into it. -/
example : ∃ s s1 s2 s3 s4 s5, Exec toyEnv [] s ∧ NoInject [] ∧ step toyEnv s (.create 1 none) = .ok (s1, .unit) ∧
    Run toyEnv s1 [.create 2 none] s2 ∧ step toyEnv s2 (.insert 1 (keyOf 1) [7]) = .ok (s3, .unit) ∧
    Run toyEnv s3 [.insert 2 (keyOf 3) [9]] s4 ∧ (∀ op ∈ [Op.create 2 none, .insert 2 (keyOf 3) [9]], ¬ op.Changes 1 ∧ ¬ op.Publishes) ∧
    Allowed toyEnv s4 (.commit 1) ∧ step toyEnv s4 (.commit 1) = .ok (s5, .unit) := by
  obtain ⟨s, hst, h0⟩ := small_new toyEnv toyEnv_ok
  obtain ⟨s1, e1, h1⟩ := small_create h0 1
  obtain ⟨s2, e2, h2⟩ := small_create h1 2
  obtain ⟨s3, e3, h3⟩ := small_insert h2 1 rfl (keyOf 1) [7] (by decide)
  have hne : s3.txs 2 ≠ none := by
    obtain ⟨hist, hs⟩ := h3.sim
    intro hn
    have := hs.txs 2
    rw [hn] at this
    exact this.elim
  obtain ⟨s4, e4, h4⟩ := small_insert h3 2 rfl (keyOf 3) [9] (by decide)
  obtain ⟨s5, r5, e5, h5⟩ := small_commit toyEnv_ok ⟨rfl, rfl⟩ h4 1 (l := [(keyOf 1, [7])]) rfl (by simp) (by simp)
  refine ⟨s, s1, s2, s3, s4, s5, .start hst, by simp [NoInject], e1, .cons trivial e2 (.nil _), e3,
    .cons (op := .insert 2 (keyOf 3) [9]) hne e4 (.nil _), ?_, ?_, e5⟩
  · intro op hop
    rcases List.mem_cons.1 hop with rfl | hop
    · simp [Op.Changes, Op.Publishes]
    · rw [List.mem_singleton.1 hop]; simp [Op.Changes, Op.Publishes]
  · obtain ⟨hist, hs⟩ := h4.sim
    have hid : s4.txs 1 ≠ none := by
      intro hn
      have := hs.txs 1
      rw [hn] at this
      exact this.elim
    obtain ⟨tx, t, g1, _, ht, g3⟩ := hs.tx hid
    have hf : t.find = Contents.ofList [(keyOf 1, [7])] := (Option.some.inj g3).symm
    have hsh : Shows s4.db tx (Contents.ofList [(keyOf 1, [7])]) := hf ▸ ht.shows hs.db
    refine ⟨tx, g1, canCommit_of hs.db ht hsh (ofList_vals (by simp)) [keyOf 1] ofList_keys ?_⟩
    have hl : (s4.db.store.files.getLastD []).length = lastLen s4.db.store.files := by
      rw [List.getLastD_eq_getLast?]; rfl
    have hz := h4.size
    simp only [HasRoom, toyEnv, realCfg, h4.one, hl, List.length_singleton]
    omega

end Urkel
