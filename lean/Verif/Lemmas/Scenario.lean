import Verif.Lemmas.Log
/-
Building concrete executions for the examples: a small database with one
transaction (handle 0).
-/
namespace Urkel
open PTree

/-- A small one-file database, reached by a logged execution without inject,
whose transaction 0 shows the list `l`. -/
structure Good (E : Env) (log : List (B32 × Contents)) (l : List (B32 × Bytes)) (n : Nat) (s : Sys) : Prop where
  logged : Logged E log s
  tx : ∃ tx, s.txs 0 = some tx ∧ Shows s.db tx (Contents.ofList l)
  short : ∀ p ∈ l, p.2.length ≤ 255
  rev : s.db.revert = false
  one : s.db.store.files.length = 1
  size : lastLen s.db.store.files ≤ n

theorem ofList_snoc (l : List (B32 × Bytes)) (p : B32 × Bytes) :
    Contents.ofList (l ++ [p]) = (Contents.ofList l).set p.1 (some p.2) := by
  simp [Contents.ofList]

theorem Good.aligned {E : Env} (hE : EnvOk E) {log : List (B32 × Contents)} {l : List (B32 × Bytes)} {n : Nat} {s : Sys}
    (h : Good E log l n s) : (s.db.store.files.getLastD []).length % 38 = 0 := by
  obtain ⟨sp, hist, hs⟩ := h.logged.reachable.sim hE
  have := hs.db.inv.ali h.one
  rw [List.getLastD_eq_getLast?]; exact this

theorem good_create {E : Env} (hE : EnvOk E) {log : List (B32 × Contents)} {s : Sys} (hl : Logged E log s)
    (hrv : s.db.revert = false) (h1 : s.db.store.files.length = 1) {l : List (B32 × Bytes)}
    (hs : ∀ p ∈ l, p.2.length ≤ 255) (hh : (log.map Prod.snd).headD Contents.empty = Contents.ofList l) :
    ∃ s', step E s (.create 0 none) = .ok (s', .unit) ∧ Good E log l (lastLen s.db.store.files) s' := by
  obtain ⟨sp, hist, hsim, e1, _⟩ := hl.sim hE
  have e2 : txCreate E s.db none = .ok (s.db, .ok ⟨some s.db.store.state.rootNode⟩) := by
    simp only [txCreate]; rw [if_neg (by simp [hrv])]
  have e3 : step E s (.create 0 none) = .ok (s.setTx 0 (some ⟨some s.db.store.state.rootNode⟩), .unit) := by
    simp only [step, e2, Res.bind_ok]; rfl
  refine ⟨_, e3, .other (op := .create 0 none) hl trivial e3 (Or.inr fun c hc => hc.elim), ⟨_, by simp [Sys.setTx]; rfl, ?_⟩, hs, hrv, h1,
    Nat.le_refl _⟩
  obtain ⟨a, b⟩ := RootIs.tx hsim.db.inv hsim.db.inv.root (SInv.head_mem hist)
  have ht : TxIs E s.db ⟨some s.db.store.state.rootNode⟩ (hist.headD .null) := ⟨_, rfl, hsim.db.inv.root.repr, a, b⟩
  have := ht.shows hsim.db
  rw [← hsim.last] at this
  unfold SpecDb.last at this
  rw [e1, hh] at this
  exact this

theorem good_new {E : Env} (hE : EnvOk E) : ∃ s, Good E [] [] 0 s := by
  obtain ⟨s0, h0, _, hf⟩ := started_exists E B32.zero
  have hrv : s0.db.revert = false := (Exec.start h0).revert (by simp [NoInject])
  obtain ⟨s, _, h⟩ := good_create hE (.start h0) hrv (by rw [hf]; rfl) (l := []) (by simp) rfl
  rw [hf] at h
  exact ⟨s, h⟩

theorem good_insert {E : Env} (hE : EnvOk E) {log : List (B32 × Contents)} {l : List (B32 × Bytes)} {n : Nat} {s : Sys}
    (h : Good E log l n s) (k : B32) (v : Bytes) (hv : v.length ≤ 255) :
    ∃ s', step E s (.insert 0 k v) = .ok (s', .unit) ∧ Good E log (l ++ [(k, v)]) n s' := by
  obtain ⟨tx, htx, hsh⟩ := h.tx
  obtain ⟨hist, t, hd, ht⟩ := h.logged.reachable.tree hE htx
  obtain ⟨tx', e, ht'⟩ := txInsert_ok hd ht k (v := v) (by omega)
  have e1 : step E s (.insert 0 k v) = .ok (s.setTx 0 (some tx'), .unit) := by
    simp only [step, Sys.tx, htx, Res.bind_ok, e]; rfl
  refine ⟨_, e1, .other (op := .insert 0 k v) h.logged (by simp [Allowed, htx]) e1 (Or.inr fun c hc => hc.elim),
    ⟨tx', by simp [Sys.setTx], ?_⟩, ?_, h.rev, h.one, h.size⟩
  · rw [ofList_snoc, ← ht.find_eq hd hsh, ← (Top.insert ht.top k v).2]
    exact ht'.shows hd
  · intro p hp
    rcases List.mem_append.1 hp with hp | hp
    · exact h.short p hp
    · rw [List.mem_singleton.1 hp]; exact hv

theorem good_commit {E : Env} (hE : EnvOk E) (hc : E.cfg.maxFile = 0x7ffff000 ∧ E.cfg.maxFiles = 0x7fff) {log : List (B32 × Contents)} {l : List (B32 × Bytes)} {n : Nat} {s : Sys}
    (h : Good E log l n s) (hn : n + 408 * l.length + 76 ≤ 2147479552) :
    ∃ s', step E s (.commit 0) = .ok (s', .unit) ∧
      Good E ((dbRoot s'.db, Contents.ofList l) :: log) l (n + 408 * l.length + 76) s' ∧
      IsRoot E.H (Contents.ofList l) (dbRoot s'.db) := by
  obtain ⟨tx, htx, hsh⟩ := h.tx
  obtain ⟨hist, t, hd, ht⟩ := h.logged.reachable.tree hE htx
  have hf := ht.find_eq hd hsh
  have hsz := h.size
  have hcan : CanCommit E s.db tx := by
    refine canCommit_of hd ht hsh (ofList_vals h.short) (l.map (·.1)) ofList_keys ?_
    have : (s.db.store.files.getLastD []).length = lastLen s.db.store.files := by
      rw [List.getLastD_eq_getLast?]; rfl
    simp only [HasRoom, hc.1, hc.2, List.length_map, h.one, this]
    omega
  obtain ⟨hv, hcap⟩ := canCommit_tree hd ht hcan
  obtain ⟨db', tx', e3, hd', ht', hcm, hh, hrv⟩ := txCommit_ok hE hd ht hv hcap
  have e1 : step E s (.commit 0) = .ok (({ s with db := db' } : Sys).setTx 0 (some tx'), .unit) := by
    simp only [step, Sys.tx, htx, Res.bind_ok, e3, Res.pure_eq]; rfl
  have hb : t.bytes ≤ 408 * l.length := by
    have := Top.bytes_le ht.top hv (ks := l.map (·.1)) (fun k hk => by
      refine ofList_keys k ?_
      rw [← hf]
      intro hn
      rw [hn] at hk; cases hk)
    simpa using this
  have hfit := hcm.fits (by rw [hc.1]; omega)
  refine ⟨_, e1, ⟨.commit (op := .commit 0) h.logged ⟨tx, htx, hcan⟩ e1 ⟨tx, htx, hsh⟩, ⟨tx', by simp [Sys.setTx], ?_⟩,
    h.short, by simp [Sys.setTx, hrv, h.rev], ?_, ?_⟩, ?_⟩
  · rw [← hf]; exact ht'.shows hd'
  · exact hfit.1.trans h.one
  · have := hfit.2.1
    simp only [Sys.setTx]; omega
  · rw [← hf]; exact ⟨t, ht.top, rfl, hh.symm⟩

/-- The contents of the two commits of `demo2`. -/
def demoC1 : Contents := Contents.ofList [(keyOf 1, [7])]
def demoC2 : Contents := Contents.ofList [(keyOf 1, [7]), (keyOf 129, [])]

/-- Two commits with different roots: one key, then two. -/
theorem demo2 : ∃ (s : Sys) (h1 h2 : B32), Good toyEnv [(h2, demoC2), (h1, demoC1)] [(keyOf 1, [7]), (keyOf 129, [])] 2000 s ∧
    h1 ≠ h2 ∧ h1 ≠ B32.zero ∧ h2 ≠ B32.zero ∧ dbRoot s.db = h2 := by
  obtain ⟨s0, g0⟩ := good_new toyEnv_ok
  obtain ⟨s1, _, g1⟩ := good_insert toyEnv_ok g0 (keyOf 1) [7] (by decide)
  obtain ⟨s2, _, g2, r2⟩ := good_commit toyEnv_ok ⟨rfl, rfl⟩ g1 (by decide)
  obtain ⟨s3, _, g3⟩ := good_insert toyEnv_ok g2 (keyOf 129) [] (by decide)
  obtain ⟨s4, _, g4, r4⟩ := good_commit toyEnv_ok ⟨rfl, rfl⟩ g3 (by decide)
  have i1 : PTree.hash toyEnv.H (.leaf (keyOf 1) [7]) = dbRoot s2.db := by
    refine (IsRoot.iff (t := .leaf (keyOf 1) [7]) (Or.inr List.nil_prefix)).1 ?_
    have : (PTree.leaf (keyOf 1) [7]).find = Contents.ofList [(keyOf 1, [7])] := by
      funext k; simp [PTree.find, Contents.ofList, Contents.set, Contents.empty]
    rw [this]; exact r2
  have i2 : PTree.hash toyEnv.H (.node [] (.leaf (keyOf 1) [7]) (.leaf (keyOf 129) [])) = dbRoot s4.db := by
    have hw : PTree.WF [] (.node [] (.leaf (keyOf 1) [7]) (.leaf (keyOf 129) [])) :=
      ⟨⟨(keyOf 1).bits.tail, by decide +kernel⟩, ⟨(keyOf 129).bits.tail, by decide +kernel⟩⟩
    refine (IsRoot.iff (t := .node [] (.leaf (keyOf 1) [7]) (.leaf (keyOf 129) [])) (Or.inr hw)).1 ?_
    · have : (PTree.node [] (.leaf (keyOf 1) [7]) (.leaf (keyOf 129) [])).find = Contents.ofList [(keyOf 1, [7]), (keyOf 129, [])] := by
        funext k
        simp only [PTree.find, Contents.ofList, Contents.set, Contents.empty, List.foldl_cons, List.foldl_nil]
        by_cases h1 : k = keyOf 1
        · subst h1; simp [show keyOf 1 ≠ keyOf 129 by decide]
        · simp [h1]
      rw [this]; exact r4
  refine ⟨s4, dbRoot s2.db, dbRoot s4.db, ⟨g4.logged, g4.tx, g4.short, g4.rev, g4.one, Nat.le_trans g4.size (by decide)⟩, ?_, ?_, ?_, rfl⟩
  · rw [← i1, ← i2]; decide +kernel
  · rw [← i1]; decide +kernel
  · rw [← i2]; decide +kernel

end Urkel
