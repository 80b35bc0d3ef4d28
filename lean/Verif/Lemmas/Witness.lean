import Verif.Lemmas.Refine
import Verif.Spec.Map
/-
From reachable states to trees, and concrete reachable states for the examples
beside the theorems.
-/
namespace Urkel
open PTree

theorem snocInd {α : Type} {P : List α → Prop} (l : List α) (nil : P [])
    (append_singleton : ∀ l p, P l → P (l ++ [p])) : P l := by
  suffices h : ∀ l : List α, P l.reverse by simpa using h l.reverse
  intro l
  induction l with
  | nil => exact nil
  | cons a l ih => rw [List.reverse_cons]; exact append_singleton _ _ ih

theorem lookup_read (c : Contents) (k : B32) : lookupRes (c k) true = c.read k := by
  unfold Contents.read lookupRes; cases c k <;> rfl

theorem Reachable.next {E : Env} {s s' : Sys} {op : Op} {r : Ret} (h : Reachable E s) (ha : Allowed E s op)
    (e : step E s op = .ok (s', r)) : Reachable E s' := by
  obtain ⟨tr, h⟩ := h
  exact ⟨_, .step h ha e⟩

/-- A handle of a reachable state stands for a tree. -/
theorem Reachable.tree {E : Env} (hE : EnvOk E) {s : Sys} (h : Reachable E s) {id : Nat} {tx : Tx} (hid : s.txs id = some tx) :
    ∃ hist t, DInv E s.db hist ∧ TxIs E s.db tx t := by
  obtain ⟨sp, hist, hs⟩ := h.sim hE
  obtain ⟨tx', t, e1, _, ht, _⟩ := hs.tx (id := id) (by rw [hid]; simp)
  rw [hid] at e1; cases e1
  exact ⟨hist, t, hs.db, ht⟩

theorem TxIs.shows {E : Env} {db : Db} {hist : List PTree} (hd : DInv E db hist) {tx : Tx} {t : PTree}
    (ht : TxIs E db tx t) : Shows db tx t.find := fun k => by rw [txGet_ok hd ht, lookup_read]

theorem read_inj {c c' : Contents} (h : ∀ k, c.read k = c'.read k) : c = c' := by
  funext k
  have := h k
  unfold Contents.read at this
  cases h1 : c k <;> cases h2 : c' k <;> simp [h1, h2] at this <;> simp [this]

theorem TxIs.find_eq {E : Env} {db : Db} {hist : List PTree} (hd : DInv E db hist) {tx : Tx} {t : PTree}
    (ht : TxIs E db tx t) {c : Contents} (h : Shows db tx c) : t.find = c :=
  read_inj fun k => by rw [← ht.shows hd k, h k]

/-- Contents after inserting pairs one after the other. -/
def Contents.ofList (l : List (B32 × Bytes)) : Contents :=
  l.foldl (fun c p => c.set p.1 (some p.2)) Contents.empty

/-- Any list of pairs can be inserted into a transaction of a new database. -/
theorem reach_list {E : Env} (hE : EnvOk E) (l : List (B32 × Bytes)) (hl : ∀ p ∈ l, p.2.length ≤ 1023) :
    ∃ s tx, Reachable E s ∧ s.txs 0 = some tx ∧ Shows s.db tx (Contents.ofList l) ∧ s.db.store.files = [[]] ∧
      s.db.revert = false ∧ dbRoot s.db = B32.zero := by
  obtain ⟨s0, h0, _, hf0⟩ := started_exists E B32.zero
  have r0 : Reachable E s0 := ⟨[], .start h0⟩
  have key : ∀ l : List (B32 × Bytes), (∀ p ∈ l, p.2.length ≤ 1023) → ∃ s tx, Reachable E s ∧ s.txs 0 = some tx ∧
      Shows s.db tx (Contents.ofList l) ∧ s.db = s0.db := by
    intro l
    induction l using snocInd with
    | nil =>
      intro _
      obtain ⟨sp, hist, hs⟩ := r0.sim hE
      obtain ⟨rand, d, db, e, hdb⟩ := h0
      have hrev : s0.db.revert = false := by
        subst hdb
        unfold dbOpen at e
        obtain ⟨⟨d1, r1⟩, _, e⟩ := Res.bind_eq_ok.1 e
        cases r1 with
        | none => simp at e
        | some s1 => simp only [Res.pure_eq, Res.ok.injEq, Prod.mk.injEq, Except.ok.injEq] at e; rw [← e.2]
      have e1 : step E s0 (.create 0 none) = .ok (s0.setTx 0 (some ⟨some s0.db.store.state.rootNode⟩), .unit) := by
        simp only [step, txCreate]
        rw [if_neg (by simp [hrev])]
        rfl
      refine ⟨_, ⟨some s0.db.store.state.rootNode⟩, r0.next (op := .create 0 none) trivial e1, by simp [Sys.setTx], ?_, rfl⟩
      have hs0 := start_sim (E := E) (s := s0) ⟨rand, d, db, e, hdb⟩
      have := TxIs.shows (E := E) hs0.db (tx := ⟨some s0.db.store.state.rootNode⟩) (t := .null)
        ⟨_, rfl, hs0.db.inv.root.repr, Or.inl rfl, trivial⟩
      exact this
    | append_singleton l p ih =>
      intro hl
      obtain ⟨s, tx, hr, htx, hsh, hdb⟩ := ih (fun p hp => hl p (by simp [hp]))
      obtain ⟨hist, t, hd, ht⟩ := hr.tree hE htx
      have hf := ht.find_eq hd hsh
      obtain ⟨tx', e, ht'⟩ := txInsert_ok hd ht p.1 (v := p.2) (hl p (by simp))
      have e1 : step E s (.insert 0 p.1 p.2) = .ok (s.setTx 0 (some tx'), .unit) := by
        simp only [step, Sys.tx, htx, Res.bind_ok, e]; rfl
      refine ⟨_, tx', hr.next (by simp [Allowed, htx]) e1, by simp [Sys.setTx], ?_, hdb⟩
      have := ht'.shows hd
      rw [(Top.insert ht.top p.1 p.2).2, hf] at this
      simp only [Contents.ofList, List.foldl_append, List.foldl_cons, List.foldl_nil]
      exact this
  obtain ⟨s, tx, a, b, c, d⟩ := key l hl
  refine ⟨s, tx, a, b, c, by rw [d, hf0], ?_, ?_⟩
  · rw [d]
    obtain ⟨rand, _, db, e, rfl⟩ := h0
    unfold dbOpen at e
    obtain ⟨⟨d1, r1⟩, _, e⟩ := Res.bind_eq_ok.1 e
    cases r1 with
    | none => simp at e
    | some s1 => simp only [Res.pure_eq, Res.ok.injEq, Prod.mk.injEq, Except.ok.injEq] at e; rw [← e.2]
  · rw [d]
    have := (start_sim h0).root
    exact this.symm

/-- A reachable state can commit: the result is reachable and shows the same contents. -/
theorem reach_commit {E : Env} (hE : EnvOk E) {s : Sys} (h : Reachable E s) {id : Nat} {tx : Tx} (hid : s.txs id = some tx)
    (hc : CanCommit E s.db tx) {c : Contents} (hsh : Shows s.db tx c) :
    ∃ s' tx', step E s (.commit id) = .ok (s', .unit) ∧ Reachable E s' ∧ s'.txs id = some tx' ∧ Shows s'.db tx' c ∧
      s'.db.revert = s.db.revert ∧ IsRoot E.H c (dbRoot s'.db) := by
  obtain ⟨hist, t, hd, ht⟩ := h.tree hE hid
  have hf := ht.find_eq hd hsh
  obtain ⟨hv, hcap⟩ := canCommit_tree hd ht hc
  obtain ⟨db', tx', e3, hd', ht', hcm, hh, hrv⟩ := txCommit_ok hE hd ht hv hcap
  have e1 : step E s (.commit id) = .ok (({ s with db := db' } : Sys).setTx id (some tx'), .unit) := by
    simp only [step, Sys.tx, hid, Res.bind_ok, e3, Res.pure_eq]; rfl
  refine ⟨_, tx', e1, h.next (op := .commit id) ⟨tx, hid, hc⟩ e1, by simp [Sys.setTx], ?_, hrv, ?_⟩
  · rw [← hf]; exact ht'.shows hd'
  · rw [← hf]; exact ⟨t, ht.top, rfl, hh.symm⟩

/-- Guard of a commit in terms of the contents shown. -/
theorem canCommit_of {E : Env} {db : Db} {tx : Tx} {c : Contents} {hist : List PTree} (hd : DInv E db hist) {t : PTree}
    (ht : TxIs E db tx t) (hsh : Shows db tx c)
    (hv : ∀ k v, c k = some v → v.length ≤ 255) (ks : List B32) (hk : ∀ k, c k ≠ none → k ∈ ks)
    (hr : HasRoom E db.store.files (408 * ks.length + 76)) : CanCommit E db tx := by
  have hf := ht.find_eq hd hsh
  refine ⟨fun k v h => hv k v ?_, ks, fun k h => hk k ?_, hr⟩
  · rw [hsh k] at h
    unfold Contents.read at h
    cases hc : c k <;> simp [hc] at h
    simp [h]
  · rw [txHas_ok hd ht, hf] at h
    intro hc
    simp [hc, hasRes] at h

theorem ofList_vals {l : List (B32 × Bytes)} {n : Nat} (hl : ∀ p ∈ l, p.2.length ≤ n) :
    ∀ k v, Contents.ofList l k = some v → v.length ≤ n := by
  induction l using snocInd with
  | nil => intro k v h; simp [Contents.ofList, Contents.empty] at h
  | append_singleton l p ih =>
    intro k v h
    simp only [Contents.ofList, List.foldl_append, List.foldl_cons, List.foldl_nil, Contents.set] at h
    split at h
    · cases h; exact hl p (by simp)
    · exact ih (fun p hp => hl p (by simp [hp])) k v h

theorem ofList_keys {l : List (B32 × Bytes)} : ∀ k, Contents.ofList l k ≠ none → k ∈ l.map (·.1) := by
  induction l using snocInd with
  | nil => intro k h; simp [Contents.ofList, Contents.empty] at h
  | append_singleton l p ih =>
    intro k h
    simp only [Contents.ofList, List.foldl_append, List.foldl_cons, List.foldl_nil, Contents.set] at h
    split at h
    · next e => simp [e]
    · have := ih k h
      simp only [List.map_append, List.mem_append]; exact Or.inl this

/-- A new database can take a first commit of any short list of pairs. -/
theorem reach_committed {E : Env} (hE : EnvOk E) (hc : E.cfg = realCfg) (l : List (B32 × Bytes))
    (hl : ∀ p ∈ l, p.2.length ≤ 255) (hn : l.length ≤ 1000) :
    ∃ s tx, Reachable E s ∧ s.txs 0 = some tx ∧ Shows s.db tx (Contents.ofList l) ∧ s.db.revert = false ∧
      IsRoot E.H (Contents.ofList l) (dbRoot s.db) := by
  obtain ⟨s, tx, hr, htx, hsh, hf, hrv, _⟩ := reach_list hE l (fun p hp => by have := hl p hp; omega)
  obtain ⟨hist, t, hd, ht⟩ := hr.tree hE htx
  have hcan : CanCommit E s.db tx := by
    refine canCommit_of hd ht hsh (ofList_vals hl) (l.map (·.1)) ofList_keys ?_
    rw [hf]
    simp only [HasRoom, hc, realCfg, List.length_map, List.length_singleton]
    simp; omega
  obtain ⟨s', tx', _, a, b, c, d, e⟩ := reach_commit hE hr htx hcan hsh
  exact ⟨s', tx', a, b, c, by rw [d, hrv], e⟩

/-- A new database in which a short list of pairs was committed, and a new transaction on it. -/
theorem reach_snapshot {E : Env} (hE : EnvOk E) (hc : E.cfg = realCfg) (l : List (B32 × Bytes))
    (hl : ∀ p ∈ l, p.2.length ≤ 255) (hn : l.length ≤ 1000) :
    ∃ s db' tx, Reachable E s ∧ txCreate E s.db none = .ok (db', .ok tx) ∧ Shows db' tx (Contents.ofList l) := by
  obtain ⟨s, tx, hr, htx, hsh, hf, hrv, _⟩ := reach_list hE l (fun p hp => by have := hl p hp; omega)
  obtain ⟨hist, t, hd, ht⟩ := hr.tree hE htx
  have hcan : CanCommit E s.db tx := by
    refine canCommit_of hd ht hsh (ofList_vals hl) (l.map (·.1)) ofList_keys ?_
    rw [hf]
    simp only [HasRoom, hc, realCfg, List.length_map, List.length_singleton]
    simp; omega
  have hfe := ht.find_eq hd hsh
  obtain ⟨hv, hcap⟩ := canCommit_tree hd ht hcan
  obtain ⟨db', tx', e3, hd', ht', hcm, hh, hrv'⟩ := txCommit_ok hE hd ht hv hcap
  have e1 : step E s (.commit 0) = .ok (({ s with db := db' } : Sys).setTx 0 (some tx'), .unit) := by
    simp only [step, Sys.tx, htx, Res.bind_ok, e3, Res.pure_eq]; rfl
  obtain ⟨db'', r, ec, hd'', hsame, hcase⟩ := txCreate_ok hE hd' none
  rcases hcase with ⟨new, u, rfl, hu, huh, hnew, hrev⟩ | ⟨rfl, hno⟩
  · refine ⟨_, db'', new, hr.next (op := .commit 0) ⟨tx, htx, hcan⟩ e1, ec, ?_⟩
    have := hrev rfl (by rw [hrv', hrv])
    simp only [List.headD_cons] at this
    subst this
    rw [← hfe]; exact hnew.shows hd''
  · exact (hno t (by simp) (by rw [Option.getD_none, hh])).elim

/-! ### A concrete environment for the examples -/

/-- A toy environment: truncation as "hash", zero checksum, the real limits. -/
def toyEnv : Env where
  H d := ⟨(1 :: d ++ List.replicate 32 0).take 32, by simp⟩
  mac _ _ := List.replicate 20 0
  cfg := realCfg

theorem toyEnv_ok : EnvOk toyEnv := ⟨realCfg_ok, by intro k d; rfl⟩

/-- The key with 32 equal bytes. -/
def keyOf (b : UInt8) : B32 := ⟨List.replicate 32 b, by simp⟩

/-- A reachable state used in the examples: two keys, committed. -/
theorem demo : ∃ s tx, Reachable toyEnv s ∧ s.txs 0 = some tx ∧ txGet s.db tx (keyOf 1) = .ok [7] ∧
    txGet s.db tx (keyOf 129) = .ok [] ∧ txGet s.db tx (keyOf 3) = .err .ENOTFOUND ∧
    IsRoot toyEnv.H (Contents.ofList [(keyOf 1, [7]), (keyOf 129, [])]) (dbRoot s.db) ∧ s.db.revert = false := by
  obtain ⟨s, tx, hr, htx, hsh, hrv, hroot⟩ := reach_committed toyEnv_ok rfl [(keyOf 1, [7]), (keyOf 129, [])]
    (by simp) (by simp)
  refine ⟨s, tx, hr, htx, ?_, ?_, ?_, hroot, hrv⟩
  · rw [hsh]; rfl
  · rw [hsh]; rfl
  · rw [hsh]; rfl

end Urkel
