import Verif.Lemmas.Footprint
/-
The footprint of each operation, and programs that perform each call.
-/
namespace Urkel

theorem Mem.store_eq {m m' : Mem} (h1 : m .state = m' .state) (h2 : m .history = m' .history) (h3 : m .out = m' .out) :
    m'.sys.db.store = m.sys.db.store := by
  simp only [Mem.sys, h1, h2, h3]

theorem Mem.same_read {m m' : Mem} (h : m .out = m' .out) : SameRead m.sys.db.store m'.sys.db.store := by
  unfold SameRead
  simp only [Mem.sys, h, and_self]

theorem Sys.mem_tx (s : Sys) (n : Nat) : s.mem (.tx n) = s.txs n := rfl

theorem Mem.tx_eq {m m' : Mem} {x : Nat} (h : m (.tx x) = m' (.tx x)) : m'.sys.tx x = m.sys.tx x := by
  unfold Sys.tx
  have : m'.sys.txs x = m.sys.txs x := h.symm
  rw [this]

/-- `Sys.setTx` on the shared memory. -/
theorem Sys.setTx_mem (s : Sys) (x : Nat) (t : Option Tx) (v : Var) (hv : v ≠ .tx x) : (s.setTx x t).mem v = s.mem v := by
  cases v with
  | tx n =>
    show (if n = x then t else s.txs n) = s.txs n
    rw [if_neg (fun h => hv (by rw [h]))]
  | _ => rfl

theorem Sys.setTx_same (s : Sys) (x : Nat) (t : Option Tx) : (s.setTx x t).mem (.tx x) = t := by
  show (if x = x then t else s.txs x) = t
  rw [if_pos rfl]

/-- Changing a transaction only. -/
theorem setTx_post {m m' : Mem} {x : Nat} {t : Option Tx} (v : Var) (h : m v = m' v) :
    (m.sys.setTx x t).mem v = (m'.sys.setTx x t).mem v := by
  by_cases hv : v = .tx x
  · subst hv; rw [Sys.setTx_same, Sys.setTx_same]
  · rw [Sys.setTx_mem _ _ _ _ hv, Sys.setTx_mem _ _ _ _ hv, Mem.sys_mem, Mem.sys_mem, h]

/-- Changing the history only. -/
theorem hist_post {m : Mem} {c : List (B32 × Ptr)} {l : Meta} {v : Var} (hv : v ≠ .history) :
    Sys.mem { m.sys with db := { m.sys.db with store := m.sys.db.store.hist c l } } v = m v := by
  cases v <;> first | rfl | exact absurd rfl hv

/-- Nothing outside `changes` changes. -/
theorem footprint_changes {E : Env} {op : Op} {c : Call} (hc : CallOf op c) {m : Mem} (hp : c.taken op m) {s1 : Sys} {r : Ret}
    (e : step E m.sys op = .ok (s1, r)) (v : Var) (hv : v ∉ c.changes) : s1.mem v = m v := by
  cases hc with
  | root => cases e; rw [Mem.sys_mem]
  | inject h misses =>
    simp only [Call.changes, List.mem_cons, List.not_mem_nil, or_false, not_or] at hv
    simp only [step] at e
    obtain ⟨⟨db, x⟩, e1, e⟩ := Res.bind_eq_ok.1 e
    unfold dbInject hasHistory at e1
    obtain ⟨⟨s, ok⟩, e2, e1⟩ := Res.bind_eq_ok.1 e1
    obtain ⟨⟨s', n⟩, e3, e2⟩ := Res.bind_eq_ok.1 e2
    obtain ⟨c, l, hs⟩ := readHistory_hist e3
    cases n with
    | none => cases e2
    | some n =>
      cases e2; cases e1; cases e
      subst hs
      cases v <;> first | rfl | exact absurd rfl hv.1 | exact absurd rfl hv.2
  | create x h write misses =>
    have hv1 : v ≠ .tx x := by
      rintro rfl
      cases write <;> simp [Call.changes] at hv
    have key : ∀ {db : Db} {y : Except Err Tx}, txCreate E m.sys.db h = .ok (db, y) → Sys.mem { m.sys with db := db } v = m v := by
      intro db y e1
      unfold txCreate at e1
      have fin : ∀ {k : B32}, (do
          let (s, r) ← readHistory E m.sys.db.store k
          match r with
          | some n => pure ({ m.sys.db with store := s }, .ok ⟨some n⟩)
          | none => pure ({ m.sys.db with store := s }, .error .ENOTFOUND)) = Res.ok (db, y) → v ≠ .history →
          Sys.mem { m.sys with db := db } v = m v := by
        intro k e1 hh
        obtain ⟨⟨s, n⟩, e2, e1⟩ := Res.bind_eq_ok.1 e1
        obtain ⟨c, l, rfl⟩ := readHistory_hist e2
        cases n <;> (cases e1; exact hist_post hh)
      cases h with
      | some h =>
        have hw : write = true := hp
        subst hw
        exact fin e1 (by rintro rfl; simp [Call.changes] at hv)
      | none =>
        simp only at e1
        by_cases hrev : m.sys.db.revert = true
        · have hw : write = true := (show write = (m.sys.db.revert) from hp).trans hrev
          subst hw
          rw [if_pos hrev] at e1
          exact fin e1 (by rintro rfl; simp [Call.changes] at hv)
        · rw [if_neg hrev] at e1
          cases e1
          exact congrFun (Mem.sys_mem m) v
    simp only [step] at e
    obtain ⟨⟨db, y⟩, e1, e⟩ := Res.bind_eq_ok.1 e
    have h1 := key e1
    cases y with
    | error err => cases e; exact h1
    | ok t =>
      cases e
      rw [Sys.setTx_mem _ _ _ _ hv1]
      exact h1
  | destroy x =>
    simp only [Call.changes, List.mem_cons, List.not_mem_nil, or_false] at hv
    simp only [step] at e
    obtain ⟨_, _, e⟩ := Res.bind_eq_ok.1 e
    obtain ⟨_, _, e⟩ := Res.bind_eq_ok.1 e
    cases e
    rw [Sys.setTx_mem _ _ _ _ hv, Mem.sys_mem]
  | clear x =>
    simp only [Call.changes, List.mem_cons, List.not_mem_nil, or_false] at hv
    simp only [step] at e
    obtain ⟨_, _, e⟩ := Res.bind_eq_ok.1 e
    obtain ⟨_, _, e⟩ := Res.bind_eq_ok.1 e
    cases e
    rw [Sys.setTx_mem _ _ _ _ hv, Mem.sys_mem]
  | txRoot x write =>
    simp only [step] at e
    obtain ⟨t, e1, e⟩ := Res.bind_eq_ok.1 e
    obtain ⟨⟨t', h⟩, e2, e⟩ := Res.bind_eq_ok.1 e
    cases e
    by_cases hv1 : v = .tx x
    · subst hv1
      rw [Sys.setTx_same]
      have hw : write = false := by
        cases write
        · rfl
        · simp [Call.changes] at hv
      subst hw
      have ht : m (.tx x) = some t := by
        unfold Sys.tx at e1
        cases ht : m.sys.txs x with
        | none => rw [ht] at e1; cases e1
        | some t0 => rw [ht] at e1; cases e1; exact ht
      unfold txRoot at e2
      obtain ⟨n, e3, e2⟩ := Res.bind_eq_ok.1 e2
      have hn : t.root = some n := by
        unfold Tx.node at e3
        cases hr : t.root with
        | none => rw [hr] at e3; cases e3
        | some n0 => rw [hr] at e3; cases e3; rfl
      have hw2 := hp t n ht hn
      obtain ⟨⟨h2, n2⟩, e4, e2⟩ := Res.bind_eq_ok.1 e2
      cases e2
      rw [ht]
      have : n2 = n := by
        cases n with
        | null => cases e4; rfl
        | hash _ _ => cases e4; rfl
        | internal o p pre l r => cases o with
          | none => cases hw2
          | some o => cases e4; rfl
        | leaf o p k v vp => cases o with
          | none => cases hw2
          | some o => cases e4; rfl
      obtain ⟨troot⟩ := t
      cases hn
      rw [this]
    · rw [Sys.setTx_mem _ _ _ _ hv1, Mem.sys_mem]
  | txInject x h misses =>
    simp only [Call.changes, List.mem_cons, List.not_mem_nil, or_false, not_or] at hv
    simp only [step] at e
    obtain ⟨t, e1, e⟩ := Res.bind_eq_ok.1 e
    obtain ⟨⟨db, t', y⟩, e2, e⟩ := Res.bind_eq_ok.1 e
    cases e
    rw [Sys.setTx_mem _ _ _ _ hv.2]
    unfold txInject at e2
    obtain ⟨⟨s, n⟩, e3, e2⟩ := Res.bind_eq_ok.1 e2
    obtain ⟨c, l, rfl⟩ := readHistory_hist e3
    cases n with
    | none => cases e2; exact hist_post hv.1
    | some n =>
      simp only at e2
      obtain ⟨_, _, e2⟩ := Res.bind_eq_ok.1 e2
      cases e2; exact hist_post hv.1
  | get x k misses =>
    simp only [step] at e
    obtain ⟨_, _, e⟩ := Res.bind_eq_ok.1 e
    obtain ⟨_, _, e⟩ := Res.bind_eq_ok.1 e
    cases e; rw [Mem.sys_mem]
  | has x k misses =>
    simp only [step] at e
    obtain ⟨_, _, e⟩ := Res.bind_eq_ok.1 e
    obtain ⟨_, _, e⟩ := Res.bind_eq_ok.1 e
    cases e; rw [Mem.sys_mem]
  | insert x k d misses =>
    simp only [Call.changes, List.mem_cons, List.not_mem_nil, or_false] at hv
    simp only [step] at e
    obtain ⟨_, _, e⟩ := Res.bind_eq_ok.1 e
    obtain ⟨⟨_, _⟩, _, e⟩ := Res.bind_eq_ok.1 e
    cases e
    rw [Sys.setTx_mem _ _ _ _ hv, Mem.sys_mem]
  | remove x k misses =>
    simp only [Call.changes, List.mem_cons, List.not_mem_nil, or_false] at hv
    simp only [step] at e
    obtain ⟨_, _, e⟩ := Res.bind_eq_ok.1 e
    obtain ⟨⟨_, _⟩, _, e⟩ := Res.bind_eq_ok.1 e
    cases e
    rw [Sys.setTx_mem _ _ _ _ hv, Mem.sys_mem]
  | prove x k write misses =>
    simp only [step] at e
    obtain ⟨t, e1, e⟩ := Res.bind_eq_ok.1 e
    obtain ⟨⟨t', y⟩, e2, e⟩ := Res.bind_eq_ok.1 e
    cases e
    by_cases hv1 : v = .tx x
    · subst hv1
      rw [Sys.setTx_same]
      have hw : write = false := by
        cases write
        · rfl
        · simp [Call.changes] at hv
      subst hw
      have ht : m (.tx x) = some t := by
        unfold Sys.tx at e1
        cases ht : m.sys.txs x with
        | none => rw [ht] at e1; cases e1
        | some t0 => rw [ht] at e1; cases e1; exact ht
      unfold txProve at e2
      obtain ⟨n, e3, e2⟩ := Res.bind_eq_ok.1 e2
      have hn : t.root = some n := by
        unfold Tx.node at e3
        cases hr : t.root with
        | none => rw [hr] at e3; cases e3
        | some n0 => rw [hr] at e3; cases e3; rfl
      have hw2 := hp t n ht hn
      obtain ⟨⟨pf, n2⟩, e4, e2⟩ := Res.bind_eq_ok.1 e2
      have hn2 : n2 = n := by
        show n2 = n
        rw [show treeFuel = 599 + 1 from rfl] at e4
        cases n with
        | null => cases e4; rfl
        | hash h p =>
          rw [treeProve] at e4
          obtain ⟨o, _, e4⟩ := Res.bind_eq_ok.1 e4
          cases o with
          | none => cases e4; rfl
          | some rn =>
            simp only at e4
            obtain ⟨⟨_, _⟩, _, e4⟩ := Res.bind_eq_ok.1 e4
            cases e4; rfl
        | internal o p pre l r => cases hw2
        | leaf o p k v vp => cases hw2
      have ht' : t' = ⟨some n2⟩ := by
        cases pf with
        | none => cases e2; rfl
        | some pf =>
          simp only at e2
          obtain ⟨_, _, e2⟩ := Res.bind_eq_ok.1 e2
          obtain ⟨_, _, e2⟩ := Res.bind_eq_ok.1 e2
          split at e2
          · cases e2
          · cases e2; rfl
      obtain ⟨troot⟩ := t
      cases hn
      rw [ht, ht', hn2]
    · rw [Sys.setTx_mem _ _ _ _ hv1, Mem.sys_mem]
  | commit x rolls evicted =>
    simp only [Call.changes, List.mem_cons, List.not_mem_nil, or_false, not_or] at hv
    simp only [step] at e
    obtain ⟨t, e1, e⟩ := Res.bind_eq_ok.1 e
    obtain ⟨⟨db, t', y⟩, e2, e⟩ := Res.bind_eq_ok.1 e
    cases e
    rw [Sys.setTx_mem _ _ _ _ hv.1]
    obtain ⟨_, h1, h2, h3, h4⟩ := hv
    cases v <;> first | rfl | exact absurd rfl h1 | exact absurd rfl h2 | exact absurd rfl h3 | exact absurd rfl h4

/-- The outcome depends on `needs` only. -/
theorem footprint_needs {E : Env} {op : Op} {c : Call} (hc : CallOf op c) {m m' : Mem} (hp : c.taken op m)
    (hag : ∀ v ∈ c.needs, m v = m' v) {s1 : Sys} {r : Ret} (e : step E m.sys op = .ok (s1, r)) :
    ∃ s1', step E m'.sys op = .ok (s1', r) ∧ ∀ v, m v = m' v → s1.mem v = s1'.mem v := by
  have same : ∀ v, m v = m' v → m.sys.mem v = m'.sys.mem v := fun v h => by rw [Mem.sys_mem, Mem.sys_mem, h]
  -- only the store is changed
  have hstore : ∀ {a b : Sys} {st : Store}, a.db.store = st → b.db.store = st → (m .head = m' .head → a.mem .head = b.mem .head) →
      (∀ n, m (.tx n) = m' (.tx n) → a.txs n = b.txs n) → ∀ v, m v = m' v → a.mem v = b.mem v := by
    intro a b st h1 h2 h3 h4 v hv
    cases v with
    | head => exact h3 hv
    | tx n => exact h4 n hv
    | state => show a.db.store.state = b.db.store.state; rw [h1, h2]
    | history => show (a.db.store.cache, a.db.store.lastMeta) = (b.db.store.cache, b.db.store.lastMeta); rw [h1, h2]
    | out =>
      show OutSt.mk a.db.store.key a.db.store.files a.db.store.index a.db.store.curSize a.db.store.slab a.db.store.faults a.db.store.io =
        OutSt.mk b.db.store.key b.db.store.files b.db.store.index b.db.store.curSize b.db.store.slab b.db.store.faults b.db.store.io
      rw [h1, h2]
    | table => rfl
    | iter n => rfl
  cases hc with
  | root =>
    have h1 : m .head = m' .head := hag .head (by simp [Call.needs])
    cases e
    refine ⟨m'.sys, ?_, same⟩
    have : dbRoot m.sys.db = dbRoot m'.sys.db := congrArg Prod.fst (show (m .head : B32 × Bool) = m' .head from h1)
    rw [this]
    rfl
  | inject h misses =>
    have hs := Mem.store_eq (hag .state (by simp [Call.needs])) (hag .history (by simp [Call.needs])) (hag .out (by simp [Call.needs]))
    simp only [step] at e ⊢
    obtain ⟨⟨db, x⟩, e1, e⟩ := Res.bind_eq_ok.1 e
    cases e
    unfold dbInject at e1
    obtain ⟨⟨s, ok⟩, e2, e1⟩ := Res.bind_eq_ok.1 e1
    cases ok
    · cases e1
      refine ⟨⟨{ m'.sys.db with store := s }, m'.sys.txs⟩, ?_, hstore (st := s) rfl rfl (fun h => same _ h) fun n h => h⟩
      refine bind_step (a := ({ m'.sys.db with store := s }, .error .ENOTFOUND)) ?_ rfl
      unfold dbInject
      rw [hs]
      exact bind_step e2 rfl
    · cases e1
      refine ⟨⟨{ m'.sys.db with store := s, hash := h, revert := true }, m'.sys.txs⟩, ?_, hstore (st := s) rfl rfl (fun _ => rfl) fun n h => h⟩
      refine bind_step (a := ({ m'.sys.db with store := s, hash := h, revert := true }, .ok ())) ?_ rfl
      unfold dbInject
      rw [hs]
      exact bind_step e2 rfl
  | create x h write misses =>
    have hhead : m .head = m' .head := hag .head (by cases write <;> simp [Call.needs])
    have hstate : m .state = m' .state := hag .state (by cases write <;> simp [Call.needs])
    have hrev : m.sys.db.revert = m'.sys.db.revert := congrArg Prod.snd (show (m .head : B32 × Bool) = m' .head from hhead)
    have hhash : m.sys.db.hash = m'.sys.db.hash := congrArg Prod.fst (show (m .head : B32 × Bool) = m' .head from hhead)
    have htx : ∀ (t : Option Tx) (n : Nat), m (.tx n) = m' (.tx n) → (if n = x then t else m.sys.txs n) = if n = x then t else m'.sys.txs n := by
      intro t n h
      split
      · rfl
      · exact h
    -- with the history
    have fin : ∀ {k k' : B32} {db : Db} {y : Except Err Tx}, write = true → k = k' → (do
          let (s, r) ← readHistory E m.sys.db.store k
          match r with
          | some n => pure ({ m.sys.db with store := s }, .ok ⟨some n⟩)
          | none => pure ({ m.sys.db with store := s }, .error .ENOTFOUND)) = Res.ok (db, y) →
        ∃ s, db = { m.sys.db with store := s } ∧ (do
          let (s, r) ← readHistory E m'.sys.db.store k'
          match r with
          | some n => pure ({ m'.sys.db with store := s }, .ok ⟨some n⟩)
          | none => pure ({ m'.sys.db with store := s }, .error .ENOTFOUND)) = Res.ok ({ m'.sys.db with store := s }, y) := by
      intro k k' db y hw hk e1
      subst hw hk
      have hs := Mem.store_eq hstate (hag .history (by simp [Call.needs])) (hag .out (by simp [Call.needs]))
      rw [hs]
      obtain ⟨⟨s, n⟩, e2, e1⟩ := Res.bind_eq_ok.1 e1
      cases n with
      | none => cases e1; exact ⟨s, rfl, bind_step e2 rfl⟩
      | some n => cases e1; exact ⟨s, rfl, bind_step e2 rfl⟩
    simp only [step] at e ⊢
    obtain ⟨⟨db, y⟩, e1, e⟩ := Res.bind_eq_ok.1 e
    have key : (∃ s, db = { m.sys.db with store := s } ∧ txCreate E m'.sys.db h = .ok ({ m'.sys.db with store := s }, y)) ∨
        (db = m.sys.db ∧ txCreate E m'.sys.db h = .ok (m'.sys.db, y)) := by
      unfold txCreate at e1 ⊢
      cases h with
      | some h => exact .inl (fin (show write = true from hp) rfl e1)
      | none =>
        simp only at e1 ⊢
        by_cases hr : m.sys.db.revert = true
        · rw [if_pos hr] at e1
          rw [if_pos (hrev ▸ hr)]
          exact .inl (fin ((show write = (m.sys.db.revert) from hp).trans hr) hhash e1)
        · rw [if_neg hr] at e1
          rw [if_neg (hrev ▸ hr)]
          cases e1
          refine .inr ⟨rfl, ?_⟩
          have : m.sys.db.store.state = m'.sys.db.store.state := hstate
          rw [this]
    rcases key with ⟨s, rfl, e2⟩ | ⟨rfl, e2⟩
    · cases y with
      | error err =>
        cases e
        exact ⟨⟨{ m'.sys.db with store := s }, m'.sys.txs⟩, bind_step e2 rfl, hstore (st := s) rfl rfl (fun h => same _ h) fun n h => h⟩
      | ok t =>
        cases e
        refine ⟨_, bind_step e2 rfl, hstore (st := s) rfl rfl (fun h => same _ h) fun n h => htx _ n h⟩
    · cases y with
      | error err => cases e; exact ⟨m'.sys, bind_step e2 rfl, same⟩
      | ok t =>
        cases e
        exact ⟨m'.sys.setTx x (some t), bind_step e2 rfl, fun v h => setTx_post (m := m) (m' := m') v h⟩
  | destroy x =>
    have ht := Mem.tx_eq (hag (.tx x) (by simp [Call.needs]))
    simp only [step] at e ⊢
    rw [ht]
    obtain ⟨t, e1, e⟩ := Res.bind_eq_ok.1 e
    obtain ⟨_, e2, e⟩ := Res.bind_eq_ok.1 e
    cases e
    exact ⟨_, bind_step e1 (bind_step e2 rfl), fun v h => setTx_post v h⟩
  | clear x =>
    have ht := Mem.tx_eq (hag (.tx x) (by simp [Call.needs]))
    have hstate : m.sys.db.store.state = m'.sys.db.store.state := hag .state (by simp [Call.needs])
    simp only [step] at e ⊢
    rw [ht]
    obtain ⟨t, e1, e⟩ := Res.bind_eq_ok.1 e
    obtain ⟨t', e2, e⟩ := Res.bind_eq_ok.1 e
    cases e
    refine ⟨_, bind_step e1 (bind_step ?_ rfl), fun v h => setTx_post v h⟩
    unfold txClear at e2 ⊢
    rw [← hstate]
    exact e2
  | txRoot x write =>
    have ht := Mem.tx_eq (hag (.tx x) (by simp [Call.needs]))
    simp only [step] at e ⊢
    rw [ht]
    obtain ⟨t, e1, e⟩ := Res.bind_eq_ok.1 e
    obtain ⟨⟨t', h⟩, e2, e⟩ := Res.bind_eq_ok.1 e
    cases e
    exact ⟨_, bind_step e1 (bind_step e2 rfl), fun v h => setTx_post v h⟩
  | txInject x h misses =>
    have ht := Mem.tx_eq (hag (.tx x) (by simp [Call.needs]))
    have hs := Mem.store_eq (hag .state (by simp [Call.needs])) (hag .history (by simp [Call.needs])) (hag .out (by simp [Call.needs]))
    have htx : ∀ (t : Option Tx) (n : Nat), m (.tx n) = m' (.tx n) → (if n = x then t else m.sys.txs n) = if n = x then t else m'.sys.txs n := by
      intro t n h
      split
      · rfl
      · exact h
    simp only [step] at e ⊢
    rw [ht]
    obtain ⟨t, e1, e⟩ := Res.bind_eq_ok.1 e
    obtain ⟨⟨db, t', y⟩, e2, e⟩ := Res.bind_eq_ok.1 e
    cases e
    have key : ∃ s, db = { m.sys.db with store := s } ∧ txInject E m'.sys.db t h = .ok ({ m'.sys.db with store := s }, t', y) := by
      unfold txInject at e2 ⊢
      rw [hs]
      obtain ⟨⟨s, n⟩, e3, e2⟩ := Res.bind_eq_ok.1 e2
      cases n with
      | none => cases e2; exact ⟨s, rfl, bind_step e3 rfl⟩
      | some n =>
        simp only at e2
        obtain ⟨_, e4, e2⟩ := Res.bind_eq_ok.1 e2
        cases e2
        exact ⟨s, rfl, bind_step e3 (bind_step e4 rfl)⟩
    obtain ⟨s, rfl, e3⟩ := key
    exact ⟨_, bind_step e1 (bind_step e3 rfl), hstore (st := s) rfl rfl (fun h => same _ h) fun n h => htx _ n h⟩
  | get x k misses =>
    have ht := Mem.tx_eq (hag (.tx x) (by simp [Call.needs]))
    have hr := Mem.same_read (hag .out (by simp [Call.needs]))
    simp only [step] at e ⊢
    rw [ht]
    obtain ⟨t, e1, e⟩ := Res.bind_eq_ok.1 e
    obtain ⟨_, e2, e⟩ := Res.bind_eq_ok.1 e
    cases e
    rw [← txGet_same hr] at e2
    exact ⟨_, bind_step e1 (bind_step e2 rfl), same⟩
  | has x k misses =>
    have ht := Mem.tx_eq (hag (.tx x) (by simp [Call.needs]))
    have hr := Mem.same_read (hag .out (by simp [Call.needs]))
    simp only [step] at e ⊢
    rw [ht]
    obtain ⟨t, e1, e⟩ := Res.bind_eq_ok.1 e
    obtain ⟨_, e2, e⟩ := Res.bind_eq_ok.1 e
    cases e
    rw [← txHas_same hr] at e2
    exact ⟨_, bind_step e1 (bind_step e2 rfl), same⟩
  | insert x k d misses =>
    have ht := Mem.tx_eq (hag (.tx x) (by simp [Call.needs]))
    have hr := Mem.same_read (hag .out (by simp [Call.needs]))
    simp only [step] at e ⊢
    rw [ht]
    obtain ⟨t, e1, e⟩ := Res.bind_eq_ok.1 e
    obtain ⟨⟨t', y⟩, e2, e⟩ := Res.bind_eq_ok.1 e
    cases e
    rw [← txInsert_same hr] at e2
    exact ⟨_, bind_step e1 (bind_step e2 rfl), fun v h => setTx_post v h⟩
  | remove x k misses =>
    have ht := Mem.tx_eq (hag (.tx x) (by simp [Call.needs]))
    have hr := Mem.same_read (hag .out (by simp [Call.needs]))
    simp only [step] at e ⊢
    rw [ht]
    obtain ⟨t, e1, e⟩ := Res.bind_eq_ok.1 e
    obtain ⟨⟨t', y⟩, e2, e⟩ := Res.bind_eq_ok.1 e
    cases e
    rw [← txRemove_same hr] at e2
    exact ⟨_, bind_step e1 (bind_step e2 rfl), fun v h => setTx_post v h⟩
  | prove x k write misses =>
    have ht := Mem.tx_eq (hag (.tx x) (by simp [Call.needs]))
    have hr := Mem.same_read (hag .out (by simp [Call.needs]))
    simp only [step] at e ⊢
    rw [ht]
    obtain ⟨t, e1, e⟩ := Res.bind_eq_ok.1 e
    obtain ⟨⟨t', y⟩, e2, e⟩ := Res.bind_eq_ok.1 e
    rw [← txProve_same hr] at e2
    cases e
    exact ⟨_, bind_step e1 (bind_step e2 rfl), fun v h => setTx_post v h⟩
  | commit x rolls evicted =>
    have ht := Mem.tx_eq (hag (.tx x) (by simp [Call.needs]))
    have hout : m .out = m' .out := hag .out (by simp [Call.needs])
    have hstate : m .state = m' .state := hag .state (by simp [Call.needs])
    have hst : m'.sys.db.store = m.sys.db.store.hist m'.sys.db.store.cache m'.sys.db.store.lastMeta := by
      simp only [Mem.sys, Store.hist, hout, hstate]
    simp only [step] at e ⊢
    rw [ht]
    obtain ⟨t, e1, e⟩ := Res.bind_eq_ok.1 e
    obtain ⟨⟨db, t', y⟩, e2, e⟩ := Res.bind_eq_ok.1 e
    cases e
    obtain ⟨f, g, hfg⟩ := txCommit_hist e2
    have h1 := hfg m.sys.db.store.cache m.sys.db.store.lastMeta m.sys.db.hash m.sys.db.revert
    have h2 := hfg m'.sys.db.store.cache m'.sys.db.store.lastMeta m'.sys.db.hash m'.sys.db.revert
    rw [← hst] at h2
    have e2' : txCommit E ⟨m.sys.db.store.hist m.sys.db.store.cache m.sys.db.store.lastMeta, m.sys.db.hash, m.sys.db.revert⟩ t = .ok (db, t', y) := e2
    rw [e2'] at h1
    have hdb : db = ⟨db.store.hist (f m.sys.db.store.cache) m.sys.db.store.lastMeta, g m.sys.db.hash, m.sys.db.revert⟩ := by
      injection h1 with h1
      exact congrArg Prod.fst h1
    refine ⟨_, bind_step e1 (bind_step h2 rfl), ?_⟩
    intro v hv
    by_cases hvx : v = .tx x
    · subst hvx; rw [Sys.setTx_same, Sys.setTx_same]
    · rw [Sys.setTx_mem _ _ _ _ hvx, Sys.setTx_mem _ _ _ _ hvx]
      rw [hdb]
      cases v with
      | head =>
        have hv' : (m.sys.db.hash, m.sys.db.revert) = (m'.sys.db.hash, m'.sys.db.revert) := hv
        show (g m.sys.db.hash, m.sys.db.revert) = (g m'.sys.db.hash, m'.sys.db.revert)
        injection hv' with h3 h4
        rw [h3, h4]
      | history =>
        have hv' : (m.sys.db.store.cache, m.sys.db.store.lastMeta) = (m'.sys.db.store.cache, m'.sys.db.store.lastMeta) := hv
        show (f m.sys.db.store.cache, m.sys.db.store.lastMeta) = (f m'.sys.db.store.cache, m'.sys.db.store.lastMeta)
        injection hv' with h3 h4
        rw [h3, h4]
      | tx n => exact hv
      | _ => rfl

end Urkel
