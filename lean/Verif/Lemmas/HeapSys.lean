import Verif.Lemmas.HeapTx
import Verif.Spec.Heap
/-
One-shot calls and whole programs in Model/Heap.lean.
-/
namespace Urkel

theorem Triple.created {A : Alloc} {E : Env} {db db' : Db} {h : Option B32} {tx : Tx} (hs : Flat db.store.state.rootNode)
    (e : txCreate E db h = .ok (db', .ok tx)) {β : Type} {P : SProp} {Q : β → SProp} {k : Db × Except Err Nat → HM β}
    (hk : ∀ t, Triple (ownTx t tx ∗∗ P) (k (db', .ok t)) Q) : Triple P (hTxCreate A E db h >>= k) Q := by
  refine Triple.bind (hTxCreate_spec hs e) (R := P) (emp_sep _).symm fun x => ?_
  unfold hNew
  rw [ex_sep]
  refine Triple.ex_pre fun t => ?_
  rw [sep_assoc]
  exact Triple.pure_pre fun e => by rw [e]; exact hk t

theorem Triple.notCreated {A : Alloc} {E : Env} {db db' : Db} {h : Option B32} {er : Err} (hs : Flat db.store.state.rootNode)
    (e : txCreate E db h = .ok (db', .error er)) {β : Type} {P : SProp} {Q : β → SProp} {k : Db × Except Err Nat → HM β}
    (hk : Triple P (k (db', .error er)) Q) : Triple P (hTxCreate A E db h >>= k) Q := by
  refine Triple.call (hTxCreate_spec hs e) (R := P) (emp_sep _).symm ?_
  rw [emp_sep]; exact hk

theorem Triple.txDestroyed {t : Nat} {x : Tx} {u : Unit} (e : txDestroy x = .ok u) {β : Type} {P R : SProp} {Q : β → SProp} {k : Unit → HM β}
    (hP : P = ownTx t x ∗∗ R) (hk : Triple R (k ()) Q) : Triple P (hTxDestroy t >>= k) Q := by
  refine Triple.bind (hTxDestroy_spec e) hP fun _ => ?_
  rw [emp_sep]; exact hk

theorem txCreate_flat {E : Env} {db db' : Db} {h : Option B32} {r : Except Err Tx} (hs : Flat db.store.state.rootNode)
    (e : txCreate E db h = .ok (db', r)) : Flat db'.store.state.rootNode := by
  have fin : ∀ h : B32, (do
      let (s, r) ← readHistory E db.store h
      match r with
      | some n => pure ({ db with store := s }, .ok ⟨some n⟩)
      | none => pure ({ db with store := s }, .error .ENOTFOUND) : Res (Db × Except Err Tx)) = .ok (db', r) → Flat db'.store.state.rootNode := by
    intro h e
    obtain ⟨⟨s, o⟩, e1, e⟩ := Res.bind_eq_ok.1 e
    have := readHistory_state e1
    cases o <;> (cases e; show Flat s.state.rootNode; rw [this]; exact hs)
  unfold txCreate at e
  cases h with
  | some h => exact fin h e
  | none =>
    dsimp only at e
    split at e
    · exact fin _ e
    · cases e; exact hs

theorem txCommit_flat {E : Env} {db db' : Db} {t t' : Tx} {r : Except Err Unit} (hs : Flat db.store.state.rootNode)
    (e : txCommit E db t = .ok (db', t', r)) : Flat db'.store.state.rootNode := by
  obtain ⟨n, e1, e⟩ := Res.bind_eq_ok.1 e
  obtain ⟨⟨s1, o⟩, e2, e⟩ := Res.bind_eq_ok.1 e
  have h1 : Flat s1.state.rootNode := by rw [treeWrite_state _ _ _ _ e2]; exact hs
  cases o with
  | none => cases e; exact h1
  | some n' =>
    obtain ⟨⟨s2, ok⟩, e3, e⟩ := Res.bind_eq_ok.1 e
    have h2 := storeCommit_flat e3 h1
    cases ok <;> (cases e; exact h2)

/-! ### One-shot calls -/

theorem hUrkelGet_spec {A : Alloc} {E : Env} {db db' : Db} {k : B32} {h : Option B32} {r : Except Err Bytes} (hs : Flat db.store.state.rootNode)
    (e : urkelGet E db k h = .ok (db', r)) : Triple emp (hUrkelGet A E db k h) (fun y => lpure (y = (db', r)) ∗∗ emp) := by
  obtain ⟨⟨db1, o⟩, e1, e2⟩ := Res.bind_eq_ok.1 e
  cases o with
  | error er =>
    cases e2
    refine Triple.notCreated hs e1 ?_
    exact Triple.ret fun m hm => lpure_sep.2 ⟨rfl, hm⟩
  | ok tx =>
    obtain ⟨ret, e3, e4⟩ := Res.bind_eq_ok.1 e2
    obtain ⟨_, e5, e6⟩ := Res.bind_eq_ok.1 e4
    cases e6
    refine Triple.created hs e1 fun t => ?_
    refine Triple.call (hTxGet_spec (t := t) e3) (by frames) ?_
    refine Triple.txDestroyed e5 (by frames) ?_
    exact Triple.ret fun m hm => lpure_sep.2 ⟨rfl, hm⟩

theorem hUrkelHas_spec {A : Alloc} {E : Env} {db db' : Db} {k : B32} {h : Option B32} {r : Except Err Unit} (hs : Flat db.store.state.rootNode)
    (e : urkelHas E db k h = .ok (db', r)) : Triple emp (hUrkelHas A E db k h) (fun y => lpure (y = (db', r)) ∗∗ emp) := by
  obtain ⟨⟨db1, o⟩, e1, e2⟩ := Res.bind_eq_ok.1 e
  cases o with
  | error er =>
    cases e2
    refine Triple.notCreated hs e1 ?_
    exact Triple.ret fun m hm => lpure_sep.2 ⟨rfl, hm⟩
  | ok tx =>
    obtain ⟨ret, e3, e4⟩ := Res.bind_eq_ok.1 e2
    obtain ⟨_, e5, e6⟩ := Res.bind_eq_ok.1 e4
    cases e6
    refine Triple.created hs e1 fun t => ?_
    refine Triple.call (hTxHas_spec (t := t) e3) (by frames) ?_
    refine Triple.txDestroyed e5 (by frames) ?_
    exact Triple.ret fun m hm => lpure_sep.2 ⟨rfl, hm⟩

theorem hUrkelInsert_spec {A : Alloc} {E : Env} {db db' : Db} {k : B32} {v : Bytes} {r : Except Err Unit} (hs : Flat db.store.state.rootNode)
    (e : urkelInsert E db k v = .ok (db', r)) : Triple emp (hUrkelInsert A E db k v) (fun y => lpure (y = (db', r)) ∗∗ emp) := by
  obtain ⟨⟨db1, o⟩, e1, e2⟩ := Res.bind_eq_ok.1 e
  cases o with
  | error er =>
    cases e2
    refine Triple.notCreated hs e1 ?_
    exact Triple.ret fun m hm => lpure_sep.2 ⟨rfl, hm⟩
  | ok tx =>
    obtain ⟨⟨tx1, r1⟩, e3, e4⟩ := Res.bind_eq_ok.1 e2
    refine Triple.created hs e1 fun t => ?_
    refine Triple.call (hTxInsert_spec (t := t) e3) (by frames) ?_
    cases r1 with
    | error er =>
      obtain ⟨_, e5, e6⟩ := Res.bind_eq_ok.1 e4
      cases e6
      refine Triple.txDestroyed e5 (by frames) ?_
      exact Triple.ret fun m hm => lpure_sep.2 ⟨rfl, hm⟩
    | ok _ =>
      obtain ⟨⟨db2, tx2, r2⟩, e5, e6⟩ := Res.bind_eq_ok.1 e4
      obtain ⟨_, e7, e8⟩ := Res.bind_eq_ok.1 e6
      cases e8
      refine Triple.call (hTxCommit_spec (t := t) e5) (by frames) ?_
      refine Triple.txDestroyed e7 (by frames) ?_
      exact Triple.ret fun m hm => lpure_sep.2 ⟨rfl, hm⟩

theorem hUrkelRemove_spec {A : Alloc} {E : Env} {db db' : Db} {k : B32} {r : Except Err Unit} (hs : Flat db.store.state.rootNode)
    (e : urkelRemove E db k = .ok (db', r)) : Triple emp (hUrkelRemove A E db k) (fun y => lpure (y = (db', r)) ∗∗ emp) := by
  obtain ⟨⟨db1, o⟩, e1, e2⟩ := Res.bind_eq_ok.1 e
  cases o with
  | error er =>
    cases e2
    refine Triple.notCreated hs e1 ?_
    exact Triple.ret fun m hm => lpure_sep.2 ⟨rfl, hm⟩
  | ok tx =>
    obtain ⟨⟨tx1, r1⟩, e3, e4⟩ := Res.bind_eq_ok.1 e2
    refine Triple.created hs e1 fun t => ?_
    refine Triple.call (hTxRemove_spec (t := t) e3) (by frames) ?_
    cases r1 with
    | error er =>
      obtain ⟨_, e5, e6⟩ := Res.bind_eq_ok.1 e4
      cases e6
      refine Triple.txDestroyed e5 (by frames) ?_
      exact Triple.ret fun m hm => lpure_sep.2 ⟨rfl, hm⟩
    | ok _ =>
      obtain ⟨⟨db2, tx2, r2⟩, e5, e6⟩ := Res.bind_eq_ok.1 e4
      obtain ⟨_, e7, e8⟩ := Res.bind_eq_ok.1 e6
      cases e8
      refine Triple.call (hTxCommit_spec (t := t) e5) (by frames) ?_
      refine Triple.txDestroyed e7 (by frames) ?_
      exact Triple.ret fun m hm => lpure_sep.2 ⟨rfl, hm⟩

/-- The caller takes the proof and frees it. -/
theorem hTakeProof_ok {out : Nat} {raw : Bytes} : Triple (pts out (.bytes raw)) (hTakeProof (.ok out)) (fun y => lpure (y = .bytes raw) ∗∗ emp) := by
  refine loadBytes_spec (R := emp) (sep_emp _).symm ?_
  refine Triple.free (a := out) (by frames) ?_
  exact Triple.ret fun m hm => lpure_sep.2 ⟨rfl, hm⟩

theorem hTakeProof_err {er : Err} : Triple emp (hTakeProof (.error er)) (fun y => lpure (y = .fail er) ∗∗ emp) :=
  Triple.ret fun m hm => lpure_sep.2 ⟨rfl, hm⟩

theorem hUrkelProve_spec {A : Alloc} {E : Env} {db db' : Db} {k : B32} {h : Option B32} {r : Except Err Bytes} (hs : Flat db.store.state.rootNode)
    (e : urkelProve E db k h = .ok (db', r)) : Triple emp (hUrkelProve A E db k h) (fun y => match r with
      | .ok raw => ex fun out => lpure (y = (db', .ok out)) ∗∗ pts out (.bytes raw)
      | .error e => lpure (y = (db', .error e)) ∗∗ emp) := by
  obtain ⟨⟨db1, o⟩, e1, e2⟩ := Res.bind_eq_ok.1 e
  cases o with
  | error er =>
    cases e2
    refine Triple.notCreated hs e1 ?_
    exact Triple.ret fun m hm => lpure_sep.2 ⟨rfl, hm⟩
  | ok tx =>
    obtain ⟨⟨tx1, ret⟩, e3, e4⟩ := Res.bind_eq_ok.1 e2
    obtain ⟨_, e5, e6⟩ := Res.bind_eq_ok.1 e4
    cases e6
    refine Triple.created hs e1 fun t => ?_
    refine Triple.bind (hTxProve_spec (t := t) e3) (by frames) fun y => ?_
    unfold hProved
    dsimp only
    cases r with
    | error er =>
      dsimp only
      rw [sep_assoc]
      refine Triple.pure_pre fun hy => ?_
      subst hy
      refine Triple.txDestroyed (x := tx1) e5 (by frames) ?_
      exact Triple.ret fun m hm => lpure_sep.2 ⟨rfl, hm⟩
    | ok raw =>
      dsimp only
      rw [ex_sep]
      refine Triple.ex_pre fun out => ?_
      rw [sep_assoc]
      refine Triple.pure_pre fun hy => ?_
      subst hy
      refine Triple.txDestroyed (x := tx1) e5 (by frames) ?_
      exact Triple.ret fun m hm => ⟨out, lpure_sep.2 ⟨rfl, hm⟩⟩

/-! ### Programs -/

/-- The blocks of the transactions with handles in `ids`. -/
def star : List Nat → (Nat → SProp) → SProp
  | [], _ => emp
  | i :: is, f => f i ∗∗ star is f

theorem star_congr : ∀ {is : List Nat} {f g : Nat → SProp}, (∀ i ∈ is, f i = g i) → star is f = star is g
  | [], _, _, _ => rfl
  | i :: is, f, g, h => by
    show f i ∗∗ star is f = g i ∗∗ star is g
    rw [h i (by simp), star_congr fun j hj => h j (by simp [hj])]

theorem star_take : ∀ {is : List Nat} {i : Nat} (f : Nat → SProp), i ∈ is → star is f = f i ∗∗ star (is.erase i) f
  | j :: is, i, f, h => by
    by_cases hj : j = i
    · subst hj; rw [List.erase_cons_head]; rfl
    · rw [List.erase_cons_tail (by simpa using hj)]
      show f j ∗∗ star is f = f i ∗∗ f j ∗∗ star (is.erase i) f
      rw [star_take f (List.mem_of_ne_of_mem (fun e => hj e.symm) h)]
      exact sep_left_comm _ _ _

/-- What a handle stands for. -/
def ownH (x : Option Tx) (a : Option Nat) : SProp := match x, a with
  | some t, some a => ownTx a t
  | none, none => emp
  | _, _ => lpure False

/-- The whole heap of a program. -/
def sysHeap (ids : List Nat) (s : Sys) (hs : HSys) : SProp :=
  pts hs.obj .raw ∗∗ pts hs.lock .raw ∗∗ star ids fun i => ownH (s.txs i) (hs.txs i)

/-- The two programs agree. -/
structure Agree (ids : List Nat) (s : Sys) (hs : HSys) : Prop where
  db : hs.db = s.db
  flat : Flat s.db.store.state.rootNode
  nodup : ids.Nodup
  other : ∀ i, i ∉ ids → s.txs i = none ∧ hs.txs i = none

theorem ownH_none {a : Option Nat} {m : Nat → Option Cell} (h : ownH none a m) : a = none ∧ emp m := by
  cases a with
  | none => exact ⟨rfl, h⟩
  | some a => exact h.1.elim

theorem ownH_some {t : Tx} {a : Option Nat} {m : Nat → Option Cell} (h : ownH (some t) a m) : ∃ b, a = some b ∧ ownTx b t m := by
  cases a with
  | none => exact h.1.elim
  | some a => exact ⟨a, rfl, h⟩

/-- The result of a step. -/
def stepped (s' : Sys) (r : Ret) (x : HSys × Ret) : SProp :=
  ex fun ids' => lpure (x.2 = r ∧ Agree ids' s' x.1) ∗∗ sysHeap ids' s' x.1

/-- A call with a transaction. -/
theorem with_tx {ids : List Nat} {s : Sys} {hs : HSys} {id : Nat} {tx : Tx} (ha : Agree ids s hs) (ht : s.txs id = some tx)
    {β : Type} {Q : β → SProp} {k : Nat → HM β}
    (hk : ∀ t, hs.txs id = some t → id ∈ ids →
      Triple (ownTx t tx ∗∗ pts hs.obj .raw ∗∗ pts hs.lock .raw ∗∗ star (ids.erase id) fun i => ownH (s.txs i) (hs.txs i)) (k t) Q) :
    Triple (sysHeap ids s hs) (hs.tx id >>= k) Q := by
  have hm : id ∈ ids := by
    by_contra hc
    rw [(ha.other id hc).1] at ht; cases ht
  unfold sysHeap
  rw [star_take _ hm, ht]
  cases hh : hs.txs id with
  | none =>
    refine Triple.split (P' := lpure False ∗∗ (pts hs.obj .raw ∗∗ pts hs.lock .raw ∗∗ star (ids.erase id) fun i => ownH (s.txs i) (hs.txs i))) ?_
      (Triple.pure_pre fun e => e.elim)
    show pts hs.obj .raw ∗∗ pts hs.lock .raw ∗∗ lpure False ∗∗ _ = _
    ac_rfl
  | some t =>
    have : HSys.tx hs id = pure t := by unfold HSys.tx; rw [hh]
    rw [this]
    refine Triple.split ?_ (hk t hh hm)
    show pts hs.obj .raw ∗∗ pts hs.lock .raw ∗∗ ownTx t tx ∗∗ _ = _
    ac_rfl

/-- The handle keeps its address, the transaction changes. -/
theorem stepped_set {ids : List Nat} {s : Sys} {hs : HSys} {id t : Nat} {tx' : Tx} {db' : Db} {r : Ret} (ha : Agree ids s hs) (hh : hs.txs id = some t)
    (hm : id ∈ ids) (hf : Flat db'.store.state.rootNode) {m : Nat → Option Cell}
    (h : (ownTx t tx' ∗∗ pts hs.obj .raw ∗∗ pts hs.lock .raw ∗∗ star (ids.erase id) fun i => ownH (s.txs i) (hs.txs i)) m) :
    stepped (({ s with db := db' } : Sys).setTx id (some tx')) r ({ hs with db := db' }, r) m := by
  refine ⟨ids, lpure_sep.2 ⟨⟨rfl, ⟨rfl, hf, ha.nodup, ?_⟩⟩, ?_⟩⟩
  · intro i hi
    refine ⟨?_, (ha.other i hi).2⟩
    show (if i = id then some tx' else s.txs i) = none
    rw [if_neg (fun e : i = id => hi (e ▸ hm))]; exact (ha.other i hi).1
  · unfold sysHeap
    rw [star_take _ hm]
    have h1 : ownH ((({ s with db := db' } : Sys).setTx id (some tx')).txs id) (({ hs with db := db' } : HSys).txs id) = ownTx t tx' := by
      show ownH (if id = id then some tx' else s.txs id) (hs.txs id) = _
      rw [if_pos rfl, hh]; rfl
    have h2 : star (ids.erase id) (fun i => ownH ((({ s with db := db' } : Sys).setTx id (some tx')).txs i) (({ hs with db := db' } : HSys).txs i)) =
        star (ids.erase id) fun i => ownH (s.txs i) (hs.txs i) := by
      refine star_congr fun i hi => ?_
      have : i ≠ id := fun e => (ha.nodup.mem_erase_iff.1 hi).1 e
      show ownH (if i = id then some tx' else s.txs i) (hs.txs i) = _
      rw [if_neg this]
    rw [h1, h2]
    show (pts hs.obj .raw ∗∗ pts hs.lock .raw ∗∗ ownTx t tx' ∗∗ _) m
    perm h

/-- Nothing about the transactions changes. -/
theorem stepped_db {ids : List Nat} {s : Sys} {hs : HSys} {db' : Db} {r : Ret} (ha : Agree ids s hs) (hf : Flat db'.store.state.rootNode)
    {m : Nat → Option Cell} (h : sysHeap ids s hs m) : stepped { s with db := db' } r ({ hs with db := db' }, r) m :=
  ⟨ids, lpure_sep.2 ⟨⟨rfl, ⟨rfl, hf, ha.nodup, ha.other⟩⟩, h⟩⟩

theorem setTx_self {s : Sys} {id : Nat} {tx : Tx} (h : s.txs id = some tx) : s.setTx id (some tx) = s := by
  obtain ⟨db, txs⟩ := s
  show Sys.mk db (fun i => if i = id then some tx else txs i) = ⟨db, txs⟩
  congr 1
  funext i
  split
  · next e => rw [e]; exact h.symm
  · rfl

theorem tx_some {s : Sys} {id : Nat} {t : Tx} (e : s.tx id = .ok t) : s.txs id = some t := by
  unfold Sys.tx at e
  cases h : s.txs id with
  | none => rw [h] at e; cases e
  | some t' => rw [h] at e; cases e; rfl

theorem hStep_ok {A : Alloc} {E : Env} {ids : List Nat} {s s' : Sys} {hs : HSys} {op : Op} {r : Ret} (ha : Agree ids s hs) (hn : Neat s op)
    (e : step E s op = .ok (s', r)) :
    Triple (sysHeap ids s hs) (hStep A E hs op) (stepped s' r) := by
  obtain ⟨hdb', obj, lock, htxs⟩ := hs
  obtain rfl : hdb' = s.db := ha.db
  generalize hhs : (⟨s.db, obj, lock, htxs⟩ : HSys) = hs at *
  have hdb : hs.db = s.db := by rw [← hhs]
  have hsame : ({ hs with db := s.db } : HSys) = hs := by rw [← hhs]
  have hflat := ha.flat
  -- a one-shot call
  have one : ∀ {β : Type} {m : HM (Db × β)} {db' : Db} {x : β} {f : β → Ret}, Triple emp m (fun y => lpure (y = (db', x)) ∗∗ emp) →
      Flat db'.store.state.rootNode → Triple (sysHeap ids s hs) (do
        let (db, r) ← m
        pure (({ hs with db := db } : HSys), f r)) (stepped { s with db := db' } (f x)) := by
    intro β m db' x f hm hf
    refine Triple.call hm (R := sysHeap ids s hs) (emp_sep _).symm ?_
    rw [emp_sep]
    exact Triple.ret fun m hm => stepped_db ha hf hm
  cases op with
  | root =>
    cases e
    unfold hStep
    refine Triple.ret fun m hm => ?_
    rw [hdb]
    exact ⟨ids, lpure_sep.2 ⟨⟨rfl, ha⟩, hm⟩⟩
  | inject h =>
    obtain ⟨⟨db', x⟩, e1, e2⟩ := Res.bind_eq_ok.1 e
    cases e2
    unfold hStep
    rw [hdb]
    refine Triple.lift e1 ?_
    refine Triple.ret fun m hm => stepped_db ha ?_ hm
    unfold dbInject hasHistory at e1
    obtain ⟨⟨s1, ok⟩, e3, e4⟩ := Res.bind_eq_ok.1 e1
    obtain ⟨⟨s2, o⟩, e5, e6⟩ := Res.bind_eq_ok.1 e3
    have hst := readHistory_state e5
    cases o with
    | none => cases e6
    | some n =>
      cases e6
      cases e4
      show Flat s1.state.rootNode
      rw [hst]; exact hflat
  | create id h =>
    obtain ⟨⟨db', x⟩, e1, e2⟩ := Res.bind_eq_ok.1 e
    have hf := txCreate_flat hflat e1
    unfold hStep
    rw [hdb]
    cases x with
    | error er =>
      cases e2
      refine Triple.notCreated hflat e1 ?_
      exact Triple.ret fun m hm => stepped_db ha hf hm
    | ok tx =>
      cases e2
      have hn : s.txs id = none := hn
      refine Triple.created hflat e1 fun t => ?_
      refine Triple.ret fun m hm => ?_
      by_cases hm' : id ∈ ids
      · refine ⟨ids, lpure_sep.2 ⟨⟨rfl, rfl, hf, ha.nodup, fun i hi => ?_⟩, ?_⟩⟩
        · have : i ≠ id := fun e => hi (e ▸ hm')
          refine ⟨?_, ?_⟩
          · show (if i = id then some tx else s.txs i) = none
            rw [if_neg this]; exact (ha.other i hi).1
          · show (if i = id then some t else hs.txs i) = none
            rw [if_neg this]; exact (ha.other i hi).2
        · unfold sysHeap at hm ⊢
          rw [star_take _ hm'] at hm ⊢
          rw [hn] at hm
          have hemp : ownH none (hs.txs id) = lpure (hs.txs id = none) := by
            cases hs.txs id with
            | none => funext m; exact propext ⟨fun h => ⟨rfl, h⟩, fun h => h.2⟩
            | some a => funext m; exact propext ⟨fun h => h.1.elim, fun h => nomatch h.1⟩
          rw [hemp] at hm
          have h1 : ownH ((({ s with db := db' } : Sys).setTx id (some tx)).txs id) ((({ hs with db := db' } : HSys).setTx id (some t)).txs id) = ownTx t tx := by
            show ownH (if id = id then some tx else s.txs id) (if id = id then some t else hs.txs id) = _
            rw [if_pos rfl, if_pos rfl]; rfl
          have h2 : star (ids.erase id) (fun i => ownH ((({ s with db := db' } : Sys).setTx id (some tx)).txs i)
              ((({ hs with db := db' } : HSys).setTx id (some t)).txs i)) = star (ids.erase id) fun i => ownH (s.txs i) (hs.txs i) := by
            refine star_congr fun i hi => ?_
            have : i ≠ id := fun e => (ha.nodup.mem_erase_iff.1 hi).1 e
            show ownH (if i = id then some tx else s.txs i) (if i = id then some t else hs.txs i) = _
            rw [if_neg this, if_neg this]
          rw [h1, h2]
          have hm : (lpure (hs.txs id = none) ∗∗ (ownTx t tx ∗∗ pts hs.obj .raw ∗∗ pts hs.lock .raw ∗∗
            star (ids.erase id) fun i => ownH (s.txs i) (hs.txs i))) m := by perm hm
          have hm := (lpure_sep.1 hm).2
          show (pts hs.obj .raw ∗∗ pts hs.lock .raw ∗∗ ownTx t tx ∗∗ _) m
          perm hm
      · refine ⟨id :: ids, lpure_sep.2 ⟨⟨rfl, rfl, hf, List.nodup_cons.2 ⟨hm', ha.nodup⟩, fun i hi => ?_⟩, ?_⟩⟩
        · have h1 : i ≠ id := fun e => hi (by simp [e])
          have h2 : i ∉ ids := fun h => hi (by simp [h])
          refine ⟨?_, ?_⟩
          · show (if i = id then some tx else s.txs i) = none
            rw [if_neg h1]; exact (ha.other i h2).1
          · show (if i = id then some t else hs.txs i) = none
            rw [if_neg h1]; exact (ha.other i h2).2
        · unfold sysHeap at hm ⊢
          have h1 : ownH ((({ s with db := db' } : Sys).setTx id (some tx)).txs id) ((({ hs with db := db' } : HSys).setTx id (some t)).txs id) = ownTx t tx := by
            show ownH (if id = id then some tx else s.txs id) (if id = id then some t else hs.txs id) = _
            rw [if_pos rfl, if_pos rfl]; rfl
          have h2 : star ids (fun i => ownH ((({ s with db := db' } : Sys).setTx id (some tx)).txs i)
              ((({ hs with db := db' } : HSys).setTx id (some t)).txs i)) = star ids fun i => ownH (s.txs i) (hs.txs i) := by
            refine star_congr fun i hi => ?_
            have : i ≠ id := fun e => hm' (e ▸ hi)
            show ownH (if i = id then some tx else s.txs i) (if i = id then some t else hs.txs i) = _
            rw [if_neg this, if_neg this]
          show (pts hs.obj .raw ∗∗ pts hs.lock .raw ∗∗ (ownH ((({ s with db := db' } : Sys).setTx id (some tx)).txs id)
            ((({ hs with db := db' } : HSys).setTx id (some t)).txs id)) ∗∗ star ids _) m
          rw [h1, h2]
          perm hm
  | destroy id =>
    obtain ⟨tx, e1, e2⟩ := Res.bind_eq_ok.1 e
    obtain ⟨u, e3, e4⟩ := Res.bind_eq_ok.1 e2
    cases e4
    refine with_tx ha (tx_some e1) fun t ht hid => ?_
    refine Triple.txDestroyed e3 (by frames) ?_
    refine Triple.ret fun m hm => ⟨ids, lpure_sep.2 ⟨⟨rfl, hdb, hflat, ha.nodup, fun i hi => ?_⟩, ?_⟩⟩
    · have : i ≠ id := fun e => hi (e ▸ hid)
      refine ⟨?_, ?_⟩
      · show (if i = id then none else s.txs i) = none
        rw [if_neg this]; exact (ha.other i hi).1
      · show (if i = id then none else hs.txs i) = none
        rw [if_neg this]; exact (ha.other i hi).2
    · unfold sysHeap
      rw [star_take _ hid]
      have h1 : ownH ((s.setTx id none).txs id) ((hs.setTx id none).txs id) = emp := by
        show ownH (if id = id then none else s.txs id) (if id = id then none else hs.txs id) = _
        rw [if_pos rfl, if_pos rfl]; rfl
      have h2 : star (ids.erase id) (fun i => ownH ((s.setTx id none).txs i) ((hs.setTx id none).txs i)) =
          star (ids.erase id) fun i => ownH (s.txs i) (hs.txs i) := by
        refine star_congr fun i hi => ?_
        have : i ≠ id := fun e => (ha.nodup.mem_erase_iff.1 hi).1 e
        show ownH (if i = id then none else s.txs i) (if i = id then none else hs.txs i) = _
        rw [if_neg this, if_neg this]
      rw [h1, h2, emp_sep]
      exact hm
  | clear id =>
    obtain ⟨tx, e1, e2⟩ := Res.bind_eq_ok.1 e
    obtain ⟨tx', e3, e4⟩ := Res.bind_eq_ok.1 e2
    cases e4
    refine with_tx ha (tx_some e1) fun t ht hid => ?_
    rw [hdb]
    refine Triple.bind (hTxClear_spec (t := t) hflat e3) (by frames) fun _ => ?_
    refine Triple.ret fun m hm => ?_
    have := stepped_set (db' := s.db) (r := .unit) ha ht hid hflat hm
    rwa [hsame] at this
  | txRoot id =>
    obtain ⟨tx, e1, e2⟩ := Res.bind_eq_ok.1 e
    obtain ⟨⟨tx', h⟩, e3, e4⟩ := Res.bind_eq_ok.1 e2
    cases e4
    refine with_tx ha (tx_some e1) fun t ht hid => ?_
    refine Triple.call (hTxRoot_spec (t := t) e3) (by frames) ?_
    refine Triple.ret fun m hm => ?_
    have := stepped_set (db' := s.db) (r := .hash h) ha ht hid hflat hm
    rwa [hsame] at this
  | txInject id h =>
    obtain ⟨tx, e1, e2⟩ := Res.bind_eq_ok.1 e
    obtain ⟨⟨db', tx', x⟩, e3, e4⟩ := Res.bind_eq_ok.1 e2
    cases e4
    refine with_tx ha (tx_some e1) fun t ht hid => ?_
    rw [hdb]
    refine Triple.call (hTxInject_spec (t := t) hflat e3) (by frames) ?_
    refine Triple.ret fun m hm => stepped_set (r := .ofUnit x) ha ht hid ?_ hm
    obtain ⟨⟨s1, o⟩, e5, e6⟩ := Res.bind_eq_ok.1 e3
    have hst := readHistory_state e5
    cases o with
    | none => cases e6; show Flat s1.state.rootNode; rw [hst]; exact hflat
    | some n =>
      obtain ⟨_, _, e6⟩ := Res.bind_eq_ok.1 e6
      cases e6; show Flat s1.state.rootNode; rw [hst]; exact hflat
  | get id k =>
    obtain ⟨tx, e1, e2⟩ := Res.bind_eq_ok.1 e
    obtain ⟨x, e3, e4⟩ := Res.bind_eq_ok.1 e2
    cases e4
    refine with_tx ha (tx_some e1) fun t ht hid => ?_
    rw [hdb]
    refine Triple.call (hTxGet_spec (t := t) e3) (by frames) ?_
    refine Triple.ret fun m hm => ?_
    have := stepped_set (db' := s.db) (r := .ofBytes x) ha ht hid hflat hm
    rw [hsame] at this
    exact (setTx_self (tx_some e1)) ▸ this
  | has id k =>
    obtain ⟨tx, e1, e2⟩ := Res.bind_eq_ok.1 e
    obtain ⟨x, e3, e4⟩ := Res.bind_eq_ok.1 e2
    cases e4
    refine with_tx ha (tx_some e1) fun t ht hid => ?_
    rw [hdb]
    refine Triple.call (hTxHas_spec (t := t) e3) (by frames) ?_
    refine Triple.ret fun m hm => ?_
    have := stepped_set (db' := s.db) (r := .ofUnit x) ha ht hid hflat hm
    rw [hsame] at this
    exact (setTx_self (tx_some e1)) ▸ this
  | insert id k v =>
    obtain ⟨tx, e1, e2⟩ := Res.bind_eq_ok.1 e
    obtain ⟨⟨tx', x⟩, e3, e4⟩ := Res.bind_eq_ok.1 e2
    cases e4
    refine with_tx ha (tx_some e1) fun t ht hid => ?_
    rw [hdb]
    refine Triple.call (hTxInsert_spec (t := t) e3) (by frames) ?_
    refine Triple.ret fun m hm => ?_
    have := stepped_set (db' := s.db) (r := .ofUnit x) ha ht hid hflat hm
    rwa [hsame] at this
  | remove id k =>
    obtain ⟨tx, e1, e2⟩ := Res.bind_eq_ok.1 e
    obtain ⟨⟨tx', x⟩, e3, e4⟩ := Res.bind_eq_ok.1 e2
    cases e4
    refine with_tx ha (tx_some e1) fun t ht hid => ?_
    rw [hdb]
    refine Triple.call (hTxRemove_spec (t := t) e3) (by frames) ?_
    refine Triple.ret fun m hm => ?_
    have := stepped_set (db' := s.db) (r := .ofUnit x) ha ht hid hflat hm
    rwa [hsame] at this
  | prove id k =>
    obtain ⟨tx, e1, e2⟩ := Res.bind_eq_ok.1 e
    obtain ⟨⟨tx', x⟩, e3, e4⟩ := Res.bind_eq_ok.1 e2
    cases e4
    refine with_tx ha (tx_some e1) fun t ht hid => ?_
    rw [hdb]
    refine Triple.bind (hTxProve_spec (t := t) e3) (by frames) fun y => ?_
    unfold hProved
    cases x with
    | error er =>
      dsimp only
      rw [sep_assoc]
      refine Triple.pure_pre fun hy => ?_
      subst hy
      refine Triple.call hTakeProof_err (R := ownTx t tx' ∗∗ _) (by rw [emp_sep]) ?_
      refine Triple.ret fun m hm => ?_
      rw [emp_sep] at hm
      have := stepped_set (db' := s.db) (r := .fail er) ha ht hid hflat hm
      rwa [hsame] at this
    | ok raw =>
      dsimp only
      rw [ex_sep]
      refine Triple.ex_pre fun out => ?_
      rw [sep_assoc]
      refine Triple.pure_pre fun hy => ?_
      subst hy
      refine Triple.call hTakeProof_ok (by frames) ?_
      refine Triple.ret fun m hm => ?_
      rw [emp_sep] at hm
      have := stepped_set (db' := s.db) (r := .bytes raw) ha ht hid hflat hm
      rwa [hsame] at this
  | commit id =>
    obtain ⟨tx, e1, e2⟩ := Res.bind_eq_ok.1 e
    obtain ⟨⟨db', tx', x⟩, e3, e4⟩ := Res.bind_eq_ok.1 e2
    cases e4
    refine with_tx ha (tx_some e1) fun t ht hid => ?_
    rw [hdb]
    refine Triple.call (hTxCommit_spec (t := t) e3) (by frames) ?_
    exact Triple.ret fun m hm => stepped_set (r := .ofUnit x) ha ht hid (txCommit_flat hflat e3) hm
  | reopen rand =>
    obtain ⟨⟨d, x⟩, e1, e2⟩ := Res.bind_eq_ok.1 e
    cases x with
    | error er => cases e2
    | ok db' =>
      cases e2
      have hn : ∀ i, s.txs i = none := hn
      have hall : ∀ is : List Nat, ∀ m, star is (fun i => ownH (s.txs i) (hs.txs i)) m → emp m := by
        intro is
        induction is with
        | nil => intro m hm; exact hm
        | cons i is ih =>
          rintro m ⟨m1, m2, hd, he, h1, h2⟩ a
          rw [hn i] at h1
          rw [he, (ownH_none h1).2 a, ih m2 h2 a]; rfl
      refine Triple.pre (P' := pts hs.obj .raw ∗∗ pts hs.lock .raw) (fun m hm => ?_) ?_
      · have hm : (star ids (fun i => ownH (s.txs i) (hs.txs i)) ∗∗ pts hs.obj .raw ∗∗ pts hs.lock .raw) m := by
          unfold sysHeap at hm; perm hm
        have := sep_mono (hall ids) hm
        rwa [emp_sep] at this
      · unfold hStep
        rw [hdb]
        refine Triple.bind (Q0 := fun _ => emp) (P0 := pts hs.obj .raw ∗∗ pts hs.lock .raw) (R := emp) ?_ (sep_emp _).symm fun _ => ?_
        · refine Triple.free (a := hs.lock) (by frames) ?_
          refine Triple.last (Triple.free (a := hs.obj) (by frames) ?_)
          exact Triple.ret fun _ h => h
        rw [sep_emp]
        refine Triple.bind (Q0 := fun y => ex fun obj => ex fun lock => lpure (y = (d, .ok ⟨db', obj, lock, fun _ => none⟩)) ∗∗ pts obj .raw ∗∗ pts lock .raw)
          (P0 := emp) (R := emp) ?_ (sep_emp _).symm fun y => ?_
        · refine Triple.malloc fun obj => ?_
          refine Triple.lift e1 ?_
          refine Triple.malloc fun lock => ?_
          refine Triple.ret fun m hm => ⟨obj, lock, lpure_sep.2 ⟨rfl, ?_⟩⟩
          perm hm
        rw [sep_emp]
        refine Triple.ex_pre fun obj => Triple.ex_pre fun lock => Triple.pure_pre fun hy => ?_
        subst hy
        refine Triple.ret fun m hm => ⟨[], lpure_sep.2 ⟨⟨rfl, rfl, dbOpen_flat e1, List.nodup_nil, fun i _ => ⟨rfl, rfl⟩⟩, ?_⟩⟩
        show (pts obj .raw ∗∗ pts lock .raw ∗∗ emp) m
        perm hm
  | get1 k h =>
    obtain ⟨⟨db', x⟩, e1, e2⟩ := Res.bind_eq_ok.1 e
    cases e2
    unfold hStep
    rw [hdb]
    refine one (f := Ret.ofBytes) (hUrkelGet_spec hflat e1) ?_
    obtain ⟨⟨db1, o⟩, e3, e4⟩ := Res.bind_eq_ok.1 e1
    have hf := txCreate_flat hflat e3
    cases o with
    | error er => cases e4; exact hf
    | ok tx =>
      obtain ⟨_, _, e5⟩ := Res.bind_eq_ok.1 e4
      obtain ⟨_, _, e6⟩ := Res.bind_eq_ok.1 e5
      cases e6; exact hf
  | has1 k h =>
    obtain ⟨⟨db', x⟩, e1, e2⟩ := Res.bind_eq_ok.1 e
    cases e2
    unfold hStep
    rw [hdb]
    refine one (f := Ret.ofUnit) (hUrkelHas_spec hflat e1) ?_
    obtain ⟨⟨db1, o⟩, e3, e4⟩ := Res.bind_eq_ok.1 e1
    have hf := txCreate_flat hflat e3
    cases o with
    | error er => cases e4; exact hf
    | ok tx =>
      obtain ⟨_, _, e5⟩ := Res.bind_eq_ok.1 e4
      obtain ⟨_, _, e6⟩ := Res.bind_eq_ok.1 e5
      cases e6; exact hf
  | insert1 k v =>
    obtain ⟨⟨db', x⟩, e1, e2⟩ := Res.bind_eq_ok.1 e
    cases e2
    unfold hStep
    rw [hdb]
    refine one (f := Ret.ofUnit) (hUrkelInsert_spec hflat e1) ?_
    obtain ⟨⟨db1, o⟩, e3, e4⟩ := Res.bind_eq_ok.1 e1
    have hf := txCreate_flat hflat e3
    cases o with
    | error er => cases e4; exact hf
    | ok tx =>
      obtain ⟨⟨tx1, r1⟩, _, e5⟩ := Res.bind_eq_ok.1 e4
      cases r1 with
      | error er =>
        obtain ⟨_, _, e6⟩ := Res.bind_eq_ok.1 e5
        cases e6; exact hf
      | ok _ =>
        obtain ⟨⟨db2, tx2, r2⟩, e7, e6⟩ := Res.bind_eq_ok.1 e5
        have hf2 := txCommit_flat hf e7
        obtain ⟨_, _, e6⟩ := Res.bind_eq_ok.1 e6
        cases e6; exact hf2
  | remove1 k =>
    obtain ⟨⟨db', x⟩, e1, e2⟩ := Res.bind_eq_ok.1 e
    cases e2
    unfold hStep
    rw [hdb]
    refine one (f := Ret.ofUnit) (hUrkelRemove_spec hflat e1) ?_
    obtain ⟨⟨db1, o⟩, e3, e4⟩ := Res.bind_eq_ok.1 e1
    have hf := txCreate_flat hflat e3
    cases o with
    | error er => cases e4; exact hf
    | ok tx =>
      obtain ⟨⟨tx1, r1⟩, _, e5⟩ := Res.bind_eq_ok.1 e4
      cases r1 with
      | error er =>
        obtain ⟨_, _, e6⟩ := Res.bind_eq_ok.1 e5
        cases e6; exact hf
      | ok _ =>
        obtain ⟨⟨db2, tx2, r2⟩, e7, e6⟩ := Res.bind_eq_ok.1 e5
        have hf2 := txCommit_flat hf e7
        obtain ⟨_, _, e6⟩ := Res.bind_eq_ok.1 e6
        cases e6; exact hf2
  | prove1 k h =>
    obtain ⟨⟨db', x⟩, e1, e2⟩ := Res.bind_eq_ok.1 e
    cases e2
    unfold hStep
    rw [hdb]
    have hspec := hUrkelProve_spec (A := A) hflat e1
    have hf : Flat db'.store.state.rootNode := by
      obtain ⟨⟨db1, o⟩, e3, e4⟩ := Res.bind_eq_ok.1 e1
      have hf := txCreate_flat hflat e3
      cases o with
      | error er => cases e4; exact hf
      | ok tx =>
        obtain ⟨⟨_, _⟩, _, e5⟩ := Res.bind_eq_ok.1 e4
        obtain ⟨_, _, e6⟩ := Res.bind_eq_ok.1 e5
        cases e6; exact hf
    cases x with
    | error er =>
      refine Triple.call hspec (R := sysHeap ids s hs) (emp_sep _).symm ?_
      rw [emp_sep]
      exact Triple.ret fun m hm => stepped_db ha hf hm
    | ok raw =>
      refine Triple.bind hspec (R := sysHeap ids s hs) (emp_sep _).symm fun y => ?_
      dsimp only
      rw [ex_sep]
      refine Triple.ex_pre fun out => ?_
      rw [sep_assoc]
      refine Triple.pure_pre fun hy => ?_
      subst hy
      refine Triple.call hTakeProof_ok (R := sysHeap ids s hs) rfl ?_
      rw [emp_sep]
      exact Triple.ret fun m hm => stepped_db ha hf hm

end Urkel
