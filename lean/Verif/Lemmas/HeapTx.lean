import Verif.Lemmas.FlatState
/-
Transactions and one-shot calls in Model/Heap.lean.
-/
namespace Urkel

theorem proofNodesSize_ne : ∀ ns : List PNode, NoErr (proofNodesSize ns)
  | [] => .ok _
  | n :: ns => by
    unfold proofNodesSize
    split
    · exact (bitsSize_ne _).bind fun _ => (proofNodesSize_ne ns).bind fun _ => .ok _
    · exact (proofNodesSize_ne ns).bind fun _ => .ok _

theorem proofSize_ne (p : Proof) : NoErr (proofSize p) := by
  refine (proofNodesSize_ne _).bind fun _ => ?_
  split
  · exact .ok _
  · exact (bitsSize_ne _).bind fun _ => .ok _
  · exact .ok _
  · exact .ok _

theorem proofWriteNodes_ne : ∀ (ns : List PNode) (i : Nat) (b : Bytes), NoErr (proofWriteNodes ns i b)
  | [], _, _ => .ok _
  | n :: ns, i, b => by
    unfold proofWriteNodes
    split
    · exact (setBit_ne _ _ _).bind fun _ => (bitsWrite_ne _).bind fun _ => (proofWriteNodes_ne ns _ _).bind fun _ => .ok _
    · exact (proofWriteNodes_ne ns _ _).bind fun _ => .ok _

theorem proofWrite_ne (p : Proof) : NoErr (proofWrite p) := by
  unfold proofWrite
  refine NoErr.ite .ub ((proofWriteNodes_ne _ _ _).bind fun _ => ?_)
  dsimp only
  split
  · exact .ok _
  · exact (bitsWrite_ne _).bind fun _ => .ok _
  · exact .ok _
  · exact .ok _

/-- A transaction: its block, its lock, and the tree. After a failed commit `tx->root`
points to no block. -/
def ownTx (t : Nat) (x : Tx) : SProp := ex fun root => ex fun lock =>
  pts t (.tx root lock) ∗∗ pts lock .raw ∗∗ (match x.root with | some n => own root n | none => emp)

theorem ownTx_intro {t root lock : Nat} {n : Node} {m : Nat → Option Cell} (h : (pts t (.tx root lock) ∗∗ pts lock .raw ∗∗ own root n) m) :
    ownTx t ⟨some n⟩ m := ⟨root, lock, h⟩

/-! ### Getting a root -/

theorem hCopy_spec {A : Alloc} {n : Node} (hn : Flat n) {β : Type} {P : SProp} {Q : β → SProp} {k : Nat → HM β}
    (h : ∀ a, Triple (own a n ∗∗ P) (k a) Q) : Triple P (hCopy A n >>= k) Q := by
  cases n with
  | null => exact Triple.malloc h
  | hash hs p => exact Triple.malloc h
  | leaf => exact hn.elim
  | internal => exact hn.elim

/-- What `urkel_store_get_history` leaves. -/
theorem hGetHistory_some {A : Alloc} {E : Env} {s s' : Store} {h : B32} {n : Node} (e : readHistory E s h = .ok (s', some n))
    (hs : Flat s.state.rootNode) {β : Type} {P : SProp} {Q : β → SProp} {k : Store × Option Nat → HM β}
    (hk : ∀ a, Triple (own a n ∗∗ P) (k (s', some a)) Q) : Triple P (hGetHistory A E s h >>= k) Q := by
  have : Triple emp (hGetHistory A E s h) (fun x => ex fun a => lpure (x = (s', some a)) ∗∗ own a n) := by
    refine Triple.malloc fun out => ?_
    refine Triple.lift e ?_
    have hf := readHistory_flat e hs
    cases n with
    | null =>
      refine Triple.update (a := out) (by frames) ?_
      exact Triple.ret fun m hm => ⟨out, lpure_sep.2 ⟨rfl, by rw [sep_emp] at hm; exact hm⟩⟩
    | hash hs p =>
      refine Triple.update (a := out) (by frames) ?_
      exact Triple.ret fun m hm => ⟨out, lpure_sep.2 ⟨rfl, by rw [sep_emp] at hm; exact hm⟩⟩
    | leaf => exact hf.elim
    | internal => exact hf.elim
  refine Triple.bind this (R := P) (emp_sep _).symm fun x => ?_
  rw [ex_sep]
  refine Triple.ex_pre fun a => ?_
  rw [sep_assoc]
  exact Triple.pure_pre fun e => by rw [e]; exact hk a

theorem hGetHistory_none {A : Alloc} {E : Env} {s s' : Store} {h : B32} (e : readHistory E s h = .ok (s', none))
    {β : Type} {P : SProp} {Q : β → SProp} {k : Store × Option Nat → HM β}
    (hk : Triple P (k (s', none)) Q) : Triple P (hGetHistory A E s h >>= k) Q := by
  have : Triple emp (hGetHistory A E s h) (fun x => lpure (x = (s', none)) ∗∗ emp) := by
    refine Triple.malloc fun out => ?_
    refine Triple.lift e ?_
    refine Triple.free (a := out) (by frames) ?_
    exact Triple.ret fun m hm => lpure_sep.2 ⟨rfl, hm⟩
  refine Triple.call this (R := P) (emp_sep _).symm ?_
  rw [emp_sep]; exact hk

/-! ### Transactions -/

/-- A new handle, or an error. -/
def hNew (db' : Db) (r : Except Err Tx) (x : Db × Except Err Nat) : SProp := match r with
  | .ok tx => ex fun t => lpure (x = (db', .ok t)) ∗∗ ownTx t tx
  | .error e => lpure (x = (db', .error e)) ∗∗ emp

theorem hTxCreate_hist {A : Alloc} {E : Env} {db db' : Db} {h : B32} {r : Except Err Tx} (hs : Flat db.store.state.rootNode)
    (e : (do
      let (s, r) ← readHistory E db.store h
      match r with
      | some n => pure ({ db with store := s }, .ok ⟨some n⟩)
      | none => pure ({ db with store := s }, .error .ENOTFOUND) : Res (Db × Except Err Tx)) = .ok (db', r)) (t : Nat) :
    Triple (pts t .raw) (do
      let (s, r) ← hGetHistory A E db.store h
      match r with
      | none => do
        hCreateFail A t
        pure ({ db with store := s }, .error .ENOTFOUND)
      | some root => do
        let t ← hCreateDone A t root
        pure ({ db with store := s }, .ok t)) (hNew db' r) := by
  obtain ⟨⟨s', o⟩, e1, e⟩ := Res.bind_eq_ok.1 e
  cases o with
  | none =>
    cases e
    refine hGetHistory_none e1 ?_
    refine Triple.bind (Q0 := fun _ => emp) (R := emp) (P0 := pts t .raw) ?_ (sep_emp _).symm fun _ => ?_
    · refine Triple.malloc fun lock => ?_
      refine Triple.free (a := lock) (by frames) ?_
      refine Triple.last (Triple.free (a := t) (by frames) ?_)
      exact Triple.ret fun _ h => h
    · exact Triple.ret fun m hm => lpure_sep.2 ⟨rfl, by rw [sep_emp] at hm; exact hm⟩
  | some n =>
    cases e
    refine hGetHistory_some e1 hs fun root => ?_
    refine Triple.bind (Q0 := fun t' => lpure (t' = t) ∗∗ ownTx t ⟨some n⟩) (R := emp) (P0 := own root n ∗∗ pts t .raw) ?_ (sep_emp _).symm fun t' => ?_
    · refine Triple.malloc fun lock => ?_
      refine Triple.update (a := t) (by frames) ?_
      refine Triple.ret fun m hm => lpure_sep.2 ⟨rfl, ownTx_intro (root := root) (lock := lock) ?_⟩
      perm hm
    · rw [sep_emp]
      refine Triple.pure_pre fun ht => ?_
      subst ht
      exact Triple.ret fun m hm => ⟨t', lpure_sep.2 ⟨rfl, hm⟩⟩

theorem hTxCreate_spec {A : Alloc} {E : Env} {db db' : Db} {h : Option B32} {r : Except Err Tx} (hs : Flat db.store.state.rootNode)
    (e : txCreate E db h = .ok (db', r)) : Triple emp (hTxCreate A E db h) (hNew db' r) := by
  unfold txCreate at e
  refine Triple.malloc fun t => ?_
  rw [sep_emp]
  cases h with
  | some h => exact hTxCreate_hist hs e t
  | none =>
    dsimp only at e
    by_cases hr : db.revert = true
    · rw [if_pos hr] at e
      dsimp only
      rw [if_pos hr]
      exact hTxCreate_hist hs e t
    · rw [if_neg hr] at e
      dsimp only
      rw [if_neg hr]
      cases e
      refine hCopy_spec hs fun root => ?_
      refine Triple.bind (Q0 := fun t' => lpure (t' = t) ∗∗ ownTx t ⟨some db.store.state.rootNode⟩) (R := emp)
        (P0 := own root db.store.state.rootNode ∗∗ pts t .raw) ?_ (sep_emp _).symm fun t' => ?_
      · refine Triple.malloc fun lock => ?_
        refine Triple.update (a := t) (by frames) ?_
        refine Triple.ret fun m hm => lpure_sep.2 ⟨rfl, ownTx_intro (root := root) (lock := lock) ?_⟩
        perm hm
      · rw [sep_emp]
        refine Triple.pure_pre fun ht => ?_
        subst ht
        exact Triple.ret fun m hm => ⟨t', lpure_sep.2 ⟨rfl, hm⟩⟩

/-- Using a transaction that has a root. -/
theorem loadTx_spec {t root lock : Nat} {P R : SProp} {β : Type} {Q : β → SProp} {k : Nat × Nat → HM β} (hP : P = pts t (.tx root lock) ∗∗ R)
    (h : Triple P (k (root, lock)) Q) : Triple P (loadTx t >>= k) Q := by
  have : Triple P (loadTx t) (fun r => lpure (r = (root, lock)) ∗∗ P) := by
    refine Triple.load hP ?_
    exact Triple.ret fun m hm => lpure_sep.2 ⟨rfl, hm⟩
  refine Triple.call this (R := emp) (sep_emp _).symm ?_
  rw [sep_emp]; exact h

theorem Tx.node_ok {t : Tx} {n : Node} (e : t.node = .ok n) : t = ⟨some n⟩ := by
  obtain ⟨o⟩ := t
  cases o with
  | none => cases e
  | some n => cases e; rfl

theorem Tx.node_ne (t : Tx) : NoErr t.node := by
  obtain ⟨o⟩ := t
  cases o
  exacts [.ub, .ok _]

theorem hTxDestroy_spec {t : Nat} {x : Tx} (e : txDestroy x = .ok ()) : Triple (ownTx t x) (hTxDestroy t) (fun _ => emp) := by
  obtain ⟨n, e1, _⟩ := Res.bind_eq_ok.1 e
  cases Tx.node_ok e1
  refine Triple.ex_pre fun root => Triple.ex_pre fun lock => ?_
  refine loadTx_spec (by frames) ?_
  refine Triple.destroy (a := root) (n := n) (by frames) ?_
  refine Triple.free (a := lock) (by frames) ?_
  refine Triple.last (Triple.free (a := t) (by frames) ?_)
  exact Triple.ret fun _ h => h

theorem hTxClear_spec {A : Alloc} {db : Db} {t : Nat} {x x' : Tx} (hs : Flat db.store.state.rootNode) (e : txClear db x = .ok x') :
    Triple (ownTx t x) (hTxClear A db t) (fun _ => ownTx t x') := by
  obtain ⟨n, e1, e01⟩ := Res.bind_eq_ok.1 e
  cases Tx.node_ok e1
  cases e01
  refine Triple.ex_pre fun root => Triple.ex_pre fun lock => ?_
  refine loadTx_spec (by frames) ?_
  refine Triple.destroy (a := root) (n := n) (by frames) ?_
  refine hCopy_spec hs fun root' => ?_
  refine Triple.last (Triple.update (a := t) (by frames) ?_)
  refine Triple.ret fun m hm => ownTx_intro (root := root') (lock := lock) ?_
  have hm : (pts t (.tx root' lock) ∗∗ own root' db.store.state.rootNode ∗∗ pts lock .raw) m := hm
  perm hm

theorem hTxRoot_spec {E : Env} {t : Nat} {x x' : Tx} {h : B32} (e : txRoot E x = .ok (x', h)) :
    Triple (ownTx t x) (hTxRoot E t) (fun r => lpure (r = h) ∗∗ ownTx t x') := by
  obtain ⟨n, e1, e01⟩ := Res.bind_eq_ok.1 e
  obtain ⟨⟨h', n'⟩, e2, e02⟩ := Res.bind_eq_ok.1 e01
  cases Tx.node_ok e1
  cases e02
  refine Triple.ex_pre fun root => Triple.ex_pre fun lock => ?_
  refine loadTx_spec (by frames) ?_
  refine Triple.last (Triple.call (hHash_spec (a := root) e2) (by frames) ?_)
  refine Triple.ret fun m hm => lpure_sep.2 ⟨rfl, ownTx_intro (root := root) (lock := lock) ?_⟩
  perm hm

theorem hTxInject_spec {A : Alloc} {E : Env} {db db' : Db} {t : Nat} {x x' : Tx} {h : B32} {r : Except Err Unit} (hs : Flat db.store.state.rootNode)
    (e : txInject E db x h = .ok (db', x', r)) : Triple (ownTx t x) (hTxInject A E db t h) (fun y => lpure (y = (db', r)) ∗∗ ownTx t x') := by
  obtain ⟨⟨s', o⟩, e1, e01⟩ := Res.bind_eq_ok.1 e
  refine Triple.ex_pre fun root => Triple.ex_pre fun lock => ?_
  refine loadTx_spec (by frames) ?_
  cases o with
  | none =>
    cases e01
    refine hGetHistory_none e1 ?_
    exact Triple.ret fun m hm => lpure_sep.2 ⟨rfl, root, lock, hm⟩
  | some n =>
    obtain ⟨n0, e2, e02⟩ := Res.bind_eq_ok.1 e01
    cases Tx.node_ok e2
    cases e02
    refine hGetHistory_some e1 hs fun new => ?_
    refine Triple.destroy (a := root) (n := n0) (by frames) ?_
    refine Triple.update (a := t) (by frames) ?_
    refine Triple.ret fun m hm => lpure_sep.2 ⟨rfl, ownTx_intro (root := new) (lock := lock) ?_⟩
    have hm : (pts t (.tx new lock) ∗∗ own new n ∗∗ pts lock .raw) m := hm
    perm hm

theorem hTxGet_spec {A : Alloc} {db : Db} {t : Nat} {x : Tx} {k : B32} {r : Except Err Bytes} (e : catchErr (txGet db x k) = .ok r) :
    Triple (ownTx t x) (hTxGet A db t k) (fun y => lpure (y = r) ∗∗ ownTx t x) := by
  obtain ⟨n, e1, e01⟩ := catch_bind e (Tx.node_ne _)
  cases Tx.node_ok e1
  refine Triple.ex_pre fun root => Triple.ex_pre fun lock => ?_
  refine loadTx_spec (by frames) ?_
  refine Triple.last (Triple.call (hGet_spec _ _ root _ _ e01) (by frames) ?_)
  refine Triple.ret fun m hm => lpure_sep.2 ⟨rfl, ownTx_intro (root := root) (lock := lock) ?_⟩
  perm hm

theorem hTxHas_spec {A : Alloc} {db : Db} {t : Nat} {x : Tx} {k : B32} {r : Except Err Unit} (e : catchErr (txHas db x k) = .ok r) :
    Triple (ownTx t x) (hTxHas A db t k) (fun y => lpure (y = r) ∗∗ ownTx t x) := by
  obtain ⟨n, e1, e01⟩ := catch_bind e (Tx.node_ne _)
  cases Tx.node_ok e1
  refine Triple.ex_pre fun root => Triple.ex_pre fun lock => ?_
  refine loadTx_spec (by frames) ?_
  rcases catch_bind' e01 with ⟨er, e2, rfl⟩ | ⟨b, e2, e02⟩
  · refine Triple.call (hGet_spec _ _ root _ (.error er) (by rw [e2]; rfl)) (by frames) ?_
    refine Triple.ret fun m hm => lpure_sep.2 ⟨rfl, ownTx_intro (root := root) (lock := lock) ?_⟩
    perm hm
  · cases e02
    refine Triple.call (hGet_spec _ _ root _ (.ok b) (by rw [e2]; rfl)) (by frames) ?_
    refine Triple.ret fun m hm => lpure_sep.2 ⟨rfl, ownTx_intro (root := root) (lock := lock) ?_⟩
    perm hm

theorem hTxInsert_spec {A : Alloc} {E : Env} {db : Db} {t : Nat} {x x' : Tx} {k : B32} {v : Bytes} {r : Except Err Unit}
    (e : txInsert E db x k v = .ok (x', r)) : Triple (ownTx t x) (hTxInsert A E db t k v) (fun y => lpure (y = r) ∗∗ ownTx t x') := by
  unfold txInsert at e
  unfold hTxInsert
  by_cases hv : v.length > valueSize
  · rw [if_pos hv] at e ⊢
    cases e
    exact Triple.ret fun m hm => lpure_sep.2 ⟨rfl, hm⟩
  · rw [if_neg hv] at e ⊢
    obtain ⟨n, e1, e⟩ := Res.bind_eq_ok.1 e
    cases Tx.node_ok e1
    refine Triple.ex_pre fun root => Triple.ex_pre fun lock => ?_
    refine loadTx_spec (by frames) ?_
    cases e2 : treeInsert E db.store k v treeFuel n 0 with
    | ok n' =>
      rw [e2] at e
      cases e
      refine Triple.root (hInsert_spec _ _ root _ (.ok n') (by rw [e2]; rfl)) (by frames) fun root' => ?_
      refine Triple.update (a := t) (by frames) ?_
      refine Triple.ret fun m hm => lpure_sep.2 ⟨rfl, ownTx_intro (root := root') (lock := lock) ?_⟩
      have hm : (pts t (.tx root' lock) ∗∗ own root' n' ∗∗ pts lock .raw) m := hm
      perm hm
    | err er =>
      rw [e2] at e
      refine Triple.failed (hInsert_spec _ _ root _ (.error er) (by rw [e2]; rfl)) (by frames) ?_
      cases er <;> (cases e; exact Triple.ret fun m hm => lpure_sep.2 ⟨rfl, root, lock, hm⟩)
    | abort => rw [e2] at e; cases e
    | ub => rw [e2] at e; cases e

theorem hTxRemove_spec {A : Alloc} {db : Db} {t : Nat} {x x' : Tx} {k : B32} {r : Except Err Unit}
    (e : txRemove db x k = .ok (x', r)) : Triple (ownTx t x) (hTxRemove A db t k) (fun y => lpure (y = r) ∗∗ ownTx t x') := by
  obtain ⟨n, e1, e01⟩ := Res.bind_eq_ok.1 e
  cases Tx.node_ok e1
  refine Triple.ex_pre fun root => Triple.ex_pre fun lock => ?_
  refine loadTx_spec (by frames) ?_
  cases e2 : treeRemove db.store k treeFuel n 0 with
  | ok n' =>
    rw [e2] at e01
    cases e01
    refine Triple.root (hRemove_spec _ _ root _ (.ok n') (by rw [e2]; rfl)) (by frames) fun root' => ?_
    refine Triple.update (a := t) (by frames) ?_
    refine Triple.ret fun m hm => lpure_sep.2 ⟨rfl, ownTx_intro (root := root') (lock := lock) ?_⟩
    have hm : (pts t (.tx root' lock) ∗∗ own root' n' ∗∗ pts lock .raw) m := hm
    perm hm
  | err er =>
    rw [e2] at e01
    refine Triple.failed (hRemove_spec _ _ root _ (.error er) (by rw [e2]; rfl)) (by frames) ?_
    cases e01; exact Triple.ret fun m hm => lpure_sep.2 ⟨rfl, root, lock, hm⟩
  | abort => rw [e2] at e01; cases e01
  | ub => rw [e2] at e01; cases e01

/-! ### Proofs -/

theorem loadProof_spec : ∀ (as : List Nat) (ns : List PNode), Triple (ownP as ns) (loadProof as) (fun y => lpure (y = ns) ∗∗ ownP as ns)
  | [], [] => Triple.ret fun m hm => lpure_sep.2 ⟨rfl, hm⟩
  | a :: as, n :: ns => by
    refine Triple.split (P' := pts a (.pnode n) ∗∗ ownP as ns) rfl ?_
    refine Triple.load (a := a) (by frames) ?_
    refine Triple.call (loadProof_spec as ns) (by frames) ?_
    refine Triple.ret fun m hm => lpure_sep.2 ⟨rfl, ?_⟩
    show (pts a (.pnode n) ∗∗ ownP as ns) m
    perm hm
  | [], n :: ns => Triple.pre (P' := lpure False ∗∗ emp) (fun m hm => by rw [sep_emp]; exact hm) (Triple.pure_pre fun e => e.elim)
  | a :: as, [] => Triple.pre (P' := lpure False ∗∗ emp) (fun m hm => by rw [sep_emp]; exact hm) (Triple.pure_pre fun e => e.elim)

theorem hProofClear_spec : ∀ (as : List Nat) (ns : List PNode), Triple (ownP as ns) (hProofClear as) (fun _ => emp)
  | [], [] => Triple.ret fun m hm => hm
  | a :: as, n :: ns => by
    refine Triple.split (P' := pts a (.pnode n) ∗∗ ownP as ns) rfl ?_
    refine Triple.free (a := a) (by frames) ?_
    exact hProofClear_spec as ns
  | [], n :: ns => Triple.pre (P' := lpure False ∗∗ emp) (fun m hm => by rw [sep_emp]; exact hm) (Triple.pure_pre fun e => e.elim)
  | a :: as, [] => Triple.pre (P' := lpure False ∗∗ emp) (fun m hm => by rw [sep_emp]; exact hm) (Triple.pure_pre fun e => e.elim)

theorem treeProve_ne (E : Env) (s : Store) (key : B32) : ∀ (fuel : Nat) (n : Node) (d p : Nat), NoErr (treeProve E s key fuel n d p)
  | 0, _, _, _ => .ub
  | fuel + 1, n, d, p => by
    cases n with
    | null => exact .ok _
    | internal h q pre l r =>
      unfold treeProve
      refine (bitsHas_ne _ _ _).bind fun has => .ite ((nodeHash_ne _ _).bind fun _ => (nodeHash_ne _ _).bind fun _ => .ok _) ?_
      exact (getBit_ne _ _).bind fun _ => (nodeHash_ne _ _).bind fun _ => (NoErr.check _).bind fun _ => (treeProve_ne E s key fuel _ _ _).bind fun _ => .ok _
    | leaf h q k v vp =>
      unfold treeProve
      refine (storeRetrieve_ne _ _ _).bind fun o => ?_
      cases o with
      | none => exact .ok _
      | some x => exact .ite (.ok _) (.ok _)
    | hash h q =>
      unfold treeProve
      refine (storeResolve_ne _ _ _).bind fun o => ?_
      cases o with
      | none => exact .ok _
      | some rn => exact (treeProve_ne E s key fuel _ _ _).bind fun _ => .ok _

theorem txProve_ne (E : Env) (db : Db) (t : Tx) (k : B32) : NoErr (txProve E db t k) := by
  unfold txProve
  refine (Tx.node_ne _).bind fun n => (treeProve_ne E _ _ _ _ _ _).bind fun x => ?_
  obtain ⟨o, n'⟩ := x
  cases o with
  | none => exact .ok _
  | some pf => exact (proofSize_ne _).bind fun _ => (proofWrite_ne _).bind fun _ => .ite .ub (.ok _)

/-- The buffer with the proof, or an error, and the transaction. -/
def hProved (t : Nat) (r : Tx × Except Err Bytes) (y : Except Err Nat) : SProp := match r.2 with
  | .ok raw => ex fun out => lpure (y = .ok out) ∗∗ pts out (.bytes raw) ∗∗ ownTx t r.1
  | .error e => lpure (y = .error e) ∗∗ ownTx t r.1

theorem hTxProve_spec {A : Alloc} {E : Env} {db : Db} {t : Nat} {x : Tx} {k : B32} {r : Tx × Except Err Bytes}
    (e : txProve E db x k = .ok r) : Triple (ownTx t x) (hTxProve A E db t k) (hProved t r) := by
  obtain ⟨n, e1, e01⟩ := Res.bind_eq_ok.1 e
  cases Tx.node_ok e1
  refine Triple.ex_pre fun root => Triple.ex_pre fun lock => ?_
  refine loadTx_spec (by frames) ?_
  obtain ⟨⟨o, n'⟩, e2, e02⟩ := Res.bind_eq_ok.1 e01
  refine Triple.bind (hProve_spec _ _ root _ _ (o, n') e2) (by frames) fun ⟨as, ret⟩ => ?_
  unfold hProof
  rw [ex_sep]
  refine Triple.ex_pre fun ns => ?_
  rw [sep_assoc]
  refine Triple.pure_pre fun hret => ?_
  dsimp only at hret
  cases o with
  | none =>
    cases e02
    cases hret
    refine Triple.bind (hProofClear_spec as ns) (by frames) fun _ => ?_
    refine Triple.ret fun m hm => lpure_sep.2 ⟨rfl, ownTx_intro (root := root) (lock := lock) ?_⟩
    rw [emp_sep] at hm
    perm hm
  | some pf =>
    obtain ⟨hret, rfl⟩ := hret
    subst hret
    obtain ⟨size, e3, e03⟩ := Res.bind_eq_ok.1 e02
    obtain ⟨raw, e4, e04⟩ := Res.bind_eq_ok.1 e03
    refine Triple.call (loadProof_spec as pf.nodes) (by frames) ?_
    refine Triple.lift e3 ?_
    refine Triple.lift e4 ?_
    split at e04
    · cases e04
    · rename_i hne
      cases e04
      rw [if_neg hne]
      refine Triple.malloc fun out => ?_
      refine Triple.bind (hProofClear_spec as pf.nodes) (by frames) fun _ => ?_
      refine Triple.ret fun m hm => ⟨out, lpure_sep.2 ⟨rfl, ?_⟩⟩
      rw [sep_comm]
      refine sep_mono (P := pts t (.tx root lock) ∗∗ pts lock .raw ∗∗ own root n') (fun m hm => ownTx_intro (n := n') (root := root) (lock := lock) hm) ?_
      rw [emp_sep] at hm
      perm hm

/-! ### Commits -/

theorem hTxCommit_spec {A : Alloc} {E : Env} {db db' : Db} {t : Nat} {x x' : Tx} {r : Except Err Unit}
    (e : txCommit E db x = .ok (db', x', r)) : Triple (ownTx t x) (hTxCommit A E db t) (fun y => lpure (y = (db', r)) ∗∗ ownTx t x') := by
  obtain ⟨n, e1, e01⟩ := Res.bind_eq_ok.1 e
  cases Tx.node_ok e1
  obtain ⟨⟨s1, o⟩, e2, e02⟩ := Res.bind_eq_ok.1 e01
  refine Triple.ex_pre fun root => Triple.ex_pre fun lock => ?_
  refine loadTx_spec (by frames) ?_
  refine Triple.split (P' := own root n ∗∗ pts t (.tx root lock) ∗∗ pts lock .raw) (by show _ ∗∗ _ ∗∗ own root n = _; ac_rfl) ?_
  have hw := hWrite_spec (A := A) (a := root) e2
  cases o with
  | none =>
    cases e02
    have hc : Triple (own root n) (hTreeCommit A E db root) (fun y => lpure (y = ({ db with store := s1 }, none)) ∗∗ emp) := by
      refine Triple.wroteNone hw (R := emp) (sep_emp _).symm fun n' => ?_
      refine Triple.destroy (a := root) (n := n') (by frames) ?_
      exact Triple.ret fun m hm => lpure_sep.2 ⟨rfl, hm⟩
    refine Triple.call hc rfl ?_
    refine Triple.ret fun m hm => lpure_sep.2 ⟨rfl, root, lock, ?_⟩
    show (pts t (.tx root lock) ∗∗ pts lock .raw ∗∗ emp) m
    perm hm
  | some n' =>
    obtain ⟨⟨s2, ok⟩, e3, e03⟩ := Res.bind_eq_ok.1 e02
    have hflat := treeWrite_flat e2
    cases ok with
    | false =>
      cases e03
      have hc : Triple (own root n) (hTreeCommit A E db root) (fun y => lpure (y = ({ db with store := s2 }, none)) ∗∗ emp) := by
        refine Triple.wrote hw (R := emp) (sep_emp _).symm fun root' => ?_
        refine Triple.call (hPeek1_flat (a := root') hflat) rfl ?_
        refine Triple.lift e3 ?_
        rw [sep_emp]
        have hf : Triple (own root' n') (hFree root') (fun _ => emp) := by
          cases n' with
          | null => exact hFree_null
          | hash => exact hFree_hash
          | leaf => exact hflat.elim
          | internal => exact hflat.elim
        refine Triple.freeNode hf (R := emp) (sep_emp _).symm ?_
        exact Triple.ret fun m hm => lpure_sep.2 ⟨rfl, hm⟩
      refine Triple.call hc rfl ?_
      refine Triple.ret fun m hm => lpure_sep.2 ⟨rfl, root, lock, ?_⟩
      show (pts t (.tx root lock) ∗∗ pts lock .raw ∗∗ emp) m
      perm hm
    | true =>
      cases e03
      have hc : Triple (own root n) (hTreeCommit A E db root)
          (fun y => ex fun root' => lpure (y = ({ db with store := s2, hash := rootNodeHash n' }, some root')) ∗∗ own root' n') := by
        refine Triple.wrote hw (R := emp) (sep_emp _).symm fun root' => ?_
        refine Triple.call (hPeek1_flat (a := root') hflat) rfl ?_
        refine Triple.lift e3 ?_
        rw [sep_emp]
        exact Triple.ret fun m hm => ⟨root', lpure_sep.2 ⟨rfl, hm⟩⟩
      refine Triple.bind hc rfl fun y => ?_
      rw [ex_sep]
      refine Triple.ex_pre fun root' => ?_
      rw [sep_assoc]
      refine Triple.pure_pre fun hy => ?_
      subst hy
      refine Triple.update (a := t) (by frames) ?_
      refine Triple.ret fun m hm => lpure_sep.2 ⟨rfl, ownTx_intro (root := root') (lock := lock) ?_⟩
      have hm : (pts t (.tx root' lock) ∗∗ own root' n' ∗∗ pts lock .raw) m := hm
      perm hm

end Urkel
