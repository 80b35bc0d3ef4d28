import Verif.Spec.Cost
import Verif.Lemmas.KeepState
/-
How many bytes a commit appends.
-/
namespace Urkel

/-- What writing this tree appends, at most. -/
def wcost : Node → Nat
  | .null => 0
  | .hash _ _ => 0
  | .leaf _ p _ v _ => if p.isNone then 40 + (v.getD []).length else 0
  | .internal _ p _ l r => wcost l + wcost r + if p.isNone then 113 else 0

theorem cost_flat {n : Node} (h : Flat n) : wcost n = 0 := by
  cases n with
  | null => rfl
  | hash _ _ => rfl
  | leaf _ _ _ _ _ => exact h.elim
  | internal _ _ _ _ _ => exact h.elim

theorem cost_side (l r : Node) (b : Bool) : wcost (side l r b) + wcost (side l r (!b)) = wcost l + wcost r := by
  cases b <;> simp [side]; omega

theorem cost_createInternal (pre : Bits) (x y : Node) (b : Bool) : wcost (createInternal pre x y b) = wcost x + wcost y + 113 := by
  unfold createInternal
  cases b <;> simp [wcost]; omega

theorem cost_createLeaf (H : HashFn) (k : B32) (v : Bytes) : wcost (createLeaf H k v) = 40 + v.length := rfl

theorem resolve_cost {s : Store} {h : B32} {p : Ptr} {n : Node} (e : storeResolve s h p = .ok (some n)) : wcost n = 0 := by
  unfold storeResolve at e
  obtain ⟨r, e1, e⟩ := Res.bind_eq_ok.1 e
  have hr : ∀ n, r = some n → (∃ q pre hl pl hr pr, n = .internal none (some q) pre (.hash hl pl) (.hash hr pr)) ∨ ∃ q k vp, n = .leaf none (some q) k none vp := by
    intro n hn
    subst hn
    unfold storeReadNode at e1
    split at e1
    · cases e1
    · obtain ⟨x, _, e1⟩ := Res.bind_eq_ok.1 e1
      split at e1
      · cases e1
      · obtain ⟨q, e2, e1⟩ := Res.bind_eq_ok.1 e1
        cases q with
        | none => cases e1
        | some q =>
          rcases nodeRead_shape e2 with ⟨pre, hl, pl, hr, pr, rfl⟩ | ⟨k, vp, rfl⟩
          · cases e1; exact .inl ⟨_, _, _, _, _, _, rfl⟩
          · cases e1; exact .inr ⟨_, _, _, rfl⟩
  cases r with
  | none => cases e
  | some m =>
    rcases hr m rfl with ⟨q, pre, hl, pl, hr, pr, rfl⟩ | ⟨q, k, vp, rfl⟩
    · cases e; rfl
    · cases e; rfl

theorem getBit_lt {k : B32} {d : Nat} {b : Bool} (e : getBit k.bytes d = .ok b) : d < 256 := by
  by_cases h : d < 256
  · exact h
  · exfalso
    have hl := k.len
    rw [getBit_eq, List.getElem?_eq_none (by simp; omega)] at e
    cases e

theorem treeInsert_cost {E : Env} {s : Store} {key : B32} {value : Bytes} : ∀ (fuel : Nat) (n : Node) (d : Nat) (n' : Node),
    treeInsert E s key value fuel n d = .ok n' → wcost n' ≤ wcost n + (257 - d) * 113 + 40 + value.length := by
  intro fuel
  induction fuel with
  | zero => intro n d n' e; cases e
  | succ f ih =>
    intro n d n' e
    cases n with
    | null => cases e; rw [cost_createLeaf]; simp only [wcost]; omega
    | hash h p =>
      rw [treeInsert] at e
      obtain ⟨r, e1, e⟩ := Res.bind_eq_ok.1 e
      cases r with
      | none => cases e
      | some m =>
        have := ih m d n' e
        rw [resolve_cost e1] at this
        simpa [wcost] using this
    | leaf h p k v vp =>
      rw [treeInsert] at e
      split at e
      · split at e
        · cases e
        · cases e; rw [cost_createLeaf]; omega
      · obtain ⟨pre, _, e⟩ := Res.bind_eq_ok.1 e
        obtain ⟨b, e2, e⟩ := Res.bind_eq_ok.1 e
        have := getBit_lt e2
        cases e
        rw [cost_createInternal, cost_createLeaf]; omega
    | internal h p pre l r =>
      rw [treeInsert] at e
      obtain ⟨bits, _, e⟩ := Res.bind_eq_ok.1 e
      obtain ⟨b, e2, e⟩ := Res.bind_eq_ok.1 e
      have := getBit_lt e2
      have hc : wcost l + wcost r ≤ wcost (.internal h p pre l r) := by simp only [wcost]; omega
      split at e
      · obtain ⟨⟨front, back⟩, _, e⟩ := Res.bind_eq_ok.1 e
        cases e
        rw [cost_createInternal, cost_createLeaf, cost_createInternal]; omega
      · obtain ⟨z, e1, e⟩ := Res.bind_eq_ok.1 e
        cases e
        have := ih _ _ _ e1
        have := cost_side l r b
        rw [cost_createInternal]; omega

theorem treeRemove_cost {s : Store} {key : B32} : ∀ (fuel : Nat) (n : Node) (d : Nat) (n' : Node),
    treeRemove s key fuel n d = .ok n' → wcost n' ≤ wcost n + (257 - d) * 113 := by
  intro fuel
  induction fuel with
  | zero => intro n d n' e; cases e
  | succ f ih =>
    intro n d n' e
    cases n with
    | null => cases e
    | hash h p =>
      rw [treeRemove] at e
      obtain ⟨r, e1, e⟩ := Res.bind_eq_ok.1 e
      cases r with
      | none => cases e
      | some m =>
        have := ih m d n' e
        rw [resolve_cost e1] at this
        simpa [wcost] using this
    | leaf h p k v vp =>
      rw [treeRemove] at e
      split at e
      · cases e
      · cases e; simp [wcost]
    | internal h p pre l r =>
      rw [treeRemove] at e
      obtain ⟨has, _, e⟩ := Res.bind_eq_ok.1 e
      split at e
      · cases e
      · obtain ⟨b, e2, e⟩ := Res.bind_eq_ok.1 e
        have hlt := getBit_lt e2
        have hc : wcost l + wcost r ≤ wcost (.internal h p pre l r) := by simp only [wcost]; omega
        have hs := cost_side l r b
        dsimp only at e
        obtain ⟨z, e1, e⟩ := Res.bind_eq_ok.1 e
        have hz := ih _ _ _ e1
        generalize side l r (!b) = y at e hs
        have fin : ∀ sd : Node, wcost sd ≤ wcost y → removeSide pre sd b = .ok n' → wcost n' ≤ wcost (.internal h p pre l r) + (257 - d) * 113 := by
          intro sd h1 e
          cases sd with
          | internal h' p' spre sl sr =>
            obtain ⟨j, _, e⟩ := Res.bind_eq_ok.1 e
            cases e
            rw [cost_createInternal]
            simp only [wcost] at h1 ⊢ hc
            omega
          | null => cases e; omega
          | hash _ _ => cases e; omega
          | leaf _ _ _ _ _ => cases e; omega
        cases z with
        | null =>
          dsimp only at e
          cases y with
          | hash h' p' =>
            obtain ⟨x, e3, e⟩ := Res.bind_eq_ok.1 e
            cases x with
            | none => cases e
            | some m => exact fin m (by rw [resolve_cost e3]; omega) e
          | null => exact fin .null (Nat.le_refl _) e
          | leaf a b c d e' => exact fin _ (Nat.le_refl _) e
          | internal a b c d e' => exact fin _ (Nat.le_refl _) e
        | hash _ _ => cases e; rw [cost_createInternal]; omega
        | leaf _ _ _ _ _ => cases e; rw [cost_createInternal]; omega
        | internal _ _ _ _ _ => cases e; rw [cost_createInternal]; omega

theorem nodeHash_cost {H : HashFn} {n : Node} : ∀ {h : B32} {n' : Node}, nodeHash H n = .ok (h, n') → wcost n' = wcost n := by
  induction n with
  | null => intro h n' e; cases e; rfl
  | hash _ _ => intro h n' e; cases e; rfl
  | leaf x p k v vp =>
    intro h n' e
    cases x with
    | some x => cases e; rfl
    | none =>
      cases v with
      | none => cases e
      | some v => cases e; rfl
  | internal x p pre l r ihl ihr =>
    intro h n' e
    cases x with
    | some x => cases e; rfl
    | none =>
      rw [nodeHash] at e
      obtain ⟨⟨hl, l'⟩, e1, e⟩ := Res.bind_eq_ok.1 e
      obtain ⟨⟨hr, r'⟩, e2, e⟩ := Res.bind_eq_ok.1 e
      cases e
      simp only [wcost, ihl e1, ihr e2]

theorem treeProve_cost {E : Env} {s : Store} {key : B32} : ∀ (fuel : Nat) (n : Node) (d m : Nat) (r : Option Proof) (n' : Node),
    treeProve E s key fuel n d m = .ok (r, n') → wcost n' = wcost n := by
  intro fuel
  induction fuel with
  | zero => intro n d m r n' e; cases e
  | succ f ih =>
    intro n d m r n' e
    cases n with
    | null => cases e; rfl
    | hash h p =>
      rw [treeProve] at e
      obtain ⟨x, e1, e⟩ := Res.bind_eq_ok.1 e
      cases x with
      | none => cases e; rfl
      | some x =>
        obtain ⟨⟨pf, _⟩, _, e⟩ := Res.bind_eq_ok.1 e
        cases e; rfl
    | leaf h p k v vp =>
      rw [treeProve] at e
      obtain ⟨x, e1, e⟩ := Res.bind_eq_ok.1 e
      cases x with
      | none => cases e; rfl
      | some x =>
        dsimp only at e
        split at e <;> (cases e; rfl)
    | internal h p pre l r' =>
      rw [treeProve] at e
      obtain ⟨has, _, e⟩ := Res.bind_eq_ok.1 e
      split at e
      · obtain ⟨⟨hl, l2⟩, e1, e⟩ := Res.bind_eq_ok.1 e
        obtain ⟨⟨hr, r2⟩, e2, e⟩ := Res.bind_eq_ok.1 e
        cases e
        simp only [wcost, nodeHash_cost e1, nodeHash_cost e2]
      · obtain ⟨b, _, e⟩ := Res.bind_eq_ok.1 e
        obtain ⟨⟨hy, y⟩, e1, e⟩ := Res.bind_eq_ok.1 e
        obtain ⟨_, _, e⟩ := Res.bind_eq_ok.1 e
        obtain ⟨⟨pf, x⟩, e2, e⟩ := Res.bind_eq_ok.1 e
        have h1 := nodeHash_cost e1
        have h2 := ih _ _ _ _ _ e2
        cases e
        cases b
        · simp only [Bool.false_eq_true, if_false, wcost, h1, h2]
          simp [side]
        · simp only [if_true, wcost, h1, h2]
          simp [side]

/-! ### Writing -/

theorem nodeWrite_le {h : Option B32} {o : Option Ptr} {b : Bits} (hs : Sized b) {l r : Node} {d : Bytes} (e : nodeWrite (.internal h o b l r) = .ok d) :
    d.length ≤ 113 := by
  have hle := hs.le
  rw [nodeWrite] at e
  dsimp only at e
  obtain ⟨⟨pl, hl⟩, _, e⟩ := Res.bind_eq_ok.1 e
  obtain ⟨⟨pr, hr⟩, _, e⟩ := Res.bind_eq_ok.1 e
  cases e
  simp only [List.length_append, length_leBytes, length_ptrWrite, hl.len, hr.len]
  split
  · simp only [List.length_append, length_leBytes, List.length_take]; omega
  · split
    · simp only [List.length_append, length_leBytes, List.length_take]; omega
    · simp

theorem treeWrite_cost {E : Env} {n : Node} : ∀ {s s' : Store} {vf : List Bytes} {r : Option Node}, Slabbed E s vf →
    s.index < E.cfg.maxFiles → Fit n → Coh (vrd vf) n → treeWrite E n s = .ok (s', r) →
    ∃ vf', Slabbed E s' vf' ∧ s'.index < E.cfg.maxFiles ∧ FExt vf vf' ∧ totalBytes vf' ≤ totalBytes vf + wcost n := by
  induction n with
  | null => intro s s' vf r hs hi hf hco e; cases e; exact ⟨vf, hs, hi, FExt.refl _, by simp [wcost]⟩
  | hash h p => intro s s' vf r hs hi hf hco e; cases e; exact ⟨vf, hs, hi, FExt.refl _, by simp [wcost]⟩
  | leaf h p k v vp =>
    intro s s' vf r hs hi hf hco e
    cases p with
    | none =>
      obtain ⟨⟨x, rfl⟩, rfl⟩ := hco.1 rfl
      obtain ⟨⟨s1, n1⟩, e1, e⟩ := Res.bind_eq_ok.1 e
      obtain ⟨⟨s2, n2⟩, e2, e⟩ := Res.bind_eq_ok.1 e
      unfold storeWriteValue at e1
      obtain ⟨sl1, w1, e1⟩ := Res.bind_eq_ok.1 e1
      cases e1
      obtain ⟨d1, hs1⟩ := slabWrite_of hs w1
      unfold storeWriteNode at e2
      obtain ⟨raw, er, e2⟩ := Res.bind_eq_ok.1 e2
      have er' : raw = leafRec (savePtr sl1.fileIndex (sl1.filePos - x.length) x.length) k := by cases er; rfl
      dsimp only at e2
      obtain ⟨sl2, w2, e2⟩ := Res.bind_eq_ok.1 e2
      cases e2
      obtain ⟨d2, hs2⟩ := slabWrite_of hs1 w2
      obtain ⟨hh, n2, o, eh, eo, rfl, hs', hi', hm'⟩ := flushAndHash_of hs2 hi e
      refine ⟨_, hs', hi', (fext_vappend _ hs.ne _).trans (fext_vappend _ hs1.ne _), ?_⟩
      rw [totalBytes_vappend _ hs1.ne, totalBytes_vappend _ hs.ne, er', length_leafRec]
      simp [wcost]; omega
    | some p =>
      unfold treeWrite at e
      obtain ⟨hh, n2, o, eh, eo, rfl, hs', hi', hm'⟩ := flushAndHash_of hs hi e
      exact ⟨vf, hs', hi', FExt.refl _, by omega⟩
  | internal h p pre l r ihl ihr =>
    intro s s' vf ro hs hi hf hco e
    obtain ⟨⟨s1, l'⟩, e1, e⟩ := Res.bind_eq_ok.1 e
    obtain ⟨vf1, hs1, hi1, x1, t1⟩ := ihl hs hi hf.2.2.2.1 hco.1 e1
    cases l' with
    | none => cases e; exact ⟨vf1, hs1, hi1, x1, by simp only [wcost]; omega⟩
    | some l' =>
      obtain ⟨⟨s2, r'⟩, e2, e⟩ := Res.bind_eq_ok.1 e
      obtain ⟨vf2, hs2, hi2, x2, t2⟩ := ihr hs1 hi1 hf.2.2.2.2 (hco.2.1.mono (vrd_mono x1)) e2
      cases r' with
      | none => cases e; exact ⟨vf2, hs2, hi2, x1.trans x2, by simp only [wcost]; omega⟩
      | some r' =>
        cases p with
        | none =>
          dsimp only at e
          obtain ⟨⟨s3, n'⟩, e3, e⟩ := Res.bind_eq_ok.1 e
          rw [storeWriteNode_branch] at e3
          obtain ⟨raw, er, e3⟩ := Res.bind_eq_ok.1 e3
          obtain ⟨slab, w, e3⟩ := Res.bind_eq_ok.1 e3
          cases e3
          obtain ⟨dl, hs3⟩ := slabWrite_of hs2 w
          obtain ⟨hh, n2, o, eh, eo, rfl, hs', hi', hm'⟩ := flushAndHash_of hs3 hi2 e
          refine ⟨_, hs', hi', (x1.trans x2).trans (fext_vappend _ hs2.ne _), ?_⟩
          rw [totalBytes_vappend _ hs2.ne]
          have := nodeWrite_le hf.1 er
          simp [wcost]; omega
        | some p =>
          obtain ⟨hh, n2, o, eh, eo, rfl, hs', hi', hm'⟩ := flushAndHash_of hs2 hi2 e
          exact ⟨vf2, hs', hi', x1.trans x2, by simp [wcost]; omega⟩

theorem Slabbed.total {E : Env} {s : Store} {vf : List Bytes} (h : Slabbed E s vf) : totalBytes vf = totalBytes s.files + s.slab.data.length := by
  obtain ⟨c0, cs, hs, rfl⟩ := h
  obtain ⟨i, l, e, hil, hc⟩ := hs.sok.files_snoc
  rw [vfOf_snoc e hil, e, hs.data]
  simp [totalBytes]
  omega

theorem padFiles_total {max : Nat} {vf : List Bytes} (h : vf ≠ []) : totalBytes (padFiles max vf) ≤ totalBytes vf + 37 := by
  unfold padFiles
  split
  · rw [totalBytes_vappend _ h, List.length_replicate]
    unfold metaSize at *
    omega
  · omega

theorem txCommit_cost {E : Env} (hE : EnvOk E) {db db' : Db} {n : Node} {t' : Tx} {r : Except Err Unit} (hs : StoreSane E db.store)
    (hf : Fit n) (hc : Coh db.store.rd n) (hn : NRoot n) (e : txCommit E db ⟨some n⟩ = .ok (db', t', r)) :
    totalBytes db'.store.files ≤ totalBytes db.store.files + wcost n + 75 := by
  have e0 := e
  unfold txCommit at e
  simp only [Tx.node, Res.bind_ok] at e
  obtain ⟨⟨s1, o⟩, e1, e⟩ := Res.bind_eq_ok.1 e
  rw [hs.sok.rd_eq] at hc
  obtain ⟨vf, o, rfl, h1, h2, h3, h4, h5, h6⟩ := treeWrite_any hE.cfg hs.slab hs.idx hf hc e1
  obtain ⟨vf', h1', h2', h3', h4'⟩ := treeWrite_cost hs.slab hs.idx hf hc e1
  have hfl := treeWrite_some e1
  dsimp only at e
  obtain ⟨⟨s2, ok⟩, e2, e⟩ := Res.bind_eq_ok.1 e
  obtain ⟨rfl, b1, b2, b3, b4, b5, b6, b7, b8, b9, b12, p, b10, b11⟩ := storeCommit_of hE h1 h2 hfl (fun hl => (h6 hl).root hn) e2
  cases e
  dsimp only
  rw [b11, totalBytes_vappend _ (padFiles_ne h1.ne), length_metaWrite hE.mac]
  have := padFiles_total (max := E.cfg.maxFile) h1.ne
  have := h1.total.trans h1'.total.symm
  unfold metaSize
  omega

/-! ### Programs -/

/-- A commit of the transaction `id` would write at most `b` bytes for the tree. -/
def TxCost (s : Sys) (id b : Nat) : Prop := ∀ n, s.txs id = some ⟨some n⟩ → wcost n ≤ b

theorem TxCost.mono {s : Sys} {id a b : Nat} (h : TxCost s id a) (hab : a ≤ b) : TxCost s id b := fun n hn => Nat.le_trans (h n hn) hab

theorem TxCost.set_self {s : Sys} {id b : Nat} {t : Option Tx} (h : ∀ n, t = some ⟨some n⟩ → wcost n ≤ b) : TxCost (s.setTx id t) id b := by
  intro n hn
  simp only [Sys.setTx, if_true] at hn
  exact h n hn

theorem TxCost.set_other {s : Sys} {id id' b : Nat} {t : Option Tx} (h : TxCost s id b) (hne : id' ≠ id) : TxCost (s.setTx id' t) id b := by
  intro n hn
  simp only [Sys.setTx, if_neg (Ne.symm hne)] at hn
  exact h n hn

theorem TxCost.set {s : Sys} {id id' b : Nat} {t : Option Tx} (h : TxCost s id b) (ht : id' = id → ∀ n, t = some ⟨some n⟩ → wcost n ≤ b) : TxCost (s.setTx id' t) id b := by
  by_cases e : id' = id
  · subst e; exact .set_self (ht rfl)
  · exact h.set_other e

theorem TxCost.db {s : Sys} {id b : Nat} (h : TxCost s id b) (db : Db) : TxCost { s with db := db } id b := h

theorem txCreate_cost {E : Env} {db db' : Db} {h : Option B32} {t : Tx} (hd : SaneDb E db) (e : txCreate E db h = .ok (db', .ok t)) :
    ∀ n, t = ⟨some n⟩ → wcost n = 0 := by
  have fin : ∀ h : B32, (do
      let (s, r) ← readHistory E db.store h
      match r with
      | some n => pure ({ db with store := s }, .ok ⟨some n⟩)
      | none => pure ({ db with store := s }, .error .ENOTFOUND) : Res (Db × Except Err Tx)) = .ok (db', .ok t) →
      ∀ n, t = ⟨some n⟩ → wcost n = 0 := by
    intro h e n hn
    subst hn
    obtain ⟨⟨s, r⟩, e1, e⟩ := Res.bind_eq_ok.1 e
    cases r with
    | none => cases e
    | some n => cases e; exact cost_flat (readHistory_flat e1 hd.flat)
  unfold txCreate at e
  cases h with
  | some h => exact fin h e
  | none =>
    dsimp only at e
    split at e
    · exact fin _ e
    · cases e; intro n hn; cases hn; exact cost_flat hd.flat

theorem txInsert_cost {E : Env} {db : Db} {t : Tx} {n' : Node} {k : B32} {v : Bytes} {r : Except Err Unit} {b : Nat}
    (ht : ∀ n, t = ⟨some n⟩ → wcost n ≤ b) (e : txInsert E db t k v = .ok (⟨some n'⟩, r)) : wcost n' ≤ b + 257 * 113 + 40 + v.length := by
  unfold txInsert at e
  split at e
  · cases e; have := ht n' rfl; omega
  · obtain ⟨n, e1, e⟩ := Res.bind_eq_ok.1 e
    obtain ⟨o⟩ := t
    cases o with
    | none => cases e1
    | some m =>
      cases e1
      have hm := ht n rfl
      have j := treeInsert_cost (E := E) (s := db.store) (key := k) (value := v) treeFuel n 0
      generalize treeInsert E db.store k v treeFuel n 0 = q at j e
      cases q with
      | ok x => cases e; have := j n' rfl; omega
      | err er => cases er <;> (cases e; omega)
      | abort => cases e
      | ub => cases e

theorem txRemove_cost {db : Db} {t : Tx} {n' : Node} {k : B32} {r : Except Err Unit} {b : Nat}
    (ht : ∀ n, t = ⟨some n⟩ → wcost n ≤ b) (e : txRemove db t k = .ok (⟨some n'⟩, r)) : wcost n' ≤ b + 257 * 113 := by
  unfold txRemove at e
  obtain ⟨n, e1, e⟩ := Res.bind_eq_ok.1 e
  obtain ⟨o⟩ := t
  cases o with
  | none => cases e1
  | some m =>
    cases e1
    have hm := ht n rfl
    have j := treeRemove_cost (s := db.store) (key := k) treeFuel n 0
    generalize treeRemove db.store k treeFuel n 0 = q at j e
    cases q with
    | ok x => cases e; have := j n' rfl; omega
    | err er => cases e; omega
    | abort => cases e
    | ub => cases e

theorem txProve_cost {E : Env} {db : Db} {t : Tx} {n' : Node} {k : B32} {r : Except Err Bytes} {b : Nat}
    (ht : ∀ n, t = ⟨some n⟩ → wcost n ≤ b) (e : txProve E db t k = .ok (⟨some n'⟩, r)) : wcost n' ≤ b := by
  unfold txProve at e
  obtain ⟨o⟩ := t
  cases o with
  | none => cases e
  | some n =>
    simp only [Tx.node, Res.bind_ok] at e
    obtain ⟨⟨x, m'⟩, e2, e⟩ := Res.bind_eq_ok.1 e
    have h1 := treeProve_cost _ _ _ _ _ _ e2
    have h2 := ht n rfl
    cases x with
    | none => cases e; show wcost m' ≤ b; omega
    | some pf =>
      obtain ⟨_, _, e⟩ := Res.bind_eq_ok.1 e
      obtain ⟨_, _, e⟩ := Res.bind_eq_ok.1 e
      dsimp only at e
      split at e
      · cases e
      · cases e; show wcost _ ≤ b; omega

theorem tx_cost {s : Sys} {id b : Nat} {t : Tx} (h : TxCost s id b) (e : s.tx id = .ok t) : ∀ n, t = ⟨some n⟩ → wcost n ≤ b := by
  intro n hn; subst hn; exact h n (Sys.tx_some e)

/-- Every call adds at most its weight. -/
theorem step_cost {E : Env} (hE : EnvOk E) {s s' : Sys} {op : Op} {r : Ret} {id b : Nat} (hs : Sane E s) (h : TxCost s id b)
    (e : step E s op = .ok (s', r)) : TxCost s' id (b + op.weight id) := by
  cases op with
  | root => cases e; exact h
  | inject h' =>
    obtain ⟨⟨db, x⟩, e1, e⟩ := Res.bind_eq_ok.1 e
    cases e; exact h
  | create i h' =>
    obtain ⟨⟨db, x⟩, e1, e⟩ := Res.bind_eq_ok.1 e
    cases x with
    | error _ => cases e; exact h
    | ok t =>
      cases e
      refine TxCost.set (h.db db) fun _ n hn => ?_
      cases hn
      rw [txCreate_cost hs.db e1 n rfl]; exact Nat.zero_le _
  | destroy i =>
    obtain ⟨t, e1, e⟩ := Res.bind_eq_ok.1 e
    obtain ⟨_, e2, e⟩ := Res.bind_eq_ok.1 e
    cases e
    exact TxCost.set h fun _ n hn => nomatch hn
  | clear i =>
    obtain ⟨t, e1, e⟩ := Res.bind_eq_ok.1 e
    obtain ⟨t1, e2, e⟩ := Res.bind_eq_ok.1 e
    cases e
    obtain ⟨_, _, e2⟩ := Res.bind_eq_ok.1 e2
    cases e2
    refine TxCost.set h fun _ n hn => ?_
    cases hn
    rw [cost_flat hs.db.flat]; exact Nat.zero_le _
  | txRoot i =>
    obtain ⟨t, e1, e⟩ := Res.bind_eq_ok.1 e
    obtain ⟨⟨t1, x⟩, e2, e⟩ := Res.bind_eq_ok.1 e
    cases e
    refine TxCost.set h fun hi n hn => ?_
    subst hi
    cases hn
    obtain ⟨m, e3, e2⟩ := Res.bind_eq_ok.1 e2
    obtain ⟨⟨x', m'⟩, e4, e2⟩ := Res.bind_eq_ok.1 e2
    cases e2
    obtain ⟨o⟩ := t
    cases o with
    | none => cases e3
    | some m0 =>
      cases e3
      rw [nodeHash_cost e4]
      exact tx_cost h e1 m rfl
  | txInject i h' =>
    obtain ⟨t, e1, e⟩ := Res.bind_eq_ok.1 e
    obtain ⟨⟨db, t1, x⟩, e2, e⟩ := Res.bind_eq_ok.1 e
    cases e
    obtain ⟨⟨s1, o⟩, e3, e2⟩ := Res.bind_eq_ok.1 e2
    refine TxCost.set (h.db db) fun hi n hn => ?_
    subst hi
    cases o with
    | none => cases e2; cases hn; exact tx_cost h e1 n rfl
    | some m =>
      obtain ⟨_, _, e2⟩ := Res.bind_eq_ok.1 e2
      cases e2
      cases hn
      rw [cost_flat (readHistory_flat e3 hs.db.flat)]; exact Nat.zero_le _
  | get i k =>
    obtain ⟨t, e1, e⟩ := Res.bind_eq_ok.1 e
    obtain ⟨_, _, e⟩ := Res.bind_eq_ok.1 e
    cases e; exact h
  | has i k =>
    obtain ⟨t, e1, e⟩ := Res.bind_eq_ok.1 e
    obtain ⟨_, _, e⟩ := Res.bind_eq_ok.1 e
    cases e; exact h
  | insert i k v =>
    obtain ⟨t, e1, e⟩ := Res.bind_eq_ok.1 e
    obtain ⟨⟨t1, x⟩, e2, e⟩ := Res.bind_eq_ok.1 e
    cases e
    refine TxCost.set (h.mono (Nat.le_add_right _ _)) fun hi n hn => ?_
    subst hi
    cases hn
    have := txInsert_cost (tx_cost h e1) e2
    simp only [Op.weight, if_true]
    omega
  | remove i k =>
    obtain ⟨t, e1, e⟩ := Res.bind_eq_ok.1 e
    obtain ⟨⟨t1, x⟩, e2, e⟩ := Res.bind_eq_ok.1 e
    cases e
    refine TxCost.set (h.mono (Nat.le_add_right _ _)) fun hi n hn => ?_
    subst hi
    cases hn
    have := txRemove_cost (tx_cost h e1) e2
    simp only [Op.weight, if_true]
    omega
  | prove i k =>
    obtain ⟨t, e1, e⟩ := Res.bind_eq_ok.1 e
    obtain ⟨⟨t1, x⟩, e2, e⟩ := Res.bind_eq_ok.1 e
    cases e
    refine TxCost.set h fun hi n hn => ?_
    subst hi
    cases hn
    exact txProve_cost (tx_cost h e1) e2
  | commit i =>
    obtain ⟨t, e1, e⟩ := Res.bind_eq_ok.1 e
    obtain ⟨⟨db, t1, x⟩, e2, e⟩ := Res.bind_eq_ok.1 e
    cases e
    refine TxCost.set (h.db db) fun hi n hn => ?_
    obtain ⟨m, hm, hf, hc, hr⟩ := hs.txs i t (Sys.tx_some e1)
    obtain ⟨o⟩ := t
    dsimp only at hm
    subst hm
    obtain ⟨_, o, h2, h3⟩ := txCommit_of hE hs.db.store hf hc hr e2
    subst h2
    cases hn
    rw [cost_flat h3.flat]; exact Nat.zero_le _
  | reopen rand =>
    obtain ⟨⟨d, x⟩, e1, e⟩ := Res.bind_eq_ok.1 e
    cases x with
    | error _ => cases e
    | ok db => cases e; exact fun n hn => nomatch hn
  | get1 k h' =>
    obtain ⟨⟨db, x⟩, e1, e⟩ := Res.bind_eq_ok.1 e
    cases e; exact h
  | has1 k h' =>
    obtain ⟨⟨db, x⟩, e1, e⟩ := Res.bind_eq_ok.1 e
    cases e; exact h
  | insert1 k v =>
    obtain ⟨⟨db, x⟩, e1, e⟩ := Res.bind_eq_ok.1 e
    cases e; exact h
  | remove1 k =>
    obtain ⟨⟨db, x⟩, e1, e⟩ := Res.bind_eq_ok.1 e
    cases e; exact h
  | prove1 k h' =>
    obtain ⟨⟨db, x⟩, e1, e⟩ := Res.bind_eq_ok.1 e
    cases e; exact h

theorem FromDir.calls {E : Env} {s s' : Sys} {ops : List Op} (h : FromDir E s) (hr : Calls E s ops s') : FromDir E s' := by
  induction hr with
  | nil => exact h
  | cons e _ ih => exact ih (h.call e)

theorem calls_cost {E : Env} (hE : EnvOk E) {s s' : Sys} {ops : List Op} {id : Nat} (hr : Calls E s ops s') : ∀ {b : Nat}, FromDir E s → TxCost s id b →
    TxCost s' id (b + (ops.map (Op.weight id)).sum) := by
  induction hr with
  | nil => intro b _ h; simpa using h
  | cons e _ ih =>
    intro b ho h
    have := ih (ho.call e) (step_cost hE (ho.sane hE) h e)
    simpa [Nat.add_assoc] using this

end Urkel
