import Verif.Lemmas.Again
import Verif.Props.Cost
import Verif.Props.Format
import Verif.Props.Whole
/-
C98: a pair that a transaction has already been given costs nothing the second time.
-/
namespace Urkel

/-- The leaf is in the memory of the transaction. -/
def Knows (s : Sys) (id : Nat) (k : B32) (v : Bytes) : Prop :=
  ∃ tx n, s.txs id = some tx ∧ tx.root = some n ∧ HoldsPair k v n

theorem setTx_again {s : Sys} {id : Nat} {t : Tx} (h : s.txs id = some t) : s.setTx id (some t) = s := by
  unfold Sys.setTx
  have : (fun i => if i = id then some t else s.txs i) = s.txs := by
    funext i
    split
    · next e => rw [e, h]
    · rfl
  rw [this]

theorem tx_eq {s : Sys} {id : Nat} {t : Tx} (h : s.tx id = .ok t) : s.txs id = some t := by
  unfold Sys.tx at h
  split at h
  · next e => cases h; exact e
  · cases h

theorem knows_other {s s' : Sys} {id i : Nat} {k : B32} {v : Bytes} {t : Option Tx} (hi : i ≠ id) (ht : s'.txs = s.txs) (h : Knows s id k v) :
    Knows (s'.setTx i t) id k v := by
  obtain ⟨tx, n, h1, h2, h3⟩ := h
  refine ⟨tx, n, ?_, h2, h3⟩
  show (if id = i then t else s'.txs id) = some tx
  rw [if_neg (Ne.symm hi), ht, h1]

theorem knows_db {s : Sys} {db : Db} {id : Nat} {k : B32} {v : Bytes} (h : Knows s id k v) : Knows ({ s with db := db } : Sys) id k v := h

theorem knows_new {s : Sys} {id : Nat} {k : B32} {v : Bytes} {n : Node} (h : HoldsPair k v n) : Knows (s.setTx id (some ⟨some n⟩)) id k v :=
  ⟨⟨some n⟩, n, if_pos rfl, rfl, h⟩

theorem node_eq {t : Tx} {n : Node} (h : t.node = .ok n) : t.root = some n := by
  unfold Tx.node at h
  split at h
  · next e => cases h; exact e
  · cases h

variable {E : Env} {s s' s1 s2 : Sys} {id : Nat} {k : B32} {v : Bytes}

/-- What an insertion does to the transaction. -/
theorem txInsert_cases {t t' : Tx} {db : Db} {r : Except Err Unit} (e : txInsert E db t k v = .ok (t', r)) :
    (t' = t ∧ r ≠ .ok ()) ∨ ∃ n, t.root = some n ∧
      ((r = .ok () ∧ ∃ n', t' = ⟨some n'⟩ ∧ treeInsert E db.store k v treeFuel n 0 = .ok n') ∨
        (t' = t ∧ ((r = .ok () ∧ treeInsert E db.store k v treeFuel n 0 = .err .ENOUPDATE) ∨ r ≠ .ok ()))) := by
  unfold txInsert at e
  split at e
  · cases e; exact .inl ⟨rfl, by simp⟩
  · obtain ⟨n, hn, e⟩ := Res.bind_eq_ok.1 e
    refine .inr ⟨n, node_eq hn, ?_⟩
    split at e
    · next h => cases e; exact .inl ⟨rfl, _, rfl, h⟩
    · next h => cases e; exact .inr ⟨rfl, .inl ⟨rfl, h⟩⟩
    · cases e; exact .inr ⟨rfl, .inr (by simp)⟩
    · cases e
    · cases e

theorem txRemove_cases {t t' : Tx} {db : Db} {r : Except Err Unit} (e : txRemove db t k = .ok (t', r)) :
    ∃ n, t.root = some n ∧ ((r = .ok () ∧ ∃ n', t' = ⟨some n'⟩ ∧ treeRemove db.store k treeFuel n 0 = .ok n') ∨ (t' = t ∧ r ≠ .ok ())) := by
  unfold txRemove at e
  obtain ⟨n, hn, e⟩ := Res.bind_eq_ok.1 e
  refine ⟨n, node_eq hn, ?_⟩
  split at e
  · next h => cases e; exact .inl ⟨rfl, _, rfl, h⟩
  · cases e; exact .inr ⟨rfl, by simp⟩
  · cases e
  · cases e

theorem knows_step {op : Op} {r : Ret} (e : step E s op = .ok (s', r)) (hf : ¬ Forgets id k v op) (h : Knows s id k v) : Knows s' id k v := by
  cases op with
  | root => cases e; exact h
  | inject x => obtain ⟨⟨db, _⟩, _, e⟩ := Res.bind_eq_ok.1 e; cases e; exact h
  | create i x =>
    obtain ⟨⟨db, r⟩, _, e⟩ := Res.bind_eq_ok.1 e
    cases r with
    | error _ => cases e; exact h
    | ok t => cases e; exact knows_other hf rfl h
  | destroy i =>
    obtain ⟨t, _, e⟩ := Res.bind_eq_ok.1 e
    obtain ⟨_, _, e⟩ := Res.bind_eq_ok.1 e
    cases e; exact knows_other hf rfl h
  | clear i =>
    obtain ⟨t, _, e⟩ := Res.bind_eq_ok.1 e
    obtain ⟨_, _, e⟩ := Res.bind_eq_ok.1 e
    cases e; exact knows_other hf rfl h
  | txInject i x =>
    obtain ⟨t, _, e⟩ := Res.bind_eq_ok.1 e
    obtain ⟨⟨_, _, _⟩, _, e⟩ := Res.bind_eq_ok.1 e
    cases e; exact knows_other hf rfl h
  | commit i =>
    obtain ⟨t, _, e⟩ := Res.bind_eq_ok.1 e
    obtain ⟨⟨_, _, _⟩, _, e⟩ := Res.bind_eq_ok.1 e
    cases e; exact knows_other hf rfl h
  | reopen x => exact absurd trivial hf
  | get i x =>
    obtain ⟨t, _, e⟩ := Res.bind_eq_ok.1 e
    obtain ⟨_, _, e⟩ := Res.bind_eq_ok.1 e
    cases e; exact h
  | has i x =>
    obtain ⟨t, _, e⟩ := Res.bind_eq_ok.1 e
    obtain ⟨_, _, e⟩ := Res.bind_eq_ok.1 e
    cases e; exact h
  | get1 x y => obtain ⟨⟨db, _⟩, _, e⟩ := Res.bind_eq_ok.1 e; cases e; exact h
  | has1 x y => obtain ⟨⟨db, _⟩, _, e⟩ := Res.bind_eq_ok.1 e; cases e; exact h
  | insert1 x y => obtain ⟨⟨db, _⟩, _, e⟩ := Res.bind_eq_ok.1 e; cases e; exact h
  | remove1 x => obtain ⟨⟨db, _⟩, _, e⟩ := Res.bind_eq_ok.1 e; cases e; exact h
  | prove1 x y => obtain ⟨⟨db, _⟩, _, e⟩ := Res.bind_eq_ok.1 e; cases e; exact h
  | txRoot i =>
    obtain ⟨t, ht, e⟩ := Res.bind_eq_ok.1 e
    obtain ⟨⟨t', x⟩, e1, e⟩ := Res.bind_eq_ok.1 e
    cases e
    by_cases hi : i = id
    · subst hi
      obtain ⟨tx, n, h1, h2, h3⟩ := h
      rw [tx_eq ht] at h1; cases h1
      unfold txRoot at e1
      obtain ⟨n1, hn, e1⟩ := Res.bind_eq_ok.1 e1
      rw [node_eq hn] at h2; cases h2
      obtain ⟨⟨y, n2⟩, e2, e1⟩ := Res.bind_eq_ok.1 e1
      cases e1
      exact knows_new (hash_keeps e2 h3)
    · exact knows_other hi rfl h
  | prove i x =>
    obtain ⟨t, ht, e⟩ := Res.bind_eq_ok.1 e
    obtain ⟨⟨t', y⟩, e1, e⟩ := Res.bind_eq_ok.1 e
    cases e
    by_cases hi : i = id
    · subst hi
      obtain ⟨tx, n, h1, h2, h3⟩ := h
      rw [tx_eq ht] at h1; cases h1
      unfold txProve at e1
      obtain ⟨n1, hn, e1⟩ := Res.bind_eq_ok.1 e1
      rw [node_eq hn] at h2; cases h2
      obtain ⟨⟨q, n2⟩, e2, e1⟩ := Res.bind_eq_ok.1 e1
      have h4 := prove_keeps e2 h3
      cases q with
      | none => cases e1; exact knows_new h4
      | some pf =>
        obtain ⟨sz, _, e1⟩ := Res.bind_eq_ok.1 e1
        obtain ⟨raw, _, e1⟩ := Res.bind_eq_ok.1 e1
        split at e1
        · cases e1
        · cases e1; exact knows_new h4
    · exact knows_other hi rfl h
  | insert i x y =>
    obtain ⟨t, ht, e⟩ := Res.bind_eq_ok.1 e
    obtain ⟨⟨t', q⟩, e1, e⟩ := Res.bind_eq_ok.1 e
    cases e
    by_cases hi : i = id
    · subst hi
      have same : Knows (s.setTx i (some t)) i k v := by rw [setTx_again (tx_eq ht)]; exact h
      rcases txInsert_cases e1 with ⟨rfl, _⟩ | ⟨n, hn, ⟨_, n', rfl, e2⟩ | ⟨rfl, _⟩⟩
      · exact same
      · by_cases hx : x = k
        · subst hx
          have : y = v := Decidable.not_not.1 fun hy => hf ⟨rfl, rfl, hy⟩
          subst this
          exact knows_new (insert_holds e2)
        · obtain ⟨tx, n1, h1, h2, h3⟩ := h
          rw [tx_eq ht] at h1; cases h1
          rw [hn] at h2; cases h2
          exact knows_new (insert_keeps hx e2 h3)
      · exact same
    · exact knows_other hi rfl h
  | remove i x =>
    obtain ⟨t, ht, e⟩ := Res.bind_eq_ok.1 e
    obtain ⟨⟨t', q⟩, e1, e⟩ := Res.bind_eq_ok.1 e
    cases e
    by_cases hi : i = id
    · subst hi
      obtain ⟨n, hn, ⟨_, n', rfl, e2⟩ | ⟨rfl, _⟩⟩ := txRemove_cases e1
      · obtain ⟨tx, n1, h1, h2, h3⟩ := h
        rw [tx_eq ht] at h1; cases h1
        rw [hn] at h2; cases h2
        exact knows_new (remove_keeps (fun hx => hf ⟨rfl, hx⟩) e2 h3)
      · rw [setTx_again (tx_eq ht)]; exact h
    · exact knows_other hi rfl h

theorem knows_run {ops : List Op} (hr : Run E s ops s') (hf : ∀ op ∈ ops, ¬ Forgets id k v op) (h : Knows s id k v) : Knows s' id k v := by
  induction hr with
  | nil => exact h
  | cons _ e _ ih =>
    exact ih (fun op ho => hf op (List.mem_cons_of_mem _ ho)) (knows_step e (hf _ List.mem_cons_self) h)

theorem run_reach {ops : List Op} (hs : Reachable E s) (hr : Run E s ops s') : Reachable E s' := by
  induction hr with
  | nil => exact hs
  | cons ha e _ ih => exact ih (hs.next ha e)

theorem insert_knows (hE : EnvOk E) (hs : Reachable E s) (e : step E s (.insert id k v) = .ok (s1, .unit)) : Knows s1 id k v ∧ v.length ≤ 1023 := by
  obtain ⟨t, ht, e⟩ := Res.bind_eq_ok.1 e
  obtain ⟨⟨t', q⟩, e1, e⟩ := Res.bind_eq_ok.1 e
  have hq : q = .ok () := by
    cases q with
    | ok u => rfl
    | error _ => cases e
  subst hq
  cases e
  have hv : v.length ≤ 1023 := by
    apply Decidable.not_not.1
    intro hv
    rw [txInsert_big (by omega)] at e1; cases e1
  refine ⟨?_, hv⟩
  obtain ⟨hist, tr, hd, n, hn, hr, htop, _⟩ := hs.tree hE (tx_eq ht)
  rcases txInsert_cases e1 with ⟨_, h⟩ | ⟨n1, hn1, ⟨_, n', rfl, e2⟩ | ⟨rfl, ⟨_, e2⟩ | h⟩⟩
  · exact absurd rfl h
  · exact knows_new (insert_holds e2)
  · rw [hn] at hn1; cases hn1
    rw [← rd_of hd] at hr
    exact ⟨_, n, if_pos rfl, hn, insert_same treeFuel hr (p := []) htop List.nil_prefix e2⟩
  · exact absurd rfl h

/-- C98. After an insertion, and any calls that do not end what the transaction knows of it,
the same insertion succeeds and changes nothing: the program is in the very same state, so
everything later, to the byte a commit appends, is as if it had not been made. -/
theorem C98_again (hE : EnvOk E) (hs : Reachable E s) (e : step E s (.insert id k v) = .ok (s1, .unit)) {ops : List Op}
    (hr : Run E s1 ops s2) (hf : ∀ op ∈ ops, ¬ Forgets id k v op) : step E s2 (.insert id k v) = .ok (s2, .unit) := by
  obtain ⟨h1, hv⟩ := insert_knows hE hs e
  have ha : Allowed E s (.insert id k v) := by
    obtain ⟨t, ht, _⟩ := Res.bind_eq_ok.1 e
    show s.txs id ≠ none
    rw [tx_eq ht]; exact fun h => nomatch h
  obtain ⟨tx, n, hid, hn, hh⟩ := knows_run hr hf h1
  obtain ⟨hist, t, hd, n1, hn1, hrp, htop, _⟩ := (run_reach (hs.next ha e) hr).tree hE hid
  rw [hn] at hn1; cases hn1
  rw [← rd_of hd] at hrp
  have e2 := insert_finds (E := E) (k := k) (v := v) treeFuel hrp (p := []) htop (Top.cost_le htop n) hh
  have c : ¬ v.length > valueSize := by unfold valueSize; omega
  have e3 : txInsert E s2.db tx k v = .ok (tx, .ok ()) := by
    unfold txInsert
    rw [if_neg c, show tx.node = .ok n by unfold Tx.node; rw [hn], Res.bind_ok]
    rw [List.length_nil] at e2
    rw [e2]; rfl
  show (s2.tx id >>= fun t => txInsert E s2.db t k v >>= fun x => pure (s2.setTx id (some x.1), Ret.ofUnit x.2)) = _
  rw [show s2.tx id = .ok tx by unfold Sys.tx; rw [hid], Res.bind_ok, e3, Res.bind_ok]
  rw [setTx_again hid]; rfl

/-- C98. An insertion or removal that reports a failure has changed nothing either. -/
theorem C98_failed {op : Op} {x : Err} (hop : (∃ v, op = .insert id k v) ∨ op = .remove id k) (e : step E s op = .ok (s', .fail x)) : s' = s := by
  rcases hop with ⟨v, rfl⟩ | rfl
  · obtain ⟨t, ht, e⟩ := Res.bind_eq_ok.1 e
    obtain ⟨⟨t', q⟩, e1, e⟩ := Res.bind_eq_ok.1 e
    cases q with
    | ok u => cases e
    | error _ =>
      cases e
      rcases txInsert_cases e1 with ⟨rfl, _⟩ | ⟨n, hn, ⟨h, _⟩ | ⟨rfl, _⟩⟩
      · exact setTx_again (tx_eq ht)
      · cases h
      · exact setTx_again (tx_eq ht)
  · obtain ⟨t, ht, e⟩ := Res.bind_eq_ok.1 e
    obtain ⟨⟨t', q⟩, e1, e⟩ := Res.bind_eq_ok.1 e
    cases q with
    | ok u => cases e
    | error _ =>
      cases e
      obtain ⟨n, hn, ⟨h, _⟩ | ⟨rfl, _⟩⟩ := txRemove_cases e1
      · cases h
      · exact setTx_again (tx_eq ht)

/-! ### What is written -/

/-- A new leaf is written. -/
theorem treeWrite_pays {E : Env} {k : B32} {v : Bytes} {n : Node} : ∀ {s s' : Store} {vf : List Bytes} {n' : Node}, Slabbed E s vf →
    s.index < E.cfg.maxFiles → Fit n → Coh (vrd vf) n → treeWrite E n s = .ok (s', some n') → HoldsPair k v n →
    totalBytes vf + (40 + v.length) ≤ totalBytes s'.files + s'.slab.data.length := by
  induction n with
  | null => intro s s' vf r hs hi hf hco e hh; exact hh.elim
  | hash h p => intro s s' vf r hs hi hf hco e hh; exact hh.elim
  | leaf h p k' v' vp =>
    intro s s' vf r hs hi hf hco e hh
    obtain ⟨rfl, rfl⟩ := hh
    cases p with
    | some p => exact nomatch (hco.2 p rfl).2.1
    | none =>
      obtain ⟨_, rfl⟩ := hco.1 rfl
      obtain ⟨⟨s1, n1⟩, e1, e⟩ := Res.bind_eq_ok.1 e
      obtain ⟨⟨s2, n2⟩, e2, e⟩ := Res.bind_eq_ok.1 e
      unfold storeWriteValue at e1
      obtain ⟨sl1, w1, e1⟩ := Res.bind_eq_ok.1 e1
      cases e1
      obtain ⟨d1, hs1⟩ := slabWrite_of hs w1
      unfold storeWriteNode at e2
      obtain ⟨raw, er, e2⟩ := Res.bind_eq_ok.1 e2
      have er' : raw = leafRec (savePtr sl1.fileIndex (sl1.filePos - v.length) v.length) k' := by cases er; rfl
      dsimp only at e2
      obtain ⟨sl2, w2, e2⟩ := Res.bind_eq_ok.1 e2
      cases e2
      obtain ⟨d2, hs2⟩ := slabWrite_of hs1 w2
      obtain ⟨hh, n2, o, eh, eo, ho, hs', hi', hm'⟩ := flushAndHash_of hs2 hi e
      rw [← hs'.total, totalBytes_vappend _ hs1.ne, totalBytes_vappend _ hs.ne, er', length_leafRec]
      omega
  | internal h p pre l r ihl ihr =>
    intro s s' vf ro hs hi hf hco e hh
    have e0 := e
    obtain ⟨⟨s1, l'⟩, e1, e⟩ := Res.bind_eq_ok.1 e
    obtain ⟨vf1, hs1, hi1, x1, t1⟩ := treeWrite_cost hs hi hf.2.2.2.1 hco.1 e1
    cases l' with
    | none => cases e
    | some l' =>
      obtain ⟨⟨s2, r'⟩, e2, e⟩ := Res.bind_eq_ok.1 e
      have hco2 := hco.2.1.mono (vrd_mono x1)
      obtain ⟨vf2, hs2, hi2, x2, t2⟩ := treeWrite_cost hs1 hi1 hf.2.2.2.2 hco2 e2
      cases r' with
      | none => cases e
      | some r' =>
        have h12 : totalBytes vf + (40 + v.length) ≤ totalBytes vf2 := by
          rcases hh with hh | hh
          · have := ihl hs hi hf.2.2.2.1 hco.1 e1 hh
            rw [← hs1.total] at this
            have := fext_total x2
            omega
          · have := ihr hs1 hi1 hf.2.2.2.2 hco2 e2 hh
            rw [← hs2.total] at this
            have := fext_total x1
            omega
        cases p with
        | none =>
          dsimp only at e
          obtain ⟨⟨s3, n'⟩, e3, e⟩ := Res.bind_eq_ok.1 e
          rw [storeWriteNode_branch] at e3
          obtain ⟨raw, er, e3⟩ := Res.bind_eq_ok.1 e3
          obtain ⟨slab, w, e3⟩ := Res.bind_eq_ok.1 e3
          cases e3
          obtain ⟨dl, hs3⟩ := slabWrite_of hs2 w
          obtain ⟨hh, n2, o, eh, eo, ho, hs', hi', hm'⟩ := flushAndHash_of hs3 hi2 e
          rw [← hs'.total, totalBytes_vappend _ hs2.ne]
          omega
        | some p =>
          obtain ⟨hh, n2, o, eh, eo, ho, hs', hi', hm'⟩ := flushAndHash_of hs2 hi2 e
          rw [← hs'.total]
          omega

theorem commit_pays (hE : EnvOk E) (ho : FromDir E s) (h : Knows s id k v) {r : Ret} (e : step E s (.commit id) = .ok (s', r)) :
    totalBytes s.db.store.files + (78 + v.length) ≤ totalBytes s'.db.store.files := by
  have hs := ho.sane hE
  obtain ⟨t, e1, e⟩ := Res.bind_eq_ok.1 e
  obtain ⟨⟨db, t1, x⟩, e2, e⟩ := Res.bind_eq_ok.1 e
  cases e
  obtain ⟨m, hm, hf, hc, hn⟩ := hs.txs id t (Sys.tx_some e1)
  obtain ⟨tx, n, k1, k2, k3⟩ := h
  rw [Sys.tx_some e1] at k1; cases k1
  rw [hm] at k2; cases k2
  obtain ⟨o⟩ := t
  dsimp only at hm
  subst hm
  unfold txCommit at e2
  simp only [Tx.node, Res.bind_ok] at e2
  obtain ⟨⟨s1, o⟩, e3, e2⟩ := Res.bind_eq_ok.1 e2
  rw [hs.db.store.sok.rd_eq] at hc
  obtain ⟨vf, o, rfl, h1, h2, h3, h4, h5, h6⟩ := treeWrite_any hE.cfg hs.db.store.slab hs.db.store.idx hf hc e3
  have hp := treeWrite_pays hs.db.store.slab hs.db.store.idx hf hc e3 k3
  have hfl := treeWrite_some e3
  dsimp only at e2
  obtain ⟨⟨s2, ok⟩, e4, e2⟩ := Res.bind_eq_ok.1 e2
  obtain ⟨rfl, b1, b2, b3, b4, b5, b6, b7, b8, b9, b12, p, b10, b11⟩ := storeCommit_of hE h1 h2 hfl (fun hl => (h6 hl).root hn) e4
  cases e2
  show _ ≤ totalBytes s2.files
  rw [b11, totalBytes_vappend _ (padFiles_ne h1.ne), length_metaWrite hE.mac]
  rw [← h1.total] at hp
  have : totalBytes vf ≤ totalBytes (padFiles E.cfg.maxFile vf) := by
    unfold padFiles
    split
    · rw [totalBytes_vappend _ h1.ne]; omega
    · omega
  unfold metaSize
  omega

/-- C98, the limit: a transaction does not know what is in the files. Every pair inserted
through it is written by its commit, value and record, also when the database has the very same pair. -/
theorem C98_written (hE : EnvOk E) (hm : 1 < E.cfg.maxFiles) (hs : Reachable E s) (e : step E s (.insert id k v) = .ok (s1, .unit)) {ops : List Op}
    (hr : Run E s1 ops s2) (hf : ∀ op ∈ ops, ¬ Forgets id k v op) {s3 : Sys} {r : Ret} (e3 : step E s2 (.commit id) = .ok (s3, r)) :
    totalBytes s2.db.store.files + (78 + v.length) ≤ totalBytes s3.db.store.files := by
  have ha : Allowed E s (.insert id k v) := by
    obtain ⟨t, ht, _⟩ := Res.bind_eq_ok.1 e
    show s.txs id ≠ none
    rw [tx_eq ht]; exact fun h => nomatch h
  exact commit_pays hE ((run_reach (hs.next ha e) hr).fromDir hm) (knows_run hr hf (insert_knows hE hs e).1) e3

/-! ### A program -/

/-- Other keys come and go, proofs are made and the root is asked for. -/
def mixed (k2 : B32) (w : Bytes) : List Op :=
  [.insert 0 k2 w, .prove 0 k2, .txRoot 0, .remove 0 k2, .get 0 k2]

theorem mixed_run (k2 : B32) (w : Bytes) (hk : k2 ≠ k) (hs : Reachable toyEnv s) (h : Knows s 0 k v) :
    (∃ s2, Run toyEnv s (mixed k2 w) s2) ∧ ∀ op ∈ mixed k2 w, ¬ Forgets 0 k v op := by
  have hf : ∀ op ∈ mixed k2 w, ¬ Forgets 0 k v op := by
    intro op ho
    simp only [mixed, List.mem_cons, List.not_mem_nil, or_false] at ho
    rcases ho with rfl | rfl | rfl | rfl | rfl
    · exact fun h => hk h.2.1
    · exact id
    · exact id
    · exact fun h => hk h.2
    · exact id
  have go : ∀ (ops : List Op), (∀ op ∈ ops, ¬ Forgets 0 k v op ∧ ∀ s', Reachable toyEnv s' → Knows s' 0 k v → Allowed toyEnv s' op) →
      ∀ {s : Sys}, Reachable toyEnv s → Knows s 0 k v → ∃ s2, Run toyEnv s ops s2 := by
    intro ops
    induction ops with
    | nil => intro _ s _ _; exact ⟨s, .nil s⟩
    | cons op ops ih =>
      intro ho s hs h
      obtain ⟨h1, h2⟩ := ho op List.mem_cons_self
      have ha := h2 s hs h
      obtain ⟨tr, he⟩ := hs
      obtain ⟨_, _, ht⟩ := C50_refinement toyEnv_ok he
      obtain ⟨s1, r, _, e, _⟩ := ht op ha
      obtain ⟨s2, hr⟩ := ih (fun op h => ho op (List.mem_cons_of_mem _ h)) (Reachable.next ⟨tr, he⟩ ha e) (knows_step e h1 h)
      exact ⟨s2, .cons ha e hr⟩
  refine ⟨go _ (fun op ho => ⟨hf op ho, fun s' hs' hk' => ?_⟩) hs h, hf⟩
  have hid : s'.txs 0 ≠ none := by
    obtain ⟨tx, n, h1, _⟩ := hk'
    rw [h1]; exact fun h => nomatch h
  simp only [mixed, List.mem_cons, List.not_mem_nil, or_false] at ho
  rcases ho with rfl | rfl | rfl | rfl | rfl
  all_goals exact hid

/-- The hypotheses of C98_again and C98_written are met, and so the second insertion is free. -/
theorem C98_example : ∃ s2, Run toyEnv (sys2 (keyOf 1) [7]) (mixed (keyOf 2) [8, 9]) s2 ∧
    step toyEnv s2 (.insert 0 (keyOf 1) [7]) = .ok (s2, .unit) := by
  have hs : Reachable toyEnv sys1 := Reachable.next ⟨[], .start sys0_started⟩ (op := .create 0 none) trivial sys1_step
  have hs2 : Reachable toyEnv (sys2 (keyOf 1) [7]) := (sys2_logged (keyOf 1) [7] (by decide)).reachable
  have e := sys2_step (keyOf 1) [7] (by decide)
  obtain ⟨⟨s2, hr⟩, hf⟩ := mixed_run (k := keyOf 1) (v := [7]) (keyOf 2) [8, 9] (by decide) hs2 (insert_knows toyEnv_ok hs e).1
  exact ⟨s2, hr, C98_again toyEnv_ok hs e hr hf⟩

end Urkel
