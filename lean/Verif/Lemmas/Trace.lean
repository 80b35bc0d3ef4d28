import Verif.Lemmas.Grew
/-
A relation between stores that every system call respects holds across every API call.
-/
namespace Urkel

/-- What only reading and bookkeeping leave alone. -/
def SameIo (s s' : Store) : Prop := s'.files = s.files ∧ s'.io = s.io ∧ s'.index = s.index ∧ s'.key = s.key ∧ s'.curSize = s.curSize

theorem SameIo.refl (s : Store) : SameIo s s := ⟨rfl, rfl, rfl, rfl, rfl⟩

theorem SameIo.trans {a b c : Store} (h1 : SameIo a b) (h2 : SameIo b c) : SameIo a c :=
  ⟨h2.1.trans h1.1, h2.2.1.trans h1.2.1, h2.2.2.1.trans h1.2.2.1, h2.2.2.2.1.trans h1.2.2.2.1, h2.2.2.2.2.trans h1.2.2.2.2⟩

/-- A relation that holds across every system call on the data files. -/
structure IoRel (E : Env) (R : Store → Store → Prop) : Prop where
  trans : ∀ {a b c : Store}, R a b → R b c → R a c
  same : ∀ {s s' : Store}, SameIo s s' → R s s'
  write : ∀ {s s' : Store} {d : Bytes} {ok : Bool}, storeWrite E s d = .ok (s', ok) → R s s'
  sync : ∀ {s s' : Store} {ok : Bool}, commitSync E s = (s', ok) → R s s'

theorem IoRel.refl {E : Env} {R : Store → Store → Prop} (hR : IoRel E R) (s : Store) : R s s := hR.same (SameIo.refl s)

variable {R : Store → Store → Prop}

theorem flushLoop_rel {E : Env} (hR : IoRel E R) {lens : List Nat} {data : Bytes} {i : Nat} {s s' : Store} {r : Option Nat}
    (e : flushLoop E lens data i s = .ok (s', r)) : R s s' := by
  induction lens generalizing data i s with
  | nil => cases e; exact hR.refl _
  | cons len lens ih =>
    rw [flushLoop] at e
    obtain ⟨⟨s1, ok⟩, e1, e⟩ := Res.bind_eq_ok.1 e
    simp only at e
    have h1 := hR.write e1
    split at e
    · exact hR.trans h1 (ih e)
    · cases e; exact h1

theorem storeFlush_rel {E : Env} (hR : IoRel E R) {s s' : Store} {ok : Bool} (e : storeFlush E s = .ok (s', ok)) :
    R s s' := by
  unfold storeFlush at e
  simp only at e
  split at e
  · cases e
  · obtain ⟨⟨s1, r⟩, e1, e⟩ := Res.bind_eq_ok.1 e
    have h1 := flushLoop_rel hR e1
    cases r <;> cases e <;> exact hR.trans h1 (hR.same ⟨rfl, rfl, rfl, rfl, rfl⟩)

theorem flushSync_rel {E : Env} (hR : IoRel E R) {s s' : Store} {ok : Bool} (e : flushSync E s = .ok (s', ok)) :
    R s s' := by
  unfold flushSync at e
  obtain ⟨⟨s1, r⟩, e1, e⟩ := Res.bind_eq_ok.1 e
  have h1 := storeFlush_rel hR e1
  cases r
  · cases e; exact h1
  · injection e with e
    exact hR.trans h1 (hR.sync (ok := ok) (by simpa using e))

theorem flushAndHash_rel {E : Env} (hR : IoRel E R) {s s' : Store} {n : Node} {w : Bool} {r : Option Node}
    (e : flushAndHash E s n w = .ok (s', r)) : R s s' := by
  unfold flushAndHash at e
  have fin : ∀ {s1 : Store} {ok : Bool}, R s s1 → (if (!ok) = true then pure (s1, none)
        else do
          let (_, n) ← nodeHash E.H n
          let o ← toHash n
          pure (s1, some o)) = Res.ok (s', r) → R s s' := by
    intro s1 ok h1 e
    split at e
    · cases e; exact h1
    · obtain ⟨⟨_, _⟩, _, e⟩ := Res.bind_eq_ok.1 e
      obtain ⟨_, _, e⟩ := Res.bind_eq_ok.1 e
      cases e; exact h1
  simp only at e
  split at e
  · obtain ⟨⟨s1, ok⟩, e1, e⟩ := Res.bind_eq_ok.1 e
    exact fin (storeFlush_rel hR e1) e
  · exact fin (s1 := s) (ok := true) (hR.refl _) e

theorem storeWriteNode_rel {E : Env} {s s' : Store} {n n' : Node} (e : storeWriteNode E s n = .ok (s', n')) :
    SameIo s s' := by
  unfold storeWriteNode at e
  obtain ⟨raw, _, e⟩ := Res.bind_eq_ok.1 e
  split at e
  · obtain ⟨_, _, e⟩ := Res.bind_eq_ok.1 e; cases e; exact ⟨rfl, rfl, rfl, rfl, rfl⟩
  · obtain ⟨_, _, e⟩ := Res.bind_eq_ok.1 e; cases e; exact ⟨rfl, rfl, rfl, rfl, rfl⟩
  · cases e

theorem storeWriteValue_rel {E : Env} {s s' : Store} {n n' : Node} (e : storeWriteValue E s n = .ok (s', n')) :
    SameIo s s' := by
  unfold storeWriteValue at e
  split at e
  · obtain ⟨_, _, e⟩ := Res.bind_eq_ok.1 e; cases e; exact ⟨rfl, rfl, rfl, rfl, rfl⟩
  · cases e

theorem treeWrite_rel {E : Env} (hR : IoRel E R) {n : Node} {s s' : Store} {r : Option Node} (e : treeWrite E n s = .ok (s', r)) :
    R s s' := by
  induction n generalizing s s' r with
  | null => cases e; exact hR.refl _
  | hash h p => cases e; exact hR.refl _
  | leaf h p k v vp =>
    simp only [treeWrite] at e
    split at e
    · exact flushAndHash_rel hR e
    · obtain ⟨⟨s1, n1⟩, e1, e⟩ := Res.bind_eq_ok.1 e
      obtain ⟨⟨s2, n2⟩, e2, e⟩ := Res.bind_eq_ok.1 e
      have h1 := storeWriteValue_rel e1
      have h2 := storeWriteNode_rel e2
      have h3 := flushAndHash_rel hR e
      exact hR.trans (hR.same (h1.trans h2)) h3
  | internal h p pre l r ihl ihr =>
    simp only [treeWrite] at e
    obtain ⟨⟨s1, l'⟩, e1, e⟩ := Res.bind_eq_ok.1 e
    have h1 := ihl e1
    cases l' with
    | none => cases e; exact h1
    | some l' =>
      simp only at e
      obtain ⟨⟨s2, r'⟩, e2, e⟩ := Res.bind_eq_ok.1 e
      have h2 := ihr e2
      cases r' with
      | none => cases e; exact hR.trans h1 h2
      | some r' =>
        simp only at e
        split at e
        · exact hR.trans (hR.trans h1 h2) (flushAndHash_rel hR e)
        · obtain ⟨⟨s3, n3⟩, e3, e⟩ := Res.bind_eq_ok.1 e
          have h3 := storeWriteNode_rel e3
          have h4 := flushAndHash_rel hR e
          exact hR.trans (hR.trans h1 h2) (hR.trans (hR.same h3) h4)

theorem storeCommit_rel {E : Env} (hR : IoRel E R) {s s' : Store} {n : Node} {ok : Bool} (e : storeCommit E s n = .ok (s', ok)) :
    R s s' := by
  unfold storeCommit at e
  obtain ⟨⟨s1, st⟩, e1, e⟩ := Res.bind_eq_ok.1 e
  obtain ⟨⟨s2, b⟩, e2, e⟩ := Res.bind_eq_ok.1 e
  have h1 : SameIo s s1 := by
    unfold storeWriteMeta at e1
    obtain ⟨_, _, e1⟩ := Res.bind_eq_ok.1 e1
    obtain ⟨_, _, e1⟩ := Res.bind_eq_ok.1 e1
    obtain ⟨_, _, e1⟩ := Res.bind_eq_ok.1 e1
    obtain ⟨_, _, e1⟩ := Res.bind_eq_ok.1 e1
    cases e1; exact ⟨rfl, rfl, rfl, rfl, rfl⟩
  have h2 := flushSync_rel hR e2
  simp only at e
  split at e <;> cases e
  · exact hR.trans (hR.trans (hR.same h1) h2) (hR.same ⟨rfl, rfl, rfl, rfl, rfl⟩)
  · exact hR.trans (hR.same h1) h2

theorem txCommit_rel {E : Env} (hR : IoRel E R) {db db' : Db} {tx tx' : Tx} {r : Except Err Unit} (e : txCommit E db tx = .ok (db', tx', r)) :
    R db.store db'.store := by
  unfold txCommit at e
  obtain ⟨n, _, e⟩ := Res.bind_eq_ok.1 e
  obtain ⟨⟨s1, r1⟩, e1, e⟩ := Res.bind_eq_ok.1 e
  have h1 := treeWrite_rel hR e1
  cases r1 with
  | none => cases e; exact h1
  | some root =>
    simp only at e
    obtain ⟨⟨s2, ok⟩, e2, e⟩ := Res.bind_eq_ok.1 e
    have h2 := storeCommit_rel hR e2
    simp only at e
    split at e <;> cases e <;> exact hR.trans h1 h2

theorem storeReadRoot_sameIo {E : Env} {s s' : Store} {p : Ptr} {r : Option Node} (e : storeReadRoot E s p = .ok (s', r)) :
    SameIo s s' := by
  unfold storeReadRoot at e
  split at e
  · cases e; exact ⟨rfl, rfl, rfl, rfl, rfl⟩
  · obtain ⟨n, _, e⟩ := Res.bind_eq_ok.1 e
    cases n with
    | none => cases e; exact ⟨rfl, rfl, rfl, rfl, rfl⟩
    | some n =>
      simp only at e
      have fin : ∀ {n : Node}, (do
          let (_, n) ← nodeHash E.H n
          let o ← toHash n
          match o with
          | .hash h p => pure ({ s with cache := cacheInsert s.cache h p }, some o)
          | _ => Res.abort) = .ok (s', r) → SameIo s s' := by
        intro n e
        obtain ⟨⟨_, n⟩, _, e⟩ := Res.bind_eq_ok.1 e
        simp only at e
        obtain ⟨o, _, e⟩ := Res.bind_eq_ok.1 e
        cases o <;> cases e
        exact ⟨rfl, rfl, rfl, rfl, rfl⟩
      cases n with
      | leaf h wp k v vp =>
        simp only at e
        obtain ⟨x, _, e⟩ := Res.bind_eq_ok.1 e
        cases x with
        | none => cases e; exact ⟨rfl, rfl, rfl, rfl, rfl⟩
        | some x =>
          simp only at e
          obtain ⟨_, _, e⟩ := Res.bind_eq_ok.1 e
          exact fin (n := .leaf h wp k (some x) vp) e
      | null => exact fin (n := .null) e
      | hash h p => exact fin (n := .hash h p) e
      | internal h p pre l r => exact fin (n := .internal h p pre l r) e

theorem historyLoop_sameIo {E : Env} {h : B32} {fuel : Nat} {s s' : Store} {r : Option Node}
    (e : historyLoop E h fuel s = .ok (s', r)) : SameIo s s' := by
  induction fuel generalizing s with
  | zero => cases e
  | succ fuel ih =>
    rw [historyLoop] at e
    split at e
    · cases e; exact ⟨rfl, rfl, rfl, rfl, rfl⟩
    · obtain ⟨m, _, e⟩ := Res.bind_eq_ok.1 e
      cases m with
      | none => cases e; exact ⟨rfl, rfl, rfl, rfl, rfl⟩
      | some m =>
        simp only at e
        obtain ⟨⟨s1, rn⟩, e1, e⟩ := Res.bind_eq_ok.1 e
        have h1 := storeReadRoot_sameIo e1
        cases rn with
        | none => cases e; exact h1
        | some n =>
          simp only at e
          split at e
          · cases e; exact h1
          · have h2 := ih e
            exact h1.trans h2

theorem readHistory_sameIo {E : Env} {h : B32} {s s' : Store} {r : Option Node}
    (e : readHistory E s h = .ok (s', r)) : SameIo s s' := by
  unfold readHistory at e
  split at e
  · cases e; exact ⟨rfl, rfl, rfl, rfl, rfl⟩
  · split at e
    · cases e; exact ⟨rfl, rfl, rfl, rfl, rfl⟩
    · split at e
      · cases e; exact ⟨rfl, rfl, rfl, rfl, rfl⟩
      · exact historyLoop_sameIo e

theorem txCreate_sameIo {E : Env} {db db' : Db} {h : Option B32} {r : Except Err Tx} (e : txCreate E db h = .ok (db', r)) :
    SameIo db.store db'.store := by
  unfold txCreate at e
  cases h with
  | some h =>
    obtain ⟨⟨s, n⟩, e1, e⟩ := Res.bind_eq_ok.1 e
    have := readHistory_sameIo e1
    cases n <;> cases e <;> exact this
  | none =>
    simp only at e
    split at e
    · obtain ⟨⟨s, n⟩, e1, e⟩ := Res.bind_eq_ok.1 e
      have := readHistory_sameIo e1
      cases n <;> cases e <;> exact this
    · cases e; exact ⟨rfl, rfl, rfl, rfl, rfl⟩

/-- Every call but closing and opening again. -/
theorem step_rel {E : Env} (hR : IoRel E R) {s s' : Sys} {op : Op} {r : Ret} (hop : ∀ rand, op ≠ .reopen rand)
    (e : step E s op = .ok (s', r)) : R s.db.store s'.db.store := by
  cases op with
  | reopen rand => exact (hop rand rfl).elim
  | root => cases e; exact hR.refl _
  | inject h =>
    simp only [step] at e
    obtain ⟨⟨db, x⟩, e1, e⟩ := Res.bind_eq_ok.1 e
    cases e
    refine hR.same ?_
    unfold dbInject at e1
    obtain ⟨⟨s1, ok⟩, e2, e1⟩ := Res.bind_eq_ok.1 e1
    unfold hasHistory at e2
    obtain ⟨⟨s2, n⟩, e3, e2⟩ := Res.bind_eq_ok.1 e2
    have h3 := readHistory_sameIo e3
    cases n with
    | none => cases e2
    | some n =>
      cases e2
      cases e1
      exact h3
  | create id h =>
    simp only [step] at e
    obtain ⟨⟨db, x⟩, e1, e⟩ := Res.bind_eq_ok.1 e
    have h1 := txCreate_sameIo e1
    cases x <;> cases e <;> exact hR.same h1
  | destroy id =>
    simp only [step] at e
    obtain ⟨_, _, e⟩ := Res.bind_eq_ok.1 e
    obtain ⟨_, _, e⟩ := Res.bind_eq_ok.1 e
    cases e; exact hR.refl _
  | clear id =>
    simp only [step] at e
    obtain ⟨_, _, e⟩ := Res.bind_eq_ok.1 e
    obtain ⟨_, _, e⟩ := Res.bind_eq_ok.1 e
    cases e; exact hR.refl _
  | txRoot id =>
    simp only [step] at e
    obtain ⟨_, _, e⟩ := Res.bind_eq_ok.1 e
    obtain ⟨⟨_, _⟩, _, e⟩ := Res.bind_eq_ok.1 e
    cases e; exact hR.refl _
  | txInject id h =>
    simp only [step] at e
    obtain ⟨_, _, e⟩ := Res.bind_eq_ok.1 e
    obtain ⟨⟨db, t, x⟩, e1, e⟩ := Res.bind_eq_ok.1 e
    cases e
    refine hR.same ?_
    unfold txInject at e1
    obtain ⟨⟨s2, n⟩, e3, e1⟩ := Res.bind_eq_ok.1 e1
    have h3 := readHistory_sameIo e3
    cases n with
    | none => cases e1; exact h3
    | some n =>
      simp only at e1
      obtain ⟨_, _, e1⟩ := Res.bind_eq_ok.1 e1
      cases e1; exact h3
  | get id k =>
    simp only [step] at e
    obtain ⟨_, _, e⟩ := Res.bind_eq_ok.1 e
    obtain ⟨_, _, e⟩ := Res.bind_eq_ok.1 e
    cases e; exact hR.refl _
  | has id k =>
    simp only [step] at e
    obtain ⟨_, _, e⟩ := Res.bind_eq_ok.1 e
    obtain ⟨_, _, e⟩ := Res.bind_eq_ok.1 e
    cases e; exact hR.refl _
  | insert id k v =>
    simp only [step] at e
    obtain ⟨_, _, e⟩ := Res.bind_eq_ok.1 e
    obtain ⟨⟨_, _⟩, _, e⟩ := Res.bind_eq_ok.1 e
    cases e; exact hR.refl _
  | remove id k =>
    simp only [step] at e
    obtain ⟨_, _, e⟩ := Res.bind_eq_ok.1 e
    obtain ⟨⟨_, _⟩, _, e⟩ := Res.bind_eq_ok.1 e
    cases e; exact hR.refl _
  | prove id k =>
    simp only [step] at e
    obtain ⟨_, _, e⟩ := Res.bind_eq_ok.1 e
    obtain ⟨⟨_, _⟩, _, e⟩ := Res.bind_eq_ok.1 e
    cases e; exact hR.refl _
  | commit id =>
    simp only [step] at e
    obtain ⟨_, _, e⟩ := Res.bind_eq_ok.1 e
    obtain ⟨⟨_, _, _⟩, e1, e⟩ := Res.bind_eq_ok.1 e
    cases e; exact txCommit_rel hR e1
  | get1 k h =>
    simp only [step] at e
    obtain ⟨⟨db, x⟩, e1, e⟩ := Res.bind_eq_ok.1 e
    cases e
    unfold urkelGet at e1
    obtain ⟨⟨db1, y⟩, e2, e1⟩ := Res.bind_eq_ok.1 e1
    have h2 := txCreate_sameIo e2
    cases y with
    | error y => cases e1; exact hR.same h2
    | ok tx =>
      simp only at e1
      obtain ⟨_, _, e1⟩ := Res.bind_eq_ok.1 e1
      obtain ⟨_, _, e1⟩ := Res.bind_eq_ok.1 e1
      cases e1; exact hR.same h2
  | has1 k h =>
    simp only [step] at e
    obtain ⟨⟨db, x⟩, e1, e⟩ := Res.bind_eq_ok.1 e
    cases e
    unfold urkelHas at e1
    obtain ⟨⟨db1, y⟩, e2, e1⟩ := Res.bind_eq_ok.1 e1
    have h2 := txCreate_sameIo e2
    cases y with
    | error y => cases e1; exact hR.same h2
    | ok tx =>
      simp only at e1
      obtain ⟨_, _, e1⟩ := Res.bind_eq_ok.1 e1
      obtain ⟨_, _, e1⟩ := Res.bind_eq_ok.1 e1
      cases e1; exact hR.same h2
  | prove1 k h =>
    simp only [step] at e
    obtain ⟨⟨db, x⟩, e1, e⟩ := Res.bind_eq_ok.1 e
    cases e
    unfold urkelProve at e1
    obtain ⟨⟨db1, y⟩, e2, e1⟩ := Res.bind_eq_ok.1 e1
    have h2 := txCreate_sameIo e2
    cases y with
    | error y => cases e1; exact hR.same h2
    | ok tx =>
      simp only at e1
      obtain ⟨⟨_, _⟩, _, e1⟩ := Res.bind_eq_ok.1 e1
      simp only at e1
      obtain ⟨_, _, e1⟩ := Res.bind_eq_ok.1 e1
      cases e1; exact hR.same h2
  | insert1 k v =>
    simp only [step] at e
    obtain ⟨⟨db, x⟩, e1, e⟩ := Res.bind_eq_ok.1 e
    cases e
    unfold urkelInsert at e1
    obtain ⟨⟨db1, y⟩, e2, e1⟩ := Res.bind_eq_ok.1 e1
    have h2 := txCreate_sameIo e2
    cases y with
    | error y => cases e1; exact hR.same h2
    | ok tx =>
      simp only at e1
      obtain ⟨⟨tx1, z⟩, _, e1⟩ := Res.bind_eq_ok.1 e1
      cases z with
      | error z =>
        simp only at e1
        obtain ⟨_, _, e1⟩ := Res.bind_eq_ok.1 e1
        cases e1; exact hR.same h2
      | ok z =>
        simp only at e1
        obtain ⟨⟨_, _, _⟩, e3, e1⟩ := Res.bind_eq_ok.1 e1
        obtain ⟨_, _, e1⟩ := Res.bind_eq_ok.1 e1
        cases e1; exact hR.trans (hR.same h2) (txCommit_rel hR e3)
  | remove1 k =>
    simp only [step] at e
    obtain ⟨⟨db, x⟩, e1, e⟩ := Res.bind_eq_ok.1 e
    cases e
    unfold urkelRemove at e1
    obtain ⟨⟨db1, y⟩, e2, e1⟩ := Res.bind_eq_ok.1 e1
    have h2 := txCreate_sameIo e2
    cases y with
    | error y => cases e1; exact hR.same h2
    | ok tx =>
      simp only at e1
      obtain ⟨⟨tx1, z⟩, _, e1⟩ := Res.bind_eq_ok.1 e1
      cases z with
      | error z =>
        simp only at e1
        obtain ⟨_, _, e1⟩ := Res.bind_eq_ok.1 e1
        cases e1; exact hR.same h2
      | ok z =>
        simp only at e1
        obtain ⟨⟨_, _, _⟩, e3, e1⟩ := Res.bind_eq_ok.1 e1
        obtain ⟨_, _, e1⟩ := Res.bind_eq_ok.1 e1
        cases e1; exact hR.trans (hR.same h2) (txCommit_rel hR e3)

end Urkel
