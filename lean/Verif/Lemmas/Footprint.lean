import Verif.Lemmas.ConcApi
/-
What each operation reads and writes of the shared memory.
-/
namespace Urkel

/-- The store with another history. -/
def Store.hist (s : Store) (c : List (B32 × Ptr)) (l : Meta) : Store := { s with cache := c, lastMeta := l }

variable {c : List (B32 × Ptr)} {l : Meta}

theorem storeWrite_hist {E : Env} {s s' : Store} {d : Bytes} {ok : Bool} (e : storeWrite E s d = .ok (s', ok)) :
    storeWrite E (s.hist c l) d = .ok (s'.hist c l, ok) := by
  obtain ⟨key, files, index, cur, slab, c0, st, l0, faults, io⟩ := s
  unfold storeWrite at e ⊢
  simp only [Store.hist] at e ⊢
  by_cases h1 : cur + d.length > E.cfg.maxFile
  · simp only [h1, ↓reduceIte] at e ⊢
    by_cases h2 : faults.head?.join = some .openFail
    · simp only [h2, ↓reduceIte] at e ⊢; cases e; rfl
    · simp only [h2, ↓reduceIte] at e ⊢
      by_cases h3 : index + 1 ≥ E.cfg.maxFiles
      · simp only [h3, ↓reduceIte] at e; cases e
      · simp only [h3, ↓reduceIte] at e ⊢
        by_cases h4 : faults.head?.join = some .syncFail
        · simp only [h4, ↓reduceIte] at e ⊢
          by_cases h5 : files.length ≤ index
          · simp only [h5, ↓reduceIte] at e ⊢; cases e; rfl
          · simp only [h5, ↓reduceIte] at e ⊢; cases e; rfl
        · simp only [h4, ↓reduceIte] at e ⊢
          by_cases h5 : files.length ≤ index
          · simp only [h5, ↓reduceIte] at e ⊢
            by_cases h6 : d.length = 0
            · simp only [h6, ↓reduceIte] at e ⊢; cases e; rfl
            · simp only [h6, ↓reduceIte] at e ⊢
              split at e <;> (cases e; rfl)
          · simp only [h5, ↓reduceIte] at e ⊢
            by_cases h6 : d.length = 0
            · simp only [h6, ↓reduceIte] at e ⊢; cases e; rfl
            · simp only [h6, ↓reduceIte] at e ⊢
              split at e <;> (cases e; rfl)
  · simp only [h1, ↓reduceIte] at e ⊢
    by_cases h6 : d.length = 0
    · simp only [h6, ↓reduceIte] at e ⊢; cases e; rfl
    · simp only [h6, ↓reduceIte] at e ⊢
      split at e <;> (cases e; rfl)

theorem bind_step {α β : Type} {x : Res α} {a : α} {f : α → Res β} {y : Res β} (h : x = .ok a) (h2 : f a = y) : (x >>= f) = y := by
  rw [h]; exact h2

theorem flushLoop_hist {E : Env} {lens : List Nat} {data : Bytes} {i : Nat} {s s' : Store} {r : Option Nat}
    (e : flushLoop E lens data i s = .ok (s', r)) : flushLoop E lens data i (s.hist c l) = .ok (s'.hist c l, r) := by
  induction lens generalizing data i s with
  | nil => cases e; rfl
  | cons len lens ih =>
    rw [flushLoop] at e ⊢
    obtain ⟨⟨s1, ok⟩, e1, e⟩ := Res.bind_eq_ok.1 e
    refine bind_step (storeWrite_hist e1) ?_
    simp only at e ⊢
    cases ok
    · cases e; rfl
    · exact ih e

theorem storeFlush_hist {E : Env} {s s' : Store} {ok : Bool} (e : storeFlush E s = .ok (s', ok)) :
    storeFlush E (s.hist c l) = .ok (s'.hist c l, ok) := by
  unfold storeFlush at e ⊢
  have hs : (s.hist c l).slab = s.slab := rfl
  simp only [hs] at e ⊢
  split at e
  · cases e
  · rename_i h
    rw [if_neg h]
    obtain ⟨⟨s1, r⟩, e1, e⟩ := Res.bind_eq_ok.1 e
    refine bind_step (flushLoop_hist e1) ?_
    cases r <;> (cases e; rfl)

theorem commitSync_hist {E : Env} {s s' : Store} {ok : Bool} (e : commitSync E s = (s', ok)) :
    commitSync E (s.hist c l) = (s'.hist c l, ok) := by
  unfold commitSync at e ⊢
  simp only [Store.hist] at e ⊢
  split at e
  · rename_i h
    rw [if_pos h]
    split at e
    · rename_i h2; simp only [h2, ↓reduceIte]; cases e; rfl
    · rename_i h2; simp only [h2, ↓reduceIte]; cases e; rfl
  · rename_i h
    rw [if_neg h]; cases e; rfl

theorem flushSync_hist {E : Env} {s s' : Store} {ok : Bool} (e : flushSync E s = .ok (s', ok)) :
    flushSync E (s.hist c l) = .ok (s'.hist c l, ok) := by
  unfold flushSync at e ⊢
  obtain ⟨⟨s1, r⟩, e1, e⟩ := Res.bind_eq_ok.1 e
  refine bind_step (storeFlush_hist e1) ?_
  cases r
  · cases e; rfl
  · simp only [if_true] at e ⊢
    injection e with e
    exact congrArg Res.ok (commitSync_hist e)

theorem flushAndHash_hist {E : Env} {s s' : Store} {n : Node} {w : Bool} {r : Option Node}
    (e : flushAndHash E s n w = .ok (s', r)) : flushAndHash E (s.hist c l) n w = .ok (s'.hist c l, r) := by
  unfold flushAndHash at e ⊢
  have hn : needsFlush E (s.hist c l) = needsFlush E s := rfl
  have fin : ∀ {s1 : Store} {ok : Bool}, (if (!ok) = true then pure (s1, none)
        else do
          let (_, n) ← nodeHash E.H n
          let o ← toHash n
          pure (s1, some o)) = Res.ok (s', r) → (if (!ok) = true then pure (s1.hist c l, none)
        else do
          let (_, n) ← nodeHash E.H n
          let o ← toHash n
          pure (s1.hist c l, some o)) = Res.ok (s'.hist c l, r) := by
    intro s1 ok e
    split at e
    · rename_i h; rw [if_pos h]; cases e; rfl
    · rename_i h; rw [if_neg h]
      obtain ⟨⟨_, _⟩, e1, e⟩ := Res.bind_eq_ok.1 e
      refine bind_step e1 ?_
      obtain ⟨_, e2, e⟩ := Res.bind_eq_ok.1 e
      refine bind_step e2 ?_
      cases e; rfl
  simp only [hn] at e ⊢
  split at e
  · rename_i h
    rw [if_pos h]
    obtain ⟨⟨s1, ok⟩, e1, e⟩ := Res.bind_eq_ok.1 e
    exact bind_step (storeFlush_hist e1) (fin e)
  · rename_i h
    rw [if_neg h]
    exact fin (s1 := s) (ok := true) e

theorem storeWriteNode_hist {E : Env} {s s' : Store} {n n' : Node} (e : storeWriteNode E s n = .ok (s', n')) :
    storeWriteNode E (s.hist c l) n = .ok (s'.hist c l, n') := by
  unfold storeWriteNode at e ⊢
  obtain ⟨raw, e1, e⟩ := Res.bind_eq_ok.1 e
  refine bind_step e1 ?_
  split at e
  · obtain ⟨_, e2, e⟩ := Res.bind_eq_ok.1 e
    exact bind_step e2 (by cases e; rfl)
  · obtain ⟨_, e2, e⟩ := Res.bind_eq_ok.1 e
    exact bind_step e2 (by cases e; rfl)
  · cases e

theorem storeWriteValue_hist {E : Env} {s s' : Store} {n n' : Node} (e : storeWriteValue E s n = .ok (s', n')) :
    storeWriteValue E (s.hist c l) n = .ok (s'.hist c l, n') := by
  unfold storeWriteValue at e ⊢
  split at e
  · obtain ⟨_, e2, e⟩ := Res.bind_eq_ok.1 e
    exact bind_step e2 (by cases e; rfl)
  · cases e

theorem treeWrite_hist {E : Env} {n : Node} {s s' : Store} {r : Option Node} (e : treeWrite E n s = .ok (s', r)) :
    treeWrite E n (s.hist c l) = .ok (s'.hist c l, r) := by
  induction n generalizing s s' r with
  | null => cases e; rfl
  | hash h p => cases e; rfl
  | leaf h p k v vp =>
    simp only [treeWrite] at e ⊢
    cases p with
    | some p => exact flushAndHash_hist e
    | none =>
      simp only at e ⊢
      obtain ⟨⟨s1, n1⟩, e1, e⟩ := Res.bind_eq_ok.1 e
      obtain ⟨⟨s2, n2⟩, e2, e⟩ := Res.bind_eq_ok.1 e
      exact bind_step (storeWriteValue_hist e1) (bind_step (storeWriteNode_hist e2) (flushAndHash_hist e))
  | internal h p pre l r ihl ihr =>
    simp only [treeWrite] at e ⊢
    obtain ⟨⟨s1, l'⟩, e1, e⟩ := Res.bind_eq_ok.1 e
    refine bind_step (ihl e1) ?_
    cases l' with
    | none => cases e; rfl
    | some l' =>
      simp only at e ⊢
      obtain ⟨⟨s2, r'⟩, e2, e⟩ := Res.bind_eq_ok.1 e
      refine bind_step (ihr e2) ?_
      cases r' with
      | none => cases e; rfl
      | some r' =>
        cases p with
        | some p => exact flushAndHash_hist e
        | none =>
          simp only at e ⊢
          obtain ⟨⟨s3, n3⟩, e3, e⟩ := Res.bind_eq_ok.1 e
          exact bind_step (storeWriteNode_hist e3) (flushAndHash_hist e)

theorem storeWriteMeta_hist {E : Env} {s s' : Store} {n : Node} {st : Meta} (e : storeWriteMeta E s n = .ok (s', st)) :
    storeWriteMeta E (s.hist c l) n = .ok (s'.hist c l, st) := by
  unfold storeWriteMeta at e ⊢
  obtain ⟨_, e1, e⟩ := Res.bind_eq_ok.1 e
  refine bind_step e1 ?_
  obtain ⟨_, e1, e⟩ := Res.bind_eq_ok.1 e
  refine bind_step e1 ?_
  obtain ⟨_, e1, e⟩ := Res.bind_eq_ok.1 e
  refine bind_step e1 ?_
  obtain ⟨_, e1, e⟩ := Res.bind_eq_ok.1 e
  refine bind_step e1 ?_
  cases e; rfl

theorem storeCommit_hist {E : Env} {s s' : Store} {n : Node} {ok : Bool} (e : storeCommit E s n = .ok (s', ok)) :
    ∃ f : List (B32 × Ptr) → List (B32 × Ptr), (∀ c l, storeCommit E (s.hist c l) n = .ok (s'.hist (f c) l, ok)) := by
  unfold storeCommit at e
  obtain ⟨⟨s1, st⟩, e1, e⟩ := Res.bind_eq_ok.1 e
  obtain ⟨⟨s2, b⟩, e2, e⟩ := Res.bind_eq_ok.1 e
  cases b
  · cases e
    refine ⟨id, fun c l => ?_⟩
    unfold storeCommit
    exact bind_step (storeWriteMeta_hist e1) (bind_step (flushSync_hist e2) rfl)
  · cases e
    refine ⟨fun c => cacheRoot c st.rootNode, fun c l => ?_⟩
    unfold storeCommit
    exact bind_step (storeWriteMeta_hist e1) (bind_step (flushSync_hist e2) rfl)

theorem Store.hist_hist (s : Store) (c c' : List (B32 × Ptr)) (l l' : Meta) : (s.hist c l).hist c' l' = s.hist c' l' := rfl

theorem Store.hist_self (s : Store) : s.hist s.cache s.lastMeta = s := rfl

/-- What a commit does, apart from what it adds to the cache and the current root. -/
theorem txCommit_hist {E : Env} {db db' : Db} {t t' : Tx} {r : Except Err Unit} (e : txCommit E db t = .ok (db', t', r)) :
    ∃ (f : List (B32 × Ptr) → List (B32 × Ptr)) (g : B32 → B32),
      ∀ c l h v, txCommit E ⟨db.store.hist c l, h, v⟩ t = .ok (⟨db'.store.hist (f c) l, g h, v⟩, t', r) := by
  unfold txCommit at e
  obtain ⟨n, e1, e⟩ := Res.bind_eq_ok.1 e
  obtain ⟨⟨s1, x⟩, e2, e⟩ := Res.bind_eq_ok.1 e
  cases x with
  | none =>
    cases e
    refine ⟨id, id, fun c l h v => ?_⟩
    unfold txCommit
    exact bind_step e1 (bind_step (treeWrite_hist e2) rfl)
  | some root =>
    simp only at e
    obtain ⟨⟨s2, ok⟩, e3, e⟩ := Res.bind_eq_ok.1 e
    obtain ⟨f, hf⟩ := storeCommit_hist e3
    cases ok
    · cases e
      refine ⟨f, id, fun c l h v => ?_⟩
      unfold txCommit
      exact bind_step e1 (bind_step (treeWrite_hist e2) (bind_step (hf c l) rfl))
    · cases e
      refine ⟨f, fun _ => rootNodeHash root, fun c l h v => ?_⟩
      unfold txCommit
      exact bind_step e1 (bind_step (treeWrite_hist e2) (bind_step (hf c l) rfl))

/-! ### Reading -/

/-- Stores that read the same. -/
def SameRead (s s' : Store) : Prop := s'.files = s.files ∧ s'.index = s.index ∧ s'.curSize = s.curSize

variable {s s' : Store}

theorem storeRead_same (h : SameRead s s') (a b d : Nat) : storeRead s' a b d = storeRead s a b d := by
  unfold storeRead; rw [h.1, h.2.1, h.2.2]

theorem storeRetrieve_same (h : SameRead s s') (v : Option Bytes) (p : Option Ptr) : storeRetrieve s' v p = storeRetrieve s v p := by
  unfold storeRetrieve storeReadInto
  simp only [storeRead_same h]

theorem storeResolve_same (h : SameRead s s') (x : B32) (p : Ptr) : storeResolve s' x p = storeResolve s x p := by
  unfold storeResolve storeReadNode storeReadInto
  simp only [storeRead_same h]

theorem treeGet_same (h : SameRead s s') (k : B32) (w : Bool) : ∀ (fuel : Nat) (n : Node) (d : Nat), treeGet s' k w fuel n d = treeGet s k w fuel n d
  | 0, _, _ => rfl
  | fuel + 1, n, d => by
    cases n <;> simp only [treeGet, storeRetrieve_same h, storeResolve_same h, treeGet_same h k w fuel]

theorem treeInsert_same (h : SameRead s s') (E : Env) (k : B32) (v : Bytes) :
    ∀ (fuel : Nat) (n : Node) (d : Nat), treeInsert E s' k v fuel n d = treeInsert E s k v fuel n d
  | 0, _, _ => rfl
  | fuel + 1, n, d => by
    cases n <;> simp only [treeInsert, storeResolve_same h, treeInsert_same h E k v fuel]

theorem treeRemove_same (h : SameRead s s') (k : B32) : ∀ (fuel : Nat) (n : Node) (d : Nat), treeRemove s' k fuel n d = treeRemove s k fuel n d
  | 0, _, _ => rfl
  | fuel + 1, n, d => by
    cases n <;> simp only [treeRemove, storeResolve_same h, treeRemove_same h k fuel]

theorem treeProve_same (h : SameRead s s') (E : Env) (k : B32) :
    ∀ (fuel : Nat) (n : Node) (d p : Nat), treeProve E s' k fuel n d p = treeProve E s k fuel n d p
  | 0, _, _, _ => rfl
  | fuel + 1, n, d, p => by
    cases n <;> simp only [treeProve, storeRetrieve_same h, storeResolve_same h, treeProve_same h E k fuel]

theorem txGet_same {db db' : Db} (h : SameRead db.store db'.store) (t : Tx) (k : B32) : txGet db' t k = txGet db t k := by
  unfold txGet; simp only [treeGet_same h]

theorem txHas_same {db db' : Db} (h : SameRead db.store db'.store) (t : Tx) (k : B32) : txHas db' t k = txHas db t k := by
  unfold txHas; simp only [treeGet_same h]

theorem txInsert_same {db db' : Db} (h : SameRead db.store db'.store) (E : Env) (t : Tx) (k : B32) (v : Bytes) : txInsert E db' t k v = txInsert E db t k v := by
  unfold txInsert; simp only [treeInsert_same h]

theorem txRemove_same {db db' : Db} (h : SameRead db.store db'.store) (t : Tx) (k : B32) : txRemove db' t k = txRemove db t k := by
  unfold txRemove; simp only [treeRemove_same h]

theorem txProve_same {db db' : Db} (h : SameRead db.store db'.store) (E : Env) (t : Tx) (k : B32) : txProve E db' t k = txProve E db t k := by
  unfold txProve; simp only [treeProve_same h]

/-! ### Reading the history -/

/-- Only the history differs. -/
def OnlyHist (s s' : Store) : Prop := ∃ c l, s' = s.hist c l

theorem OnlyHist.refl (s : Store) : OnlyHist s s := ⟨_, _, rfl⟩

theorem OnlyHist.trans {a b d : Store} (h1 : OnlyHist a b) (h2 : OnlyHist b d) : OnlyHist a d := by
  obtain ⟨_, _, rfl⟩ := h1
  obtain ⟨_, _, rfl⟩ := h2
  exact ⟨_, _, rfl⟩

theorem storeReadRoot_hist {E : Env} {s s' : Store} {p : Ptr} {r : Option Node} (e : storeReadRoot E s p = .ok (s', r)) :
    OnlyHist s s' := by
  unfold storeReadRoot at e
  split at e
  · cases e; exact ⟨_, _, rfl⟩
  · obtain ⟨n, _, e⟩ := Res.bind_eq_ok.1 e
    cases n with
    | none => cases e; exact ⟨_, _, rfl⟩
    | some n =>
      simp only at e
      have fin : ∀ {n : Node}, (do
          let (_, n) ← nodeHash E.H n
          let o ← toHash n
          match o with
          | .hash h p => pure ({ s with cache := cacheInsert s.cache h p }, some o)
          | _ => Res.abort) = .ok (s', r) → OnlyHist s s' := by
        intro n e
        obtain ⟨⟨_, n⟩, _, e⟩ := Res.bind_eq_ok.1 e
        simp only at e
        obtain ⟨o, _, e⟩ := Res.bind_eq_ok.1 e
        cases o <;> cases e
        exact ⟨_, _, rfl⟩
      cases n with
      | leaf h wp k v vp =>
        simp only at e
        obtain ⟨x, _, e⟩ := Res.bind_eq_ok.1 e
        cases x with
        | none => cases e; exact ⟨_, _, rfl⟩
        | some x =>
          simp only at e
          obtain ⟨_, _, e⟩ := Res.bind_eq_ok.1 e
          exact fin (n := .leaf h wp k (some x) vp) e
      | null => exact fin (n := .null) e
      | hash h p => exact fin (n := .hash h p) e
      | internal h p pre l r => exact fin (n := .internal h p pre l r) e

theorem historyLoop_hist {E : Env} {h : B32} {fuel : Nat} {s s' : Store} {r : Option Node}
    (e : historyLoop E h fuel s = .ok (s', r)) : OnlyHist s s' := by
  induction fuel generalizing s with
  | zero => cases e
  | succ fuel ih =>
    rw [historyLoop] at e
    split at e
    · cases e; exact ⟨_, _, rfl⟩
    · obtain ⟨m, _, e⟩ := Res.bind_eq_ok.1 e
      cases m with
      | none => cases e; exact ⟨_, _, rfl⟩
      | some m =>
        simp only at e
        obtain ⟨⟨s1, rn⟩, e1, e⟩ := Res.bind_eq_ok.1 e
        have h1 := storeReadRoot_hist e1
        cases rn with
        | none => cases e; exact h1
        | some n =>
          simp only at e
          have h0 : OnlyHist s1 { s1 with lastMeta := m } := ⟨_, _, rfl⟩
          split at e
          · cases e; exact h1.trans h0
          · have h2 := ih e
            exact (h1.trans h0).trans h2

theorem readHistory_hist {E : Env} {h : B32} {s s' : Store} {r : Option Node}
    (e : readHistory E s h = .ok (s', r)) : OnlyHist s s' := by
  unfold readHistory at e
  split at e
  · cases e; exact ⟨_, _, rfl⟩
  · split at e
    · cases e; exact ⟨_, _, rfl⟩
    · split at e
      · cases e; exact ⟨_, _, rfl⟩
      · exact historyLoop_hist e

end Urkel
