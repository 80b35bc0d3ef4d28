import Verif.Lemmas.HeapWrite
import Verif.Lemmas.Footprint
/-
Roots kept by the store have no children in memory.
-/
namespace Urkel

theorem storeWrite_state {E : Env} {s s' : Store} {d : Bytes} {ok : Bool} (e : storeWrite E s d = .ok (s', ok)) : s'.state = s.state := by
  obtain ⟨key, files, index, cur, slab, c0, st, l0, faults, io⟩ := s
  unfold storeWrite at e
  simp only at e
  repeat' split at e
  all_goals first
    | (cases e; rfl)
    | cases e

theorem flushLoop_state {E : Env} : ∀ (lens : List Nat) (data : Bytes) (i : Nat) (s s' : Store) (r : Option Nat),
    flushLoop E lens data i s = .ok (s', r) → s'.state = s.state := by
  intro lens
  induction lens with
  | nil => intro data i s s' r e; cases e; rfl
  | cons len lens ih =>
    intro data i s s' r e
    rw [flushLoop] at e
    obtain ⟨⟨s1, ok⟩, e1, e⟩ := Res.bind_eq_ok.1 e
    have h1 := storeWrite_state e1
    simp only at e
    cases ok
    · cases e; exact h1
    · exact (ih _ _ _ _ _ e).trans h1

theorem storeFlush_state {E : Env} {s s' : Store} {ok : Bool} (e : storeFlush E s = .ok (s', ok)) : s'.state = s.state := by
  unfold storeFlush at e
  simp only at e
  split at e
  · cases e
  · obtain ⟨⟨s1, r⟩, e1, e⟩ := Res.bind_eq_ok.1 e
    have h1 := flushLoop_state _ _ _ _ _ _ e1
    cases r <;> (cases e; exact h1)

theorem flushSync_state {E : Env} {s s' : Store} {ok : Bool} (e : flushSync E s = .ok (s', ok)) : s'.state = s.state := by
  unfold flushSync at e
  obtain ⟨⟨s1, r⟩, e1, e⟩ := Res.bind_eq_ok.1 e
  have h1 := storeFlush_state e1
  cases r
  · cases e; exact h1
  · simp only [if_true] at e
    injection e with e
    unfold commitSync at e
    split at e
    · split at e <;> (cases e; exact h1)
    · cases e; exact h1

theorem flushAndHash_state {E : Env} {s s' : Store} {n : Node} {w : Bool} {r : Option Node}
    (e : flushAndHash E s n w = .ok (s', r)) : s'.state = s.state := by
  have e' : ((if w && needsFlush E s then storeFlush E s else pure (s, true)) >>= fun x => if !x.2 then pure (x.1, none) else do
      let (_, n) ← nodeHash E.H n
      let o ← toHash n
      pure (x.1, some o) : Res (Store × Option Node)) = .ok (s', r) := by
    rw [← e]
    unfold flushAndHash
    split <;> rfl
  obtain ⟨⟨s1, ok⟩, e1, e⟩ := Res.bind_eq_ok.1 e'
  have h1 : s1.state = s.state := by
    split at e1
    · exact storeFlush_state e1
    · cases e1; rfl
  cases ok with
  | false => cases e; exact h1
  | true =>
    obtain ⟨⟨h, n1⟩, e2, e⟩ := Res.bind_eq_ok.1 e
    obtain ⟨o, e3, e⟩ := Res.bind_eq_ok.1 e
    cases e; exact h1

theorem storeWriteNode_state {E : Env} {s s' : Store} {n n' : Node} (e : storeWriteNode E s n = .ok (s', n')) : s'.state = s.state := by
  unfold storeWriteNode at e
  obtain ⟨raw, e1, e⟩ := Res.bind_eq_ok.1 e
  split at e
  · obtain ⟨_, e2, e⟩ := Res.bind_eq_ok.1 e; cases e; rfl
  · obtain ⟨_, e2, e⟩ := Res.bind_eq_ok.1 e; cases e; rfl
  · cases e

theorem storeWriteValue_state {E : Env} {s s' : Store} {n n' : Node} (e : storeWriteValue E s n = .ok (s', n')) : s'.state = s.state := by
  unfold storeWriteValue at e
  split at e
  · obtain ⟨_, e2, e⟩ := Res.bind_eq_ok.1 e; cases e; rfl
  · cases e

theorem treeWrite_state {E : Env} : ∀ (n : Node) (s s' : Store) (r : Option Node), treeWrite E n s = .ok (s', r) → s'.state = s.state := by
  intro n
  induction n with
  | null => intro s s' r e; cases e; rfl
  | hash h p => intro s s' r e; cases e; rfl
  | leaf h p k v vp =>
    intro s s' r e
    unfold treeWrite at e
    cases p with
    | some p => exact flushAndHash_state e
    | none =>
      obtain ⟨⟨s1, n1⟩, e1, e2⟩ := Res.bind_eq_ok.1 e
      obtain ⟨⟨s2, n2⟩, e3, e4⟩ := Res.bind_eq_ok.1 e2
      exact (flushAndHash_state e4).trans ((storeWriteNode_state e3).trans (storeWriteValue_state e1))
  | internal h p pre l r' ihl ihr =>
    intro s s' r e
    unfold treeWrite at e
    obtain ⟨⟨s1, l'⟩, e1, e⟩ := Res.bind_eq_ok.1 e
    have h1 := ihl _ _ _ e1
    cases l' with
    | none => cases e; exact h1
    | some l' =>
      obtain ⟨⟨s2, r1⟩, e2, e⟩ := Res.bind_eq_ok.1 e
      have h2 := (ihr _ _ _ e2).trans h1
      cases r1 with
      | none => cases e; exact h2
      | some r1 =>
        dsimp only at e
        cases p with
        | some p => exact (flushAndHash_state e).trans h2
        | none =>
          obtain ⟨⟨s3, n3⟩, e3, e4⟩ := Res.bind_eq_ok.1 e
          exact (flushAndHash_state e4).trans ((storeWriteNode_state e3).trans h2)

theorem storeCommit_flat {E : Env} {s s' : Store} {n : Node} {ok : Bool} (e : storeCommit E s n = .ok (s', ok)) (h : Flat s.state.rootNode) :
    Flat s'.state.rootNode := by
  unfold storeCommit at e
  obtain ⟨⟨s1, st⟩, e1, e⟩ := Res.bind_eq_ok.1 e
  obtain ⟨⟨s2, ok'⟩, e2, e⟩ := Res.bind_eq_ok.1 e
  unfold storeWriteMeta at e1
  obtain ⟨rptr, _, e1⟩ := Res.bind_eq_ok.1 e1
  obtain ⟨rn, e3, e1⟩ := Res.bind_eq_ok.1 e1
  obtain ⟨slab, _, e1⟩ := Res.bind_eq_ok.1 e1
  obtain ⟨slab', _, e1⟩ := Res.bind_eq_ok.1 e1
  cases e1
  have h2 := flushSync_state e2
  cases ok' with
  | true => cases e; exact toHash_flat e3
  | false => cases e; rw [h2]; exact h

theorem storeReadRoot_flat {E : Env} {s s' : Store} {p : Ptr} {n : Node} (e : storeReadRoot E s p = .ok (s', some n)) : Flat n := by
  unfold storeReadRoot at e
  split at e
  · cases e; trivial
  · obtain ⟨q, _, e⟩ := Res.bind_eq_ok.1 e
    cases q with
    | none => cases e
    | some q =>
      simp only at e
      have fin : ∀ {q : Node}, (do
          let (_, n) ← nodeHash E.H q
          let o ← toHash n
          match o with
          | .hash h p => pure ({ s with cache := cacheInsert s.cache h p }, some o)
          | _ => Res.abort) = .ok (s', some n) → Flat n := by
        intro q e
        obtain ⟨⟨_, q⟩, _, e⟩ := Res.bind_eq_ok.1 e
        simp only at e
        obtain ⟨o, e1, e⟩ := Res.bind_eq_ok.1 e
        have := toHash_flat e1
        cases o <;> cases e
        exact this
      cases q with
      | leaf h wp k v vp =>
        simp only at e
        obtain ⟨x, _, e⟩ := Res.bind_eq_ok.1 e
        cases x with
        | none => cases e
        | some x =>
          simp only at e
          obtain ⟨_, _, e⟩ := Res.bind_eq_ok.1 e
          exact fin (q := .leaf h wp k (some x) vp) e
      | null => exact fin (q := .null) e
      | hash h p => exact fin (q := .hash h p) e
      | internal h p pre l r => exact fin (q := .internal h p pre l r) e

theorem historyLoop_flat {E : Env} {h : B32} {n : Node} : ∀ (fuel : Nat) (s s' : Store), historyLoop E h fuel s = .ok (s', some n) → Flat n := by
  intro fuel
  induction fuel with
  | zero => intro s s' e; cases e
  | succ fuel ih =>
    intro s s' e
    rw [historyLoop] at e
    split at e
    · cases e
    · obtain ⟨m, _, e⟩ := Res.bind_eq_ok.1 e
      cases m with
      | none => cases e
      | some m =>
        simp only at e
        obtain ⟨⟨s1, rn⟩, e1, e⟩ := Res.bind_eq_ok.1 e
        cases rn with
        | none => cases e
        | some q =>
          simp only at e
          split at e
          · cases e; exact storeReadRoot_flat e1
          · exact ih _ _ e

theorem readHistory_flat {E : Env} {h : B32} {s s' : Store} {n : Node} (e : readHistory E s h = .ok (s', some n)) (hs : Flat s.state.rootNode) :
    Flat n := by
  unfold readHistory at e
  split at e
  · cases e; trivial
  · split at e
    · cases e; exact hs
    · split at e
      · cases e; trivial
      · exact historyLoop_flat _ _ _ e

theorem readHistory_state {E : Env} {h : B32} {s s' : Store} {r : Option Node} (e : readHistory E s h = .ok (s', r)) : s'.state = s.state := by
  obtain ⟨c, l, rfl⟩ := readHistory_hist e
  rfl

theorem dbOpen_flat {E : Env} {d d' : Dir} {rand : B32} {db : Db} (e : dbOpen E d rand = .ok (d', .ok db)) : Flat db.store.state.rootNode := by
  unfold dbOpen at e
  obtain ⟨⟨d1, r⟩, e1, e⟩ := Res.bind_eq_ok.1 e
  cases r with
  | none => cases e
  | some s =>
    cases e
    unfold openStore at e1
    split at e1
    · cases e1
    · obtain ⟨⟨st, lm, files, index⟩, _, e1⟩ := Res.bind_eq_ok.1 e1
      obtain ⟨⟨s1, o⟩, e2, e1⟩ := Res.bind_eq_ok.1 e1
      cases o with
      | none => cases e1
      | some n => cases e1; exact storeReadRoot_flat e2

end Urkel
