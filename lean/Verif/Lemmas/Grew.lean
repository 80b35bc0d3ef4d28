import Verif.Model.Api
import Verif.Spec.Crash
/-
Every call only appends to the data files, whatever state the library is in and
whatever the operating system does to its writes.
-/
namespace Urkel

theorem Grew.refl (a : List Bytes) : Grew a a := fun _ f h => ⟨[], by simpa using h⟩

theorem Grew.trans {a b c : List Bytes} (h1 : Grew a b) (h2 : Grew b c) : Grew a c := by
  intro j f h
  obtain ⟨d, e⟩ := h1 j f h
  obtain ⟨d', e'⟩ := h2 j _ e
  exact ⟨d ++ d', by rw [e', List.append_assoc]⟩

theorem Grew.of_eq {a b : List Bytes} (h : b = a) : Grew a b := h ▸ Grew.refl a

theorem grew_append (a b : List Bytes) : Grew a (a ++ b) := by
  intro j f h
  refine ⟨[], ?_⟩
  have hlt := (List.getElem?_eq_some_iff.1 h).1
  rw [List.getElem?_append_left hlt, h]; simp

theorem grew_appendFile (a : List Bytes) (i : Nat) (d : Bytes) : Grew a (appendFile a i d) := by
  intro j f h
  unfold appendFile
  rw [List.getElem?_modify]
  by_cases hij : i - 1 = j
  · exact ⟨d, by simp only [hij, if_true, h]; rfl⟩
  · exact ⟨[], by simp only [hij, if_false, h]; simp⟩

theorem storeWrite_grew {E : Env} {s s' : Store} {d : Bytes} {ok : Bool} (e : storeWrite E s d = .ok (s', ok)) :
    Grew s.files s'.files := by
  unfold storeWrite at e
  have wr : ∀ {x : Store}, Grew s.files x.files →
      (if d.length = 0 then Res.ok (x, true)
       else match s.faults.head?.join with
        | some (.writeFail k) => .ok ({ x with files := appendFile x.files x.index (d.take k), io := .append x.index (d.take k) :: x.io }, false)
        | some .mapFail =>
          .ok ({ x with files := appendFile x.files x.index d, curSize := x.curSize + d.length, io := .append x.index d :: x.io }, false)
        | _ =>
          .ok ({ x with files := appendFile x.files x.index d, curSize := x.curSize + d.length, io := .append x.index d :: x.io }, true)) = .ok (s', ok) →
      Grew s.files s'.files := by
    intro x hx e
    split at e
    · cases e; exact hx
    · split at e <;> cases e <;> exact hx.trans (grew_appendFile _ _ _)
  simp only at e
  split at e
  · split at e
    · cases e; exact Grew.refl _
    · split at e
      · cases e
      · split at e
        · cases e
          split
          · exact grew_append _ _
          · exact Grew.refl _
        · refine wr ?_ e
          simp only
          split
          · exact grew_append _ _
          · exact Grew.refl _
  · exact wr (x := { s with faults := s.faults.tail }) (Grew.refl _) e

theorem flushLoop_grew {E : Env} {lens : List Nat} {data : Bytes} {i : Nat} {s s' : Store} {r : Option Nat}
    (e : flushLoop E lens data i s = .ok (s', r)) : Grew s.files s'.files := by
  induction lens generalizing data i s with
  | nil => cases e; exact Grew.refl _
  | cons len lens ih =>
    rw [flushLoop] at e
    obtain ⟨⟨s1, ok⟩, e1, e⟩ := Res.bind_eq_ok.1 e
    simp only at e
    have h1 := storeWrite_grew e1
    split at e
    · exact h1.trans (ih e)
    · cases e; exact h1

theorem storeFlush_grew {E : Env} {s s' : Store} {ok : Bool} (e : storeFlush E s = .ok (s', ok)) :
    Grew s.files s'.files := by
  unfold storeFlush at e
  simp only at e
  split at e
  · cases e
  · obtain ⟨⟨s1, r⟩, e1, e⟩ := Res.bind_eq_ok.1 e
    have h1 := flushLoop_grew e1
    cases r <;> cases e <;> exact h1

theorem commitSync_files (E : Env) (s : Store) : (commitSync E s).1.files = s.files := by
  unfold commitSync
  split
  · split <;> rfl
  · rfl

theorem flushSync_grew {E : Env} {s s' : Store} {ok : Bool} (e : flushSync E s = .ok (s', ok)) :
    Grew s.files s'.files := by
  unfold flushSync at e
  obtain ⟨⟨s1, r⟩, e1, e⟩ := Res.bind_eq_ok.1 e
  have h1 := storeFlush_grew e1
  cases r
  · cases e; exact h1
  · injection e with e
    have : s'.files = s1.files := by rw [← commitSync_files E s1]; simp only [if_true] at e; rw [e]
    rw [this]; exact h1

theorem flushAndHash_grew {E : Env} {s s' : Store} {n : Node} {w : Bool} {r : Option Node}
    (e : flushAndHash E s n w = .ok (s', r)) : Grew s.files s'.files := by
  unfold flushAndHash at e
  have fin : ∀ {s1 : Store} {ok : Bool}, Grew s.files s1.files → (if (!ok) = true then pure (s1, none)
        else do
          let (_, n) ← nodeHash E.H n
          let o ← toHash n
          pure (s1, some o)) = Res.ok (s', r) → Grew s.files s'.files := by
    intro s1 ok h1 e
    split at e
    · cases e; exact h1
    · obtain ⟨⟨_, _⟩, _, e⟩ := Res.bind_eq_ok.1 e
      obtain ⟨_, _, e⟩ := Res.bind_eq_ok.1 e
      cases e; exact h1
  simp only at e
  split at e
  · obtain ⟨⟨s1, ok⟩, e1, e⟩ := Res.bind_eq_ok.1 e
    exact fin (storeFlush_grew e1) e
  · exact fin (s1 := s) (ok := true) (Grew.refl _) e

theorem storeWriteNode_grew {E : Env} {s s' : Store} {n n' : Node} (e : storeWriteNode E s n = .ok (s', n')) :
    s'.files = s.files := by
  unfold storeWriteNode at e
  obtain ⟨raw, _, e⟩ := Res.bind_eq_ok.1 e
  split at e
  · obtain ⟨_, _, e⟩ := Res.bind_eq_ok.1 e; cases e; rfl
  · obtain ⟨_, _, e⟩ := Res.bind_eq_ok.1 e; cases e; rfl
  · cases e

theorem storeWriteValue_grew {E : Env} {s s' : Store} {n n' : Node} (e : storeWriteValue E s n = .ok (s', n')) :
    s'.files = s.files := by
  unfold storeWriteValue at e
  split at e
  · obtain ⟨_, _, e⟩ := Res.bind_eq_ok.1 e; cases e; rfl
  · cases e

theorem treeWrite_grew {E : Env} {n : Node} {s s' : Store} {r : Option Node} (e : treeWrite E n s = .ok (s', r)) :
    Grew s.files s'.files := by
  induction n generalizing s s' r with
  | null => cases e; exact Grew.refl _
  | hash h p => cases e; exact Grew.refl _
  | leaf h p k v vp =>
    simp only [treeWrite] at e
    split at e
    · exact flushAndHash_grew e
    · obtain ⟨⟨s1, n1⟩, e1, e⟩ := Res.bind_eq_ok.1 e
      obtain ⟨⟨s2, n2⟩, e2, e⟩ := Res.bind_eq_ok.1 e
      have h1 := storeWriteValue_grew e1
      have h2 := storeWriteNode_grew e2
      have h3 := flushAndHash_grew e
      simp only at h2 h3
      rw [h2, h1] at h3; exact h3
  | internal h p pre l r ihl ihr =>
    simp only [treeWrite] at e
    obtain ⟨⟨s1, l'⟩, e1, e⟩ := Res.bind_eq_ok.1 e
    have h1 := ihl e1
    cases l' with
    | none => cases e; exact h1
    | some l' =>
      simp only at e
      obtain ⟨⟨s2, r'⟩, e2, e⟩ := Res.bind_eq_ok.1 e
      have h2 := ihr e2
      cases r' with
      | none => cases e; exact h1.trans h2
      | some r' =>
        simp only at e
        split at e
        · exact (h1.trans h2).trans (flushAndHash_grew e)
        · obtain ⟨⟨s3, n3⟩, e3, e⟩ := Res.bind_eq_ok.1 e
          have h3 := storeWriteNode_grew e3
          have h4 := flushAndHash_grew e
          simp only at h3 h4
          rw [h3] at h4
          exact (h1.trans h2).trans h4

theorem storeCommit_grew {E : Env} {s s' : Store} {n : Node} {ok : Bool} (e : storeCommit E s n = .ok (s', ok)) :
    Grew s.files s'.files := by
  unfold storeCommit at e
  obtain ⟨⟨s1, st⟩, e1, e⟩ := Res.bind_eq_ok.1 e
  obtain ⟨⟨s2, b⟩, e2, e⟩ := Res.bind_eq_ok.1 e
  have h1 : s1.files = s.files := by
    unfold storeWriteMeta at e1
    obtain ⟨_, _, e1⟩ := Res.bind_eq_ok.1 e1
    obtain ⟨_, _, e1⟩ := Res.bind_eq_ok.1 e1
    obtain ⟨_, _, e1⟩ := Res.bind_eq_ok.1 e1
    obtain ⟨_, _, e1⟩ := Res.bind_eq_ok.1 e1
    cases e1; rfl
  have h2 := flushSync_grew e2
  rw [h1] at h2
  simp only at e
  split at e <;> cases e <;> exact h2

theorem txCommit_grew {E : Env} {db db' : Db} {tx tx' : Tx} {r : Except Err Unit} (e : txCommit E db tx = .ok (db', tx', r)) :
    Grew db.store.files db'.store.files := by
  unfold txCommit at e
  obtain ⟨n, _, e⟩ := Res.bind_eq_ok.1 e
  obtain ⟨⟨s1, r1⟩, e1, e⟩ := Res.bind_eq_ok.1 e
  have h1 := treeWrite_grew e1
  cases r1 with
  | none => cases e; exact h1
  | some root =>
    simp only at e
    obtain ⟨⟨s2, ok⟩, e2, e⟩ := Res.bind_eq_ok.1 e
    have h2 := storeCommit_grew e2
    simp only at e
    split at e <;> cases e <;> exact h1.trans h2

theorem storeReadRoot_files {E : Env} {s s' : Store} {p : Ptr} {r : Option Node} (e : storeReadRoot E s p = .ok (s', r)) :
    s'.files = s.files := by
  unfold storeReadRoot at e
  split at e
  · cases e; rfl
  · obtain ⟨n, _, e⟩ := Res.bind_eq_ok.1 e
    cases n with
    | none => cases e; rfl
    | some n =>
      simp only at e
      have fin : ∀ {n : Node}, (do
          let (_, n) ← nodeHash E.H n
          let o ← toHash n
          match o with
          | .hash h p => pure ({ s with cache := cacheInsert s.cache h p }, some o)
          | _ => Res.abort) = .ok (s', r) → s'.files = s.files := by
        intro n e
        obtain ⟨⟨_, n⟩, _, e⟩ := Res.bind_eq_ok.1 e
        simp only at e
        obtain ⟨o, _, e⟩ := Res.bind_eq_ok.1 e
        cases o <;> cases e
        rfl
      cases n with
      | leaf h wp k v vp =>
        simp only at e
        obtain ⟨x, _, e⟩ := Res.bind_eq_ok.1 e
        cases x with
        | none => cases e; rfl
        | some x =>
          simp only at e
          obtain ⟨_, _, e⟩ := Res.bind_eq_ok.1 e
          exact fin (n := .leaf h wp k (some x) vp) e
      | null => exact fin (n := .null) e
      | hash h p => exact fin (n := .hash h p) e
      | internal h p pre l r => exact fin (n := .internal h p pre l r) e

theorem historyLoop_files {E : Env} {h : B32} {fuel : Nat} {s s' : Store} {r : Option Node}
    (e : historyLoop E h fuel s = .ok (s', r)) : s'.files = s.files := by
  induction fuel generalizing s with
  | zero => cases e
  | succ fuel ih =>
    rw [historyLoop] at e
    split at e
    · cases e; rfl
    · obtain ⟨m, _, e⟩ := Res.bind_eq_ok.1 e
      cases m with
      | none => cases e; rfl
      | some m =>
        simp only at e
        obtain ⟨⟨s1, rn⟩, e1, e⟩ := Res.bind_eq_ok.1 e
        have h1 := storeReadRoot_files e1
        cases rn with
        | none => cases e; exact h1
        | some n =>
          simp only at e
          split at e
          · cases e; exact h1
          · exact (ih e).trans h1

theorem readHistory_files {E : Env} {h : B32} {s s' : Store} {r : Option Node}
    (e : readHistory E s h = .ok (s', r)) : s'.files = s.files := by
  unfold readHistory at e
  split at e
  · cases e; rfl
  · split at e
    · cases e; rfl
    · split at e
      · cases e; rfl
      · exact historyLoop_files e

theorem txCreate_files {E : Env} {db db' : Db} {h : Option B32} {r : Except Err Tx} (e : txCreate E db h = .ok (db', r)) :
    db'.store.files = db.store.files := by
  unfold txCreate at e
  cases h with
  | some h =>
    obtain ⟨⟨s, n⟩, e1, e⟩ := Res.bind_eq_ok.1 e
    have := readHistory_files e1
    cases n <;> cases e <;> exact this
  | none =>
    simp only at e
    split at e
    · obtain ⟨⟨s, n⟩, e1, e⟩ := Res.bind_eq_ok.1 e
      have := readHistory_files e1
      cases n <;> cases e <;> exact this
    · cases e; rfl

/-- Every call but closing and opening again. -/
theorem step_grew {E : Env} {s s' : Sys} {op : Op} {r : Ret} (hop : ∀ rand, op ≠ .reopen rand)
    (e : step E s op = .ok (s', r)) : Grew s.db.store.files s'.db.store.files := by
  cases op with
  | reopen rand => exact (hop rand rfl).elim
  | root => cases e; exact Grew.refl _
  | inject h =>
    simp only [step] at e
    obtain ⟨⟨db, x⟩, e1, e⟩ := Res.bind_eq_ok.1 e
    cases e
    refine Grew.of_eq ?_
    unfold dbInject at e1
    obtain ⟨⟨s1, ok⟩, e2, e1⟩ := Res.bind_eq_ok.1 e1
    unfold hasHistory at e2
    obtain ⟨⟨s2, n⟩, e3, e2⟩ := Res.bind_eq_ok.1 e2
    have h3 := readHistory_files e3
    cases n with
    | none => cases e2
    | some n =>
      cases e2
      cases e1
      exact h3
  | create id h =>
    simp only [step] at e
    obtain ⟨⟨db, x⟩, e1, e⟩ := Res.bind_eq_ok.1 e
    have h1 := txCreate_files e1
    cases x <;> cases e <;> exact Grew.of_eq h1
  | destroy id =>
    simp only [step] at e
    obtain ⟨_, _, e⟩ := Res.bind_eq_ok.1 e
    obtain ⟨_, _, e⟩ := Res.bind_eq_ok.1 e
    cases e; exact Grew.refl _
  | clear id =>
    simp only [step] at e
    obtain ⟨_, _, e⟩ := Res.bind_eq_ok.1 e
    obtain ⟨_, _, e⟩ := Res.bind_eq_ok.1 e
    cases e; exact Grew.refl _
  | txRoot id =>
    simp only [step] at e
    obtain ⟨_, _, e⟩ := Res.bind_eq_ok.1 e
    obtain ⟨⟨_, _⟩, _, e⟩ := Res.bind_eq_ok.1 e
    cases e; exact Grew.refl _
  | txInject id h =>
    simp only [step] at e
    obtain ⟨_, _, e⟩ := Res.bind_eq_ok.1 e
    obtain ⟨⟨db, t, x⟩, e1, e⟩ := Res.bind_eq_ok.1 e
    cases e
    refine Grew.of_eq ?_
    unfold txInject at e1
    obtain ⟨⟨s2, n⟩, e3, e1⟩ := Res.bind_eq_ok.1 e1
    have h3 := readHistory_files e3
    cases n with
    | none => cases e1; exact h3
    | some n =>
      simp only at e1
      obtain ⟨_, _, e1⟩ := Res.bind_eq_ok.1 e1
      cases e1; exact h3
  | get id k =>
    simp only [step] at e
    obtain ⟨_, _, e⟩ := Res.bind_eq_ok.1 e
    obtain ⟨_, _, e⟩ := Res.bind_eq_ok.1 e
    cases e; exact Grew.refl _
  | has id k =>
    simp only [step] at e
    obtain ⟨_, _, e⟩ := Res.bind_eq_ok.1 e
    obtain ⟨_, _, e⟩ := Res.bind_eq_ok.1 e
    cases e; exact Grew.refl _
  | insert id k v =>
    simp only [step] at e
    obtain ⟨_, _, e⟩ := Res.bind_eq_ok.1 e
    obtain ⟨⟨_, _⟩, _, e⟩ := Res.bind_eq_ok.1 e
    cases e; exact Grew.refl _
  | remove id k =>
    simp only [step] at e
    obtain ⟨_, _, e⟩ := Res.bind_eq_ok.1 e
    obtain ⟨⟨_, _⟩, _, e⟩ := Res.bind_eq_ok.1 e
    cases e; exact Grew.refl _
  | prove id k =>
    simp only [step] at e
    obtain ⟨_, _, e⟩ := Res.bind_eq_ok.1 e
    obtain ⟨⟨_, _⟩, _, e⟩ := Res.bind_eq_ok.1 e
    cases e; exact Grew.refl _
  | commit id =>
    simp only [step] at e
    obtain ⟨_, _, e⟩ := Res.bind_eq_ok.1 e
    obtain ⟨⟨_, _, _⟩, e1, e⟩ := Res.bind_eq_ok.1 e
    cases e; exact txCommit_grew e1
  | get1 k h =>
    simp only [step] at e
    obtain ⟨⟨db, x⟩, e1, e⟩ := Res.bind_eq_ok.1 e
    cases e
    unfold urkelGet at e1
    obtain ⟨⟨db1, y⟩, e2, e1⟩ := Res.bind_eq_ok.1 e1
    have h2 := txCreate_files e2
    cases y with
    | error y => cases e1; exact Grew.of_eq h2
    | ok tx =>
      simp only at e1
      obtain ⟨_, _, e1⟩ := Res.bind_eq_ok.1 e1
      obtain ⟨_, _, e1⟩ := Res.bind_eq_ok.1 e1
      cases e1; exact Grew.of_eq h2
  | has1 k h =>
    simp only [step] at e
    obtain ⟨⟨db, x⟩, e1, e⟩ := Res.bind_eq_ok.1 e
    cases e
    unfold urkelHas at e1
    obtain ⟨⟨db1, y⟩, e2, e1⟩ := Res.bind_eq_ok.1 e1
    have h2 := txCreate_files e2
    cases y with
    | error y => cases e1; exact Grew.of_eq h2
    | ok tx =>
      simp only at e1
      obtain ⟨_, _, e1⟩ := Res.bind_eq_ok.1 e1
      obtain ⟨_, _, e1⟩ := Res.bind_eq_ok.1 e1
      cases e1; exact Grew.of_eq h2
  | prove1 k h =>
    simp only [step] at e
    obtain ⟨⟨db, x⟩, e1, e⟩ := Res.bind_eq_ok.1 e
    cases e
    unfold urkelProve at e1
    obtain ⟨⟨db1, y⟩, e2, e1⟩ := Res.bind_eq_ok.1 e1
    have h2 := txCreate_files e2
    cases y with
    | error y => cases e1; exact Grew.of_eq h2
    | ok tx =>
      simp only at e1
      obtain ⟨⟨_, _⟩, _, e1⟩ := Res.bind_eq_ok.1 e1
      simp only at e1
      obtain ⟨_, _, e1⟩ := Res.bind_eq_ok.1 e1
      cases e1; exact Grew.of_eq h2
  | insert1 k v =>
    simp only [step] at e
    obtain ⟨⟨db, x⟩, e1, e⟩ := Res.bind_eq_ok.1 e
    cases e
    unfold urkelInsert at e1
    obtain ⟨⟨db1, y⟩, e2, e1⟩ := Res.bind_eq_ok.1 e1
    have h2 := txCreate_files e2
    cases y with
    | error y => cases e1; exact Grew.of_eq h2
    | ok tx =>
      simp only at e1
      obtain ⟨⟨tx1, z⟩, _, e1⟩ := Res.bind_eq_ok.1 e1
      cases z with
      | error z =>
        simp only at e1
        obtain ⟨_, _, e1⟩ := Res.bind_eq_ok.1 e1
        cases e1; exact Grew.of_eq h2
      | ok z =>
        simp only at e1
        obtain ⟨⟨_, _, _⟩, e3, e1⟩ := Res.bind_eq_ok.1 e1
        obtain ⟨_, _, e1⟩ := Res.bind_eq_ok.1 e1
        cases e1; exact (Grew.of_eq h2).trans (txCommit_grew e3)
  | remove1 k =>
    simp only [step] at e
    obtain ⟨⟨db, x⟩, e1, e⟩ := Res.bind_eq_ok.1 e
    cases e
    unfold urkelRemove at e1
    obtain ⟨⟨db1, y⟩, e2, e1⟩ := Res.bind_eq_ok.1 e1
    have h2 := txCreate_files e2
    cases y with
    | error y => cases e1; exact Grew.of_eq h2
    | ok tx =>
      simp only at e1
      obtain ⟨⟨tx1, z⟩, _, e1⟩ := Res.bind_eq_ok.1 e1
      cases z with
      | error z =>
        simp only at e1
        obtain ⟨_, _, e1⟩ := Res.bind_eq_ok.1 e1
        cases e1; exact Grew.of_eq h2
      | ok z =>
        simp only at e1
        obtain ⟨⟨_, _, _⟩, e3, e1⟩ := Res.bind_eq_ok.1 e1
        obtain ⟨_, _, e1⟩ := Res.bind_eq_ok.1 e1
        cases e1; exact (Grew.of_eq h2).trans (txCommit_grew e3)

end Urkel
