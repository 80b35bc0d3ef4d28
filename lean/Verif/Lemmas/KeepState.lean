import Verif.Lemmas.Keep
/-
Databases opened from any directory: nodes in memory always agree with the files.
-/
namespace Urkel

/-! ### Operations on nodes -/

theorem resolve_coh {s : Store} {h : B32} {p : Ptr} {n : Node} (hp : PtrOk p) (e : storeResolve s h p = .ok (some n)) : Coh s.rd n ∧ NRoot n := by
  unfold storeResolve storeReadNode at e
  by_cases hs : p.size = 0 ∨ p.size > 113
  · rw [if_pos hs] at e; cases e
  · rw [if_neg hs, storeReadInto_ok (by omega), Res.bind_ok] at e
    cases hd : storeRead s p.size p.index p.pos with
    | none => rw [hd] at e; cases e
    | some d =>
      have hi : 1 ≤ p.index := by
        unfold storeRead at hd
        split at hd
        · cases hd
        · next h => omega
      have hnp : NPtr p := ⟨hp, hi, by omega, by omega⟩
      rw [hd] at e
      dsimp only at e
      cases hr : nodeRead d with
      | ok x =>
        rw [hr, Res.bind_ok] at e
        cases x with
        | none => cases e
        | some m =>
          rcases nodeRead_shape hr with ⟨pre, hl, pl, hr', pr, rfl⟩ | ⟨k, vp, rfl⟩
          · cases e
            obtain ⟨okl, okr⟩ := nodeRead_ptrs hr
            exact ⟨⟨okl, okr, fun q hq => by cases hq; exact ⟨hnp, rfl, d, hd, hr⟩⟩, (fun _ _ h => nomatch h)⟩
          · cases e
            exact ⟨⟨(nomatch ·), fun q hq => by cases hq; exact ⟨hnp, rfl, d, hd, hr⟩⟩, (fun _ _ h => nomatch h)⟩
      | err x => rw [hr] at e; cases e
      | abort => rw [hr] at e; cases e
      | ub => rw [hr] at e; cases e

theorem createLeaf_coh {E : Env} {rd : Rd} {k : B32} {v : Bytes} : Coh rd (createLeaf E.H k v) ∧ NRoot (createLeaf E.H k v) :=
  ⟨⟨fun _ => ⟨⟨v, rfl⟩, rfl⟩, (fun _ h => nomatch h)⟩, (fun _ _ h => nomatch h)⟩

theorem createInternal_coh {rd : Rd} {pre : Bits} {x y : Node} {b : Bool} (hx : Coh rd x) (hy : Coh rd y) :
    Coh rd (createInternal pre x y b) ∧ NRoot (createInternal pre x y b) := by
  unfold createInternal
  cases b
  · exact ⟨⟨hx, hy, (fun _ h => nomatch h)⟩, (fun _ _ h => nomatch h)⟩
  · exact ⟨⟨hy, hx, (fun _ h => nomatch h)⟩, (fun _ _ h => nomatch h)⟩

theorem side_coh {rd : Rd} {l r : Node} (hl : Coh rd l) (hr : Coh rd r) (b : Bool) : Coh rd (side l r b) := by
  cases b
  · exact hl
  · exact hr

theorem nodeHash_coh {H : HashFn} {rd : Rd} {n : Node} : ∀ {h : B32} {n' : Node}, Coh rd n → nodeHash H n = .ok (h, n') → Coh rd n' ∧ (NRoot n → NRoot n') := by
  induction n with
  | null => intro h n' hc e; cases e; exact ⟨hc, id⟩
  | hash _ _ => intro h n' hc e; cases e; exact ⟨hc, id⟩
  | leaf x p k v vp =>
    intro h n' hc e
    cases x with
    | some x => cases e; exact ⟨hc, id⟩
    | none =>
      cases v with
      | none => cases e
      | some v => cases e; exact ⟨hc, fun _ _ _ h => nomatch h⟩
  | internal x p pre l r ihl ihr =>
    intro h n' hc e
    cases x with
    | some x => cases e; exact ⟨hc, id⟩
    | none =>
      rw [nodeHash] at e
      obtain ⟨⟨hl, l'⟩, e1, e⟩ := Res.bind_eq_ok.1 e
      obtain ⟨⟨hr, r'⟩, e2, e⟩ := Res.bind_eq_ok.1 e
      cases e
      refine ⟨⟨(ihl hc.1 e1).1, (ihr hc.2.1 e2).1, fun q hq => ?_⟩, fun _ _ _ h => nomatch h⟩
      have := (hc.2.2 q hq).2.1
      cases this

theorem treeInsert_coh {E : Env} {s : Store} {key : B32} {value : Bytes} : ∀ (fuel : Nat) (n : Node) (d : Nat) (n' : Node), Coh s.rd n →
    treeInsert E s key value fuel n d = .ok n' → Coh s.rd n' ∧ NRoot n' := by
  intro fuel
  induction fuel with
  | zero => intro n d n' _ e; cases e
  | succ f ih =>
    intro n d n' hc e
    cases n with
    | null => rw [treeInsert] at e; cases e; exact createLeaf_coh
    | hash h p =>
      rw [treeInsert] at e
      obtain ⟨r, e1, e⟩ := Res.bind_eq_ok.1 e
      cases r with
      | none => cases e
      | some m => exact ih m d n' (resolve_coh hc e1).1 e
    | leaf h p k v vp =>
      rw [treeInsert] at e
      split at e
      · split at e
        · cases e
        · cases e; exact createLeaf_coh
      · obtain ⟨pre, _, e⟩ := Res.bind_eq_ok.1 e
        obtain ⟨b, _, e⟩ := Res.bind_eq_ok.1 e
        cases e
        exact createInternal_coh createLeaf_coh.1 hc
    | internal h p pre l r =>
      rw [treeInsert] at e
      obtain ⟨bits, _, e⟩ := Res.bind_eq_ok.1 e
      obtain ⟨b, _, e⟩ := Res.bind_eq_ok.1 e
      split at e
      · obtain ⟨⟨front, back⟩, _, e⟩ := Res.bind_eq_ok.1 e
        cases e
        exact createInternal_coh createLeaf_coh.1 (createInternal_coh hc.1 hc.2.1).1
      · obtain ⟨z, e1, e⟩ := Res.bind_eq_ok.1 e
        cases e
        exact createInternal_coh (ih _ _ _ (side_coh hc.1 hc.2.1 b) e1).1 (side_coh hc.1 hc.2.1 _)

theorem treeRemove_coh {s : Store} {key : B32} : ∀ (fuel : Nat) (n : Node) (d : Nat) (n' : Node), Coh s.rd n →
    treeRemove s key fuel n d = .ok n' → Coh s.rd n' ∧ NRoot n' := by
  intro fuel
  induction fuel with
  | zero => intro n d n' _ e; cases e
  | succ f ih =>
    intro n d n' hc e
    cases n with
    | null => cases e
    | hash h p =>
      rw [treeRemove] at e
      obtain ⟨r, e1, e⟩ := Res.bind_eq_ok.1 e
      cases r with
      | none => cases e
      | some m => exact ih m d n' (resolve_coh hc e1).1 e
    | leaf h p k v vp =>
      rw [treeRemove] at e
      split at e
      · cases e
      · cases e; exact ⟨trivial, (fun _ _ h => nomatch h)⟩
    | internal h p pre l r =>
      rw [treeRemove] at e
      obtain ⟨has, _, e⟩ := Res.bind_eq_ok.1 e
      split at e
      · cases e
      · obtain ⟨b, _, e⟩ := Res.bind_eq_ok.1 e
        dsimp only at e
        obtain ⟨z, e1, e⟩ := Res.bind_eq_ok.1 e
        have hz := ih _ _ _ (side_coh hc.1 hc.2.1 b) e1
        have hy := side_coh hc.1 hc.2.1 (!b)
        generalize side l r (!b) = y at e hy
        have fin : ∀ sd : Node, Coh s.rd sd → NRoot sd → removeSide pre sd b = .ok n' → Coh s.rd n' ∧ NRoot n' := by
          intro sd h1 h2 e
          cases sd with
          | internal h' p' spre sl sr =>
            obtain ⟨j, _, e⟩ := Res.bind_eq_ok.1 e
            cases e
            exact createInternal_coh h1.1 h1.2.1
          | null => cases e; exact ⟨h1, h2⟩
          | hash _ _ => cases e; exact ⟨h1, h2⟩
          | leaf _ _ _ _ _ => cases e; exact ⟨h1, h2⟩
        cases z with
        | null =>
          dsimp only at e
          cases y with
          | hash h' p' =>
            obtain ⟨x, e3, e⟩ := Res.bind_eq_ok.1 e
            cases x with
            | none => cases e
            | some m =>
              obtain ⟨c1, c2⟩ := resolve_coh hy e3
              exact fin m c1 c2 e
          | null => exact fin .null hy (fun _ _ h => nomatch h) e
          | leaf a b c d e' => exact fin _ hy (fun _ _ h => nomatch h) e
          | internal a b c d e' => exact fin _ hy (fun _ _ h => nomatch h) e
        | hash _ _ => cases e; exact createInternal_coh hz.1 hy
        | leaf _ _ _ _ _ => cases e; exact createInternal_coh hz.1 hy
        | internal _ _ _ _ _ => cases e; exact createInternal_coh hz.1 hy

theorem treeProve_coh {E : Env} {s : Store} {key : B32} : ∀ (fuel : Nat) (n : Node) (d m : Nat) (r : Option Proof) (n' : Node), Coh s.rd n →
    treeProve E s key fuel n d m = .ok (r, n') → Coh s.rd n' ∧ (NRoot n → NRoot n') ∧ (∀ h p, n = .hash h p → n' = n) := by
  intro fuel
  induction fuel with
  | zero => intro n d m r n' _ e; cases e
  | succ f ih =>
    intro n d m r n' hc e
    cases n with
    | null => cases e; exact ⟨hc, id, (fun _ _ h => nomatch h)⟩
    | hash h p =>
      rw [treeProve] at e
      obtain ⟨x, e1, e⟩ := Res.bind_eq_ok.1 e
      cases x with
      | none => cases e; exact ⟨hc, id, fun _ _ h => rfl⟩
      | some x =>
        obtain ⟨⟨pf, _⟩, _, e⟩ := Res.bind_eq_ok.1 e
        cases e; exact ⟨hc, id, fun _ _ h => rfl⟩
    | leaf h p k v vp =>
      rw [treeProve] at e
      obtain ⟨x, e1, e⟩ := Res.bind_eq_ok.1 e
      cases x with
      | none => cases e; exact ⟨hc, id, (fun _ _ h => nomatch h)⟩
      | some x =>
        dsimp only at e
        split at e <;> (cases e; exact ⟨hc, id, (fun _ _ h => nomatch h)⟩)
    | internal h p pre l r' =>
      rw [treeProve] at e
      -- children of a written node are not in memory and stay as they are
      have fin : ∀ l2 r2, Coh s.rd l2 → Coh s.rd r2 → ((∃ a b, l = .hash a b) → l2 = l) → ((∃ a b, r' = .hash a b) → r2 = r') →
          Coh s.rd (.internal h p pre l2 r2) := by
        intro l2 r2 h1 h2 h3 h4
        refine ⟨h1, h2, fun q hq => ?_⟩
        obtain ⟨a, b, dd, c, e⟩ := hc.2.2 q hq
        rcases nodeRead_shape e with ⟨pre', hl, pl, hr, pr, e'⟩ | ⟨_, _, e'⟩
        · cases e'
          rw [h3 ⟨_, _, rfl⟩, h4 ⟨_, _, rfl⟩]
          exact ⟨a, b, dd, c, e⟩
        · cases e'
      have hh : ∀ {n : Node} {x : B32} {n2 : Node}, nodeHash E.H n = .ok (x, n2) → (∃ a b, n = .hash a b) → n2 = n := by
        rintro n x n2 e ⟨a, b, rfl⟩; cases e; rfl
      obtain ⟨has, _, e⟩ := Res.bind_eq_ok.1 e
      split at e
      · obtain ⟨⟨hl, l2⟩, e1, e⟩ := Res.bind_eq_ok.1 e
        obtain ⟨⟨hr, r2⟩, e2, e⟩ := Res.bind_eq_ok.1 e
        cases e
        exact ⟨fin _ _ (nodeHash_coh hc.1 e1).1 (nodeHash_coh hc.2.1 e2).1 (hh e1) (hh e2), (fun _ _ _ h => nomatch h), (fun _ _ h => nomatch h)⟩
      · dsimp only at e
        obtain ⟨b, _, e⟩ := Res.bind_eq_ok.1 e
        obtain ⟨⟨hy, y⟩, e1, e⟩ := Res.bind_eq_ok.1 e
        obtain ⟨_, _, e⟩ := Res.bind_eq_ok.1 e
        obtain ⟨⟨pf, x⟩, e2, e⟩ := Res.bind_eq_ok.1 e
        cases e
        have c1 := (nodeHash_coh (side_coh hc.1 hc.2.1 (!b)) e1).1
        obtain ⟨c2, _, c3⟩ := ih _ _ _ _ _ (side_coh hc.1 hc.2.1 b) e2
        cases b
        · exact ⟨fin x y c2 c1 (fun ⟨a, b, h⟩ => c3 a b h) (hh e1), (fun _ _ _ h => nomatch h), (fun _ _ h => nomatch h)⟩
        · exact ⟨fin y x c1 c2 (hh e1) (fun ⟨a, b, h⟩ => c3 a b h), (fun _ _ _ h => nomatch h), (fun _ _ h => nomatch h)⟩

/-! ### The store -/

/-- What holds for the store of a database opened from any directory. -/
structure StoreSane (E : Env) (s : Store) : Prop where
  slab : Slabbed E s s.files
  sok : SOk s
  idx : s.index < E.cfg.maxFiles
  le : FilesLe E.cfg.maxFile s.files
  root : NRoot s.state.rootNode
  cache : ∀ h p, (h, p) ∈ s.cache → NPtr p
  mptr : PtrOk s.state.metaPtr

/-- Caches and pointers to commit records do not matter for the files. -/
theorem Slabbed.other {E : Env} {s : Store} {vf : List Bytes} (h : Slabbed E s vf) (c : List (B32 × Ptr)) (st lm : Meta) :
    Slabbed E { s with cache := c, state := st, lastMeta := lm } vf := by
  obtain ⟨c0, cs, i, e⟩ := h
  exact ⟨c0, cs, ⟨⟨i.sok.pos, i.sok.idx, i.sok.cur⟩, i.data, i.offs, i.start, i.fidx, i.fpos, i.fit, i.roll, i.ol, i.faults⟩, e⟩

theorem StoreSane.other {E : Env} {s : Store} (h : StoreSane E s) {c : List (B32 × Ptr)} {lm : Meta} (hc : ∀ h p, (h, p) ∈ c → NPtr p) :
    StoreSane E { s with cache := c, lastMeta := lm } :=
  ⟨h.slab.other c s.state lm, ⟨h.sok.pos, h.sok.idx, h.sok.cur⟩, h.idx, h.le, h.root, hc, h.mptr⟩

theorem cacheInsert_all {c : List (B32 × Ptr)} {h : B32} {p : Ptr} {P : Ptr → Prop} (hc : ∀ h p, (h, p) ∈ c → P p) (hp : P p) :
    ∀ h' p', (h', p') ∈ cacheInsert c h p → P p' := by
  intro h' p' hm
  unfold cacheInsert at hm
  split at hm
  · exact hc h' p' hm
  · rcases List.mem_cons.1 hm with e | hm
    · cases e; exact hp
    · exact hc h' p' hm

theorem readNode_of {s : Store} {p : Ptr} {n : Node} (hp : PtrOk p) (e : storeReadNode s p = .ok (some n)) :
    NPtr p ∧ ((∃ pre hl pl hr pr, n = .internal none (some p) pre (.hash hl pl) (.hash hr pr)) ∨ ∃ k vp, n = .leaf none (some p) k none (some vp)) := by
  unfold storeReadNode at e
  by_cases hs : p.size = 0 ∨ p.size > 113
  · rw [if_pos hs] at e; cases e
  · rw [if_neg hs, storeReadInto_ok (by omega), Res.bind_ok] at e
    cases hd : storeRead s p.size p.index p.pos with
    | none => rw [hd] at e; cases e
    | some d =>
      have hi : 1 ≤ p.index := by
        unfold storeRead at hd
        split at hd
        · cases hd
        · next h => omega
      refine ⟨⟨hp, hi, by omega, by omega⟩, ?_⟩
      rw [hd] at e
      dsimp only at e
      obtain ⟨x, hr, e⟩ := Res.bind_eq_ok.1 e
      cases x with
      | none => cases e
      | some m =>
        rcases nodeRead_shape hr with ⟨pre, hl, pl, hr', pr, rfl⟩ | ⟨k, vp, rfl⟩
        · cases e; exact .inl ⟨_, _, _, _, _, rfl⟩
        · cases e; exact .inr ⟨_, _, rfl⟩

theorem readRoot_of {E : Env} {s s' : Store} {p : Ptr} {r : Option Node} (hp : PtrOk p) (hc : ∀ h p, (h, p) ∈ s.cache → NPtr p)
    (e : storeReadRoot E s p = .ok (s', r)) :
    ∃ c, s' = { s with cache := c } ∧ (∀ h p, (h, p) ∈ c → NPtr p) ∧ ∀ n, r = some n → (n = .null ∧ p.index = 0 ∨ ∃ h, n = .hash h p) ∧ Coh s.rd n ∧ NRoot n := by
  unfold storeReadRoot at e
  split at e
  · next h0 =>
    cases e
    exact ⟨s.cache, rfl, hc, fun n h => by cases h; exact ⟨.inl ⟨rfl, h0⟩, trivial, (fun _ _ h => nomatch h)⟩⟩
  · obtain ⟨x, e1, e⟩ := Res.bind_eq_ok.1 e
    cases x with
    | none => cases e; exact ⟨s.cache, rfl, hc, fun n h => (nomatch h)⟩
    | some n =>
      obtain ⟨hnp, hn⟩ := readNode_of hp e1
      have fin : ∀ {x : B32} {n2 o : Node}, o = .hash x p → (match o with
          | .hash h p => pure ({ s with cache := cacheInsert s.cache h p }, some o)
          | _ => .abort : Res (Store × Option Node)) = .ok (s', r) → ∃ c, s' = { s with cache := c } ∧ (∀ h p, (h, p) ∈ c → NPtr p) ∧
            ∀ n, r = some n → (n = .null ∧ p.index = 0 ∨ ∃ h, n = .hash h p) ∧ Coh s.rd n ∧ NRoot n := by
        intro x n2 o ho e
        subst ho
        cases e
        exact ⟨_, rfl, cacheInsert_all hc hnp, fun n h => by
          cases h
          exact ⟨.inr ⟨x, rfl⟩, hnp.ok, fun h' p' e => by cases e; exact hnp⟩⟩
      rcases hn with ⟨pre, hl, pl, hr, pr, rfl⟩ | ⟨k, vp, rfl⟩
      · simp only [Res.pure_eq, Res.bind_ok] at e
        obtain ⟨⟨x, n2⟩, e2, e⟩ := Res.bind_eq_ok.1 e
        obtain ⟨o, e3, e⟩ := Res.bind_eq_ok.1 e
        exact fin (n2 := n2) (toHash_internal hnp e2 e3) e
      · dsimp only at e
        obtain ⟨v, e4, e⟩ := Res.bind_eq_ok.1 e
        cases v with
        | none => cases e; exact ⟨s.cache, rfl, hc, fun n h => (nomatch h)⟩
        | some v =>
          simp only [Option.isNone_none, check_true, Res.pure_eq, Res.bind_ok] at e
          obtain ⟨⟨x, n2⟩, e2, e⟩ := Res.bind_eq_ok.1 e
          obtain ⟨o, e3, e⟩ := Res.bind_eq_ok.1 e
          exact fin (n2 := n2) (toHash_leaf hnp e2 e3) e

theorem ptrRead_is {d d' : Bytes} {p : Ptr} (e3 : ptrRead d = .ok (p, d')) : PtrOk p := by
  by_cases hl : 7 ≤ d.length
  · obtain ⟨q, ep, ok⟩ := ptrRead_ok hl
    rw [ep] at e3; cases e3; exact ok
  · exfalso
    unfold ptrRead at e3
    obtain ⟨⟨a, d5⟩, f1, e3⟩ := Res.bind_eq_ok.1 e3
    obtain ⟨⟨b, d6⟩, f2, e3⟩ := Res.bind_eq_ok.1 e3
    obtain ⟨⟨c, d7⟩, f3, e3⟩ := Res.bind_eq_ok.1 e3
    have t : ∀ {n : Nat} {x y z : Bytes}, takeN n x = .ok (y, z) → n ≤ x.length ∧ z.length = x.length - n := by
      intro n x y z h
      unfold takeN at h
      split at h
      · cases h
      · cases h; exact ⟨by omega, List.length_drop⟩
    have g1 := t f1; have g2 := t f2; have g3 := t f3
    omega

theorem metaRead_ptr {E : Env} {key : B32} {m m' : Meta} {d : Bytes} (e : metaRead E key m d = .ok (true, m')) : PtrOk m'.rootPtr ∧ PtrOk m'.metaPtr := by
  unfold metaRead at e
  dsimp only at e
  obtain ⟨⟨mg, d1⟩, _, e⟩ := Res.bind_eq_ok.1 e
  dsimp only at e
  split at e
  · cases e
  · obtain ⟨⟨mp, d2⟩, e2, e⟩ := Res.bind_eq_ok.1 e
    obtain ⟨⟨rp, d3⟩, e3, e⟩ := Res.bind_eq_ok.1 e
    obtain ⟨⟨sum, d4⟩, _, e⟩ := Res.bind_eq_ok.1 e
    have hm : m' = { m with metaPtr := mp, rootPtr := rp } := by injection e with e; injection e with _ e; exact e.symm
    subst hm
    exact ⟨ptrRead_is e3, ptrRead_is e2⟩

theorem history_of {E : Env} {h : B32} : ∀ (fuel : Nat) (s s' : Store) (r : Option Node), StoreSane E s → historyLoop E h fuel s = .ok (s', r) →
    StoreSane E s' ∧ s'.files = s.files ∧ s'.rd = s.rd ∧ ∀ n, r = some n → Coh s.rd n ∧ NRoot n := by
  intro fuel
  induction fuel with
  | zero => intro s s' r _ e; cases e
  | succ f ih =>
    intro s s' r hs e
    rw [historyLoop] at e
    split at e
    · cases e; exact ⟨hs, rfl, rfl, fun n h => (nomatch h)⟩
    · obtain ⟨x, e1, e⟩ := Res.bind_eq_ok.1 e
      cases x with
      | none => cases e; exact ⟨hs, rfl, rfl, fun n h => (nomatch h)⟩
      | some m =>
        have hm : PtrOk m.rootPtr := by
          unfold storeReadMeta at e1
          split at e1
          · cases e1
          · obtain ⟨⟨ok, m'⟩, e2, e1⟩ := Res.bind_eq_ok.1 e1
            cases ok with
            | false => cases e1
            | true => cases e1; exact (metaRead_ptr e2).1
        dsimp only at e
        obtain ⟨⟨s1, rn⟩, e2, e⟩ := Res.bind_eq_ok.1 e
        obtain ⟨c, rfl, hc, hn⟩ := readRoot_of hm hs.cache e2
        have hs1 := hs.other (lm := s.lastMeta) hc
        cases rn with
        | none => cases e; exact ⟨hs1, rfl, rfl, fun n h => (nomatch h)⟩
        | some n =>
          dsimp only at e
          split at e
          · cases e
            exact ⟨hs.other hc, rfl, rfl, fun n h => by cases h; exact (hn _ rfl).2⟩
          · obtain ⟨a, b, cc, d⟩ := ih _ _ _ (hs.other (lm := m) hc) e
            exact ⟨a, b, cc, d⟩

theorem lookup_mem {c : List (B32 × Ptr)} {h : B32} {p : Ptr} (e : c.lookup h = some p) : (h, p) ∈ c := by
  induction c with
  | nil => cases e
  | cons x c ih =>
    obtain ⟨a, b⟩ := x
    rw [List.lookup_cons] at e
    split at e
    · next h' => cases e; rw [beq_iff_eq] at h'; subst h'; exact List.mem_cons_self
    · exact List.mem_cons_of_mem _ (ih e)

theorem readHistory_of {E : Env} {h : B32} {s s' : Store} {r : Option Node} (hs : StoreSane E s) (hf : Flat s.state.rootNode) (e : readHistory E s h = .ok (s', r)) :
    StoreSane E s' ∧ s'.files = s.files ∧ s'.rd = s.rd ∧ ∀ n, r = some n → Coh s.rd n ∧ NRoot n := by
  unfold readHistory at e
  split at e
  · cases e; exact ⟨hs, rfl, rfl, fun n h => by cases h; exact ⟨trivial, (fun _ _ h => nomatch h)⟩⟩
  · split at e
    · cases e
      refine ⟨hs, rfl, rfl, fun n h => ?_⟩
      cases h
      have hr := hs.root
      refine ⟨?_, hr⟩
      cases hn : s.state.rootNode with
      | null => trivial
      | hash h p => exact (hr h p hn).ok
      | leaf _ _ _ _ _ => rw [hn] at hf; exact hf.elim
      | internal _ _ _ _ _ => rw [hn] at hf; exact hf.elim
    · split at e
      · next p hl =>
        cases e
        have : NPtr p := hs.cache h p (lookup_mem hl)
        exact ⟨hs, rfl, rfl, fun n e => by cases e; exact ⟨this.ok, fun _ _ e => by cases e; exact this⟩⟩
      · exact history_of _ _ _ _ hs e

theorem rootNode_coh {E : Env} {s : Store} (hs : StoreSane E s) (hf : Flat s.state.rootNode) {rd : Rd} : Coh rd s.state.rootNode ∧ NRoot s.state.rootNode := by
  have hr := hs.root
  refine ⟨?_, hr⟩
  cases hn : s.state.rootNode with
  | null => trivial
  | hash h p => exact (hr h p hn).ok
  | leaf _ _ _ _ _ => rw [hn] at hf; exact hf.elim
  | internal _ _ _ _ _ => rw [hn] at hf; exact hf.elim

/-! ### Commits -/

theorem storeCommit_of {E : Env} (hE : EnvOk E) {s s2 : Store} {vf : List Bytes} {root : Node} {ok : Bool} (hs : Slabbed E s vf)
    (hi : s.index < E.cfg.maxFiles) (hf : Flat root) (hr : vf.length < E.cfg.maxFiles → NRoot root) (e : storeCommit E s root = .ok (s2, ok)) :
    ok = true ∧ Slabbed E s2 s2.files ∧ SOk s2 ∧ s2.index < E.cfg.maxFiles ∧ FExt vf s2.files ∧ (FilesLe E.cfg.maxFile vf → FilesLe E.cfg.maxFile s2.files) ∧
      s2.files.length < E.cfg.maxFiles ∧ s2.state.rootNode = root ∧ s2.cache = cacheRoot s.cache root ∧ s2.key = s.key ∧
      (PtrOk s.state.metaPtr → PtrOk s2.state.metaPtr) ∧ ∃ p, rootPtrOf root = .ok p ∧
        s2.files = vappend E.cfg.maxFile (padFiles E.cfg.maxFile vf) (metaWrite E s.key { s.state with rootPtr := p, rootNode := root }) := by
  have hm := hE.cfg.min
  unfold storeCommit storeWriteMeta at e
  obtain ⟨⟨s1, st⟩, e1, e⟩ := Res.bind_eq_ok.1 e
  obtain ⟨rp, e2, e3⟩ := Res.bind_eq_ok.1 e1
  obtain ⟨rn, e5, e6⟩ := Res.bind_eq_ok.1 e3
  have hrn : vf.length < E.cfg.maxFiles → rn = root := by
    intro hl
    cases root with
    | null => cases e5; rfl
    | hash h p => cases e5; rw [markPtr_id (hr hl h p rfl)]
    | leaf _ _ _ _ _ => exact hf.elim
    | internal _ _ _ _ _ => exact hf.elim
  obtain ⟨slp, ep, sp, xp, up, tp, lp⟩ := pad_slab hE.cfg hs
  dsimp only at e6
  rw [ep, Res.bind_ok] at e6
  obtain ⟨slm, em, e7⟩ := Res.bind_eq_ok.1 e6
  obtain ⟨dl, sm⟩ := slabWrite_of sp em
  have xm := fext_vappend E.cfg.maxFile sp.ne (metaWrite E s.key { s.state with rootPtr := rp, rootNode := rn })
  cases e7
  dsimp only at e
  obtain ⟨⟨s3, ok3⟩, ef, e⟩ := Res.bind_eq_ok.1 e
  obtain ⟨⟨s4, ok4⟩, e4, ef⟩ := Res.bind_eq_ok.1 ef
  obtain ⟨rfl, hl, a1, a2, a3, a4, a5⟩ := storeFlush_of sm hi e4
  have hlv := Nat.lt_of_le_of_lt (xp.trans xm).length_le hl
  obtain rfl := hrn hlv
  have hf0 : s4.faults = [] := by obtain ⟨_, _, i, _⟩ := a1; exact i.faults
  obtain ⟨io, ec⟩ := commitSync_ok (E := E) hf0
  simp only [if_true, ec] at ef
  cases ef
  dsimp only at e
  rw [if_pos rfl] at e
  have e' := e
  clear e
  injection e' with e'
  injection e' with e8 e9
  subst e8
  subst e9
  refine ⟨rfl, ?_, ⟨a3.pos, a3.idx, a3.cur⟩, a4, ?_, ?_, ?_, rfl, ?_, ?_, ?_, rp, ?_, ?_⟩
  · have := (a1.io io).other (cacheRoot s4.cache rn) { s.state with rootPtr := rp, rootNode := rn, metaPtr := { s.state.metaPtr with index := slm.fileIndex, pos := slm.filePos - metaSize } } s4.lastMeta
    have same : ∀ {S : Store} {V W : List Bytes}, Slabbed E S V → W = V → Slabbed E S W := by rintro _ _ _ h rfl; exact h
    exact same this a2
  · dsimp only; rw [a2]; exact xp.trans xm
  · dsimp only; rw [a2]; exact fun h => filesLe_vappend sp.ne (lp h) dl
  · dsimp only; rw [a2]; exact hl
  · dsimp only; rw [a5.2.1]
  · exact a5.1
  · intro ok
    have cf := hE.cfg.file; have cfs := hE.cfg.files
    have hfi := sm.fileIndex; have hfp := sm.filePos; have hll := sm.lastLen_le
    dsimp only at hfi hfp
    exact ⟨by dsimp only; omega, by dsimp only; omega, ok.size⟩
  · exact e2
  · dsimp only; rw [a2]

theorem cacheRoot_all {c : List (B32 × Ptr)} {n : Node} (hc : ∀ h p, (h, p) ∈ c → NPtr p) (hn : NRoot n) : ∀ h p, (h, p) ∈ cacheRoot c n → NPtr p := by
  cases n with
  | hash h p => exact cacheInsert_all hc (hn h p rfl)
  | null => exact hc
  | leaf _ _ _ _ _ => exact hc
  | internal _ _ _ _ _ => exact hc

theorem rootPtrOf_ok {o : Node} {p : Ptr} (hf : Flat o) (hn : NRoot o) (e : rootPtrOf o = .ok p) : PtrOk p := by
  cases o with
  | null => cases e; exact ⟨by decide, by decide, by decide⟩
  | hash h q => cases e; exact (hn h _ rfl).ok
  | leaf _ _ _ _ _ => exact hf.elim
  | internal _ _ _ _ _ => exact hf.elim

/-- What a commit leaves behind. -/
structure Stored (E : Env) (db db' : Db) (n o : Node) : Prop where
  sane : StoreSane E db'.store
  ext : FExt db.store.files db'.store.files
  kept : Kept db'.store.files n o
  root : db'.store.state.rootNode = o
  flat : Flat o
  nroot : NRoot o
  hash : db'.hash = rootNodeHash o
  key : db'.store.key = db.store.key
  revert : db'.revert = db.revert
  layout : ∃ vf p st, vf ≠ [] ∧ FExt db.store.files vf ∧ rootPtrOf o = .ok p ∧ st.rootPtr = p ∧ PtrOk p ∧ PtrOk st.metaPtr ∧
    db'.store.files = vappend E.cfg.maxFile (padFiles E.cfg.maxFile vf) (metaWrite E db.store.key st)

theorem txCommit_of {E : Env} (hE : EnvOk E) {db db' : Db} {n : Node} {t' : Tx} {r : Except Err Unit} (hs : StoreSane E db.store)
    (hf : Fit n) (hc : Coh db.store.rd n) (hn : NRoot n) (e : txCommit E db ⟨some n⟩ = .ok (db', t', r)) :
    r = .ok () ∧ ∃ o, t' = ⟨some o⟩ ∧ Stored E db db' n o := by
  unfold txCommit at e
  simp only [Tx.node, Res.bind_ok] at e
  obtain ⟨⟨s1, o⟩, e1, e⟩ := Res.bind_eq_ok.1 e
  rw [hs.sok.rd_eq] at hc
  obtain ⟨vf, o, rfl, h1, h2, h3, h4, h5, h6⟩ := treeWrite_any hE.cfg hs.slab hs.idx hf hc e1
  have hfl := treeWrite_some e1
  dsimp only at e
  obtain ⟨⟨s2, ok⟩, e2, e⟩ := Res.bind_eq_ok.1 e
  obtain ⟨rfl, b1, b2, b3, b4, b5, b6, b7, b8, b9, b12, p, b10, b11⟩ := storeCommit_of hE h1 h2 hfl (fun hl => (h6 hl).root hn) e2
  have hlv := Nat.lt_of_le_of_lt b4.length_le b6
  have hk := h6 hlv
  have hro := hk.root hn
  cases e
  refine ⟨rfl, o, rfl, ⟨b1, b2, b3, b5 (h4 hs.le), by rw [b7]; exact hro, by rw [b8]; exact cacheRoot_all (by rw [h5.2.1]; exact hs.cache) hro, b12 (by rw [h5.2.2.1]; exact hs.mptr)⟩,
    h3.trans b4, hk.ext b4, b7, hfl, hro, rfl, b9.trans h5.1, rfl, vf, p, { s1.state with rootPtr := p, rootNode := o }, h1.ne, h3, b10, rfl, rootPtrOf_ok hfl hro b10, by rw [h5.2.2.1]; exact hs.mptr, ?_⟩
  dsimp only
  rw [b11, h5.1]

/-! ### Opening -/

theorem findMeta_ptr {E : Env} {key : B32} {f : Bytes} : ∀ (n : Nat) (m m' : Meta) (off : Nat), findMeta E key f n m = .ok (some off, m') → (PtrOk m'.rootPtr ∧ PtrOk m'.metaPtr) ∧ off + 38 ≤ 38 * n := by
  intro n
  induction n with
  | zero => intro m m' off e; cases e
  | succ n ih =>
    intro m m' off e
    rw [findMeta] at e
    obtain ⟨⟨ok, m1⟩, e1, e⟩ := Res.bind_eq_ok.1 e
    cases ok with
    | false => exact ⟨(ih _ _ _ e).1, by have := (ih _ _ _ e).2; omega⟩
    | true => cases e; exact ⟨metaRead_ptr e1, by unfold metaSize; omega⟩

theorem recover_of {E : Env} {key : B32} {files : List Bytes} : ∀ (n : Nat) (m st lm : Meta) (files' : List Bytes) (i : Nat), n ≤ files.length →
    recoverState E key files n m = .ok (st, lm, files', i) →
    (files'.length = i ∧ 1 ≤ i ∧ i ≤ n ∨ files' = [] ∧ i = 1) ∧ (∀ max, FilesLe max files → FilesLe max files') ∧ PtrOk st.rootPtr ∧
      (st.metaPtr.index ≤ n ∧ (∀ max, FilesLe max files → st.metaPtr.pos ≤ max) ∧ st.metaPtr.size < 2 ^ 10) := by
  intro n
  induction n with
  | zero =>
    intro m st lm files' i _ e
    cases e
    exact ⟨.inr ⟨rfl, rfl⟩, (fun _ _ f h => (nomatch h)), ⟨by decide, by decide, by decide⟩, by decide, fun _ _ => Nat.zero_le _, by decide⟩
  | succ n ih =>
    intro m st lm files' i hn e
    rw [recoverState] at e
    dsimp only at e
    obtain ⟨⟨r, m1⟩, e1, e⟩ := Res.bind_eq_ok.1 e
    cases r with
    | none =>
      obtain ⟨a, b, c, c1, c2⟩ := ih _ _ _ _ _ (by omega) e
      exact ⟨a.imp (fun ⟨x, y, z⟩ => ⟨x, y, by omega⟩) id, b, c, by omega, c2⟩
    | some off =>
      obtain ⟨⟨hp, hp'⟩, ho⟩ := findMeta_ptr _ _ _ _ e1
      cases e
      have hg : files.getD n [] ∈ files := by
        rw [List.getD_eq_getElem?_getD, List.getElem?_eq_getElem (by omega)]
        exact List.getElem_mem _
      refine ⟨.inl ⟨by simp; omega, by omega, by omega⟩, fun max hl f hf => ?_, hp, Nat.le_refl _, fun max hl => ?_, hp'.size⟩
      case refine_2 =>
        have := hl _ hg
        unfold metaSize at ho
        dsimp only
        omega
      rcases List.mem_append.1 hf with hf | hf
      · exact hl f (List.mem_of_mem_take hf)
      · rw [List.mem_singleton] at hf
        subst hf
        have hg : files.getD n [] ∈ files := by
          rw [List.getD_eq_getElem?_getD, List.getElem?_eq_getElem (by omega)]
          exact List.getElem_mem _
        rw [List.length_take]
        exact Nat.le_trans (Nat.min_le_right _ _) (hl _ hg)

theorem dbOpen_of {E : Env} (hE : EnvOk E) {d d' : Dir} {rand : B32} {db : Db} (hl : FilesLe E.cfg.maxFile d.files) (hn : d.files.length < E.cfg.maxFiles) (h1 : 1 < E.cfg.maxFiles)
    (e : dbOpen E d rand = .ok (d', .ok db)) : StoreSane E db.store := by
  unfold dbOpen openStore at e
  obtain ⟨⟨d1, o⟩, e1, e⟩ := Res.bind_eq_ok.1 e
  cases o with
  | none => cases e
  | some s =>
    cases e
    split at e1
    · cases e1
    · rename_i key hk
      obtain ⟨⟨st, lm, files, index⟩, e2, e1⟩ := Res.bind_eq_ok.1 e1
      obtain ⟨hidx, hfl, hp, hmi, hmp, hms⟩ := recover_of _ _ _ _ _ _ (Nat.le_refl _) e2
      dsimp only at e1
      generalize hF : (if files.length < index then files ++ [[]] else files) = F at e1
      have hF1 : F.length = index ∧ 1 ≤ index ∧ index < E.cfg.maxFiles ∧ FilesLe E.cfg.maxFile F := by
        subst hF
        rcases hidx with ⟨a, b, c⟩ | ⟨rfl, rfl⟩
        · rw [if_neg (by omega)]
          exact ⟨a, b, by omega, hfl _ hl⟩
        · exact ⟨rfl, Nat.le_refl _, h1, fun f hf => by
            rw [if_pos (by decide)] at hf
            rw [List.mem_singleton.1 hf]; exact Nat.zero_le _⟩
      obtain ⟨f1, f2, f3, f4⟩ := hF1
      generalize hs0 : ({ key := key, files := F, index := index, curSize := (F.getD (index - 1) []).length, slab := { Slab.init with filePos := (F.getD (index - 1) []).length, fileIndex := index }, cache := [], state := st, lastMeta := lm, faults := [], io := [] } : Store) = s0 at e1
      have sok : SOk s0 := by subst hs0; exact ⟨f2, f1, rfl⟩
      have hg : (F.getD (index - 1) []) ∈ F := by
        rw [List.getD_eq_getElem?_getD, List.getElem?_eq_getElem (by omega)]
        exact List.getElem_mem _
      have hsl : Slabbed E s0 s0.files := by
        refine ⟨[], [], ⟨sok, ?_, ?_, ?_, ?_, ?_, ?_, trivial, ?_, ?_⟩, ?_⟩
        · subst hs0; rfl
        · subst hs0; rfl
        · subst hs0; rfl
        · subst hs0; rfl
        · subst hs0; simp [lastPos]
        · subst hs0; simpa using f4 _ hg
        · subst hs0; exact ⟨Nat.le_refl _, Nat.zero_le _⟩
        · subst hs0; rfl
        · obtain ⟨i, l, e, hil, hc⟩ := sok.files_snoc
          rw [vfOf_snoc e hil, e]; simp
      have hc0 : ∀ h p, (h, p) ∈ s0.cache → NPtr p := by subst hs0; exact fun _ _ h => (nomatch h)
      have hst : s0.state = st := by subst hs0; rfl
      obtain ⟨⟨s1, r⟩, e3, e1⟩ := Res.bind_eq_ok.1 e1
      obtain ⟨c, rfl, hc, hr⟩ := readRoot_of hp hc0 e3
      cases r with
      | none => cases e1
      | some n =>
        cases e1
        refine ⟨?_, ⟨sok.pos, sok.idx, sok.cur⟩, ?_, ?_, (hr n rfl).2.2, hc, ?_⟩
        · exact hsl.other c { s0.state with rootNode := n } s0.lastMeta
        · subst hs0; exact f3
        · subst hs0; exact f4
        · have cf := hE.cfg.file; have cfs := hE.cfg.files
          have := hmp _ hl
          show PtrOk s0.state.metaPtr
          rw [hst]
          exact ⟨by omega, by omega, hms⟩

/-! ### Programs -/

/-- A usable transaction. -/
def SaneTx (rd : Rd) (t : Tx) : Prop := ∃ n, t.root = some n ∧ Fit n ∧ Coh rd n ∧ NRoot n

/-- A usable database. -/
structure SaneDb (E : Env) (db : Db) : Prop where
  store : StoreSane E db.store
  flat : Flat db.store.state.rootNode

theorem SaneTx.mono {rd rd' : Rd} {t : Tx} (hle : Rd.Le rd rd') (h : SaneTx rd t) : SaneTx rd' t := by
  obtain ⟨n, e, hf, hc, hn⟩ := h
  exact ⟨n, e, hf, hc.mono hle, hn⟩

theorem SaneDb.rootTx {E : Env} {db : Db} (h : SaneDb E db) {rd : Rd} : SaneTx rd ⟨some db.store.state.rootNode⟩ :=
  ⟨_, rfl, h.flat.fit, rootNode_coh h.store h.flat⟩

theorem readHistory_sane {E : Env} {db : Db} {h : B32} {s' : Store} {r : Option Node} (hd : SaneDb E db) (e : readHistory E db.store h = .ok (s', r)) :
    StoreSane E s' ∧ Flat s'.state.rootNode ∧ s'.files = db.store.files ∧ s'.rd = db.store.rd ∧ ∀ n, r = some n → SaneTx s'.rd ⟨some n⟩ := by
  obtain ⟨a, b, c, d⟩ := readHistory_of hd.store hd.flat e
  refine ⟨a, by rw [readHistory_state e]; exact hd.flat, b, c, fun n hn => ?_⟩
  subst hn
  exact ⟨n, rfl, (readHistory_flat e hd.flat).fit, by rw [c]; exact (d n rfl).1, (d n rfl).2⟩

theorem txCreate_sane {E : Env} {db db' : Db} {h : Option B32} {x : Except Err Tx} (hd : SaneDb E db) (e : txCreate E db h = .ok (db', x)) :
    SaneDb E db' ∧ db'.store.files = db.store.files ∧ db'.store.rd = db.store.rd ∧ ∀ t, x = .ok t → SaneTx db'.store.rd t := by
  have fin : ∀ h : B32, (do
      let (s, r) ← readHistory E db.store h
      match r with
      | some n => pure ({ db with store := s }, .ok ⟨some n⟩)
      | none => pure ({ db with store := s }, .error .ENOTFOUND) : Res (Db × Except Err Tx)) = .ok (db', x) →
      SaneDb E db' ∧ db'.store.files = db.store.files ∧ db'.store.rd = db.store.rd ∧ ∀ t, x = .ok t → SaneTx db'.store.rd t := by
    intro h e
    obtain ⟨⟨s, r⟩, e1, e⟩ := Res.bind_eq_ok.1 e
    obtain ⟨a, b, c, d, f⟩ := readHistory_sane hd e1
    cases r with
    | none => cases e; exact ⟨⟨a, b⟩, c, d, (fun _ h => nomatch h)⟩
    | some n => cases e; exact ⟨⟨a, b⟩, c, d, fun t h => by cases h; exact f n rfl⟩
  unfold txCreate at e
  cases h with
  | some h => exact fin h e
  | none =>
    dsimp only at e
    split at e
    · exact fin _ e
    · cases e; exact ⟨hd, rfl, rfl, fun t h => by cases h; exact hd.rootTx⟩

theorem txInsert_sane {E : Env} {db : Db} {t t' : Tx} {k : B32} {v : Bytes} {r : Except Err Unit} (ht : SaneTx db.store.rd t)
    (e : txInsert E db t k v = .ok (t', r)) : SaneTx db.store.rd t' := by
  have ht0 := ht
  obtain ⟨n, hn, hf, hc, hr⟩ := ht
  obtain ⟨o⟩ := t
  dsimp only at hn
  subst hn
  unfold txInsert at e
  split at e
  · cases e; exact ht0
  · next hv =>
    have hv : v.length ≤ 1023 := by unfold valueSize at hv; omega
    have i := treeInsert_outcome (E := E) (s := db.store) (key := k) hv treeFuel n 0 hf (by omega) (room_top n)
    have j := treeInsert_coh (E := E) (s := db.store) (key := k) (value := v) treeFuel n 0
    simp only [Tx.node, Res.bind_ok] at e
    generalize treeInsert E db.store k v treeFuel n 0 = q at i j e
    cases q with
    | ok x => cases e; exact ⟨x, rfl, i.2.2.1, j x hc rfl⟩
    | err er => cases er <;> (cases e; exact ht0)
    | abort => cases e
    | ub => cases e

theorem txRemove_sane {db : Db} {t t' : Tx} {k : B32} {r : Except Err Unit} (ht : SaneTx db.store.rd t)
    (e : txRemove db t k = .ok (t', r)) : SaneTx db.store.rd t' := by
  have ht0 := ht
  obtain ⟨n, hn, hf, hc, hr⟩ := ht
  obtain ⟨o⟩ := t
  dsimp only at hn
  subst hn
  have i := treeRemove_outcome (s := db.store) (key := k) treeFuel n 0 hf (by omega) (room_top n)
  have j := treeRemove_coh (s := db.store) (key := k) treeFuel n 0
  unfold txRemove at e
  simp only [Tx.node, Res.bind_ok] at e
  generalize treeRemove db.store k treeFuel n 0 = q at i j e
  cases q with
  | ok x => cases e; exact ⟨x, rfl, i.2.2.1, j x hc rfl⟩
  | err er => cases e; exact ht0
  | abort => cases e
  | ub => cases e

theorem txProve_sane {E : Env} {db : Db} {t t' : Tx} {k : B32} {r : Except Err Bytes} (ht : SaneTx db.store.rd t)
    (e : txProve E db t k = .ok (t', r)) : SaneTx db.store.rd t' := by
  obtain ⟨n, hn, hf, hc, hr⟩ := ht
  obtain ⟨o⟩ := t
  dsimp only at hn
  subst hn
  obtain ⟨n1, e3, hf1⟩ := (txProve_outcome (E := E) (db := db) (key := k) hf).good e
  dsimp only at e3
  subst e3
  unfold txProve at e
  simp only [Tx.node, Res.bind_ok] at e
  obtain ⟨⟨q, n2⟩, e1, e⟩ := Res.bind_eq_ok.1 e
  obtain ⟨a, b, _⟩ := treeProve_coh _ _ _ _ _ _ hc e1
  have h2 : n2 = n1 := by
    cases q with
    | none => cases e; rfl
    | some pf =>
      obtain ⟨_, _, e⟩ := Res.bind_eq_ok.1 e
      obtain ⟨_, _, e⟩ := Res.bind_eq_ok.1 e
      split at e
      · cases e
      · cases e; rfl
  subst h2
  exact ⟨n2, rfl, hf1, a, b hr⟩

/-- After opening, files only grow. -/
structure Grown (E : Env) (db db' : Db) : Prop where
  sane : SaneDb E db'
  ext : FExt db.store.files db'.store.files

theorem Grown.le {E : Env} {db db' : Db} (h : Grown E db db') (hd : SaneDb E db) : Rd.Le db.store.rd db'.store.rd := by
  rw [hd.store.sok.rd_eq, h.sane.store.sok.rd_eq]
  exact vrd_mono h.ext

theorem Grown.of {E : Env} {db db' : Db} (hd : SaneDb E db') (e : db'.store.files = db.store.files) : Grown E db db' := ⟨hd, by rw [e]; exact FExt.refl _⟩

theorem txCommit_sane {E : Env} (hE : EnvOk E) {db db' : Db} {t t' : Tx} {r : Except Err Unit} (hd : SaneDb E db) (ht : SaneTx db.store.rd t)
    (e : txCommit E db t = .ok (db', t', r)) : Grown E db db' ∧ SaneTx db'.store.rd t' ∧ r = .ok () := by
  obtain ⟨n, hn, hf, hc, hr⟩ := ht
  obtain ⟨o⟩ := t
  dsimp only at hn
  subst hn
  obtain ⟨h1, o, h2, h3⟩ := txCommit_of hE hd.store hf hc hr e
  subst h2
  refine ⟨⟨⟨h3.sane, by rw [h3.root]; exact h3.flat⟩, h3.ext⟩, ?_, h1⟩
  have := rootNode_coh h3.sane (by rw [h3.root]; exact h3.flat) (rd := db'.store.rd)
  rw [h3.root] at this
  exact ⟨o, rfl, h3.flat.fit, this⟩

/-- What holds in every program that opened any directory. -/
structure Sane (E : Env) (s : Sys) : Prop where
  db : SaneDb E s.db
  txs : ∀ id t, s.txs id = some t → SaneTx s.db.store.rd t

theorem Sane.set {E : Env} {s : Sys} (h : Sane E s) {id : Nat} {t : Option Tx}
    (ht : ∀ t', t = some t' → SaneTx s.db.store.rd t') : Sane E (s.setTx id t) := by
  refine ⟨h.db, fun i x hx => ?_⟩
  unfold Sys.setTx at hx
  dsimp only at hx
  split at hx
  · exact ht x hx
  · exact h.txs i x hx

theorem Sane.grow {E : Env} {s : Sys} (h : Sane E s) {db : Db} (hg : Grown E s.db db) : Sane E { s with db := db } :=
  ⟨hg.sane, fun i x hx => (h.txs i x hx).mono (hg.le h.db)⟩

theorem step_sane {E : Env} (hE : EnvOk E) {s s' : Sys} {op : Op} {r : Ret} (h : Sane E s) (e : step E s op = .ok (s', r)) : Sane E s' := by
  have created : ∀ {h' : Option B32} {db : Db} {x : Except Err Tx}, txCreate E s.db h' = .ok (db, x) → Grown E s.db db ∧ ∀ t, x = .ok t → SaneTx db.store.rd t :=
    fun e => by
      obtain ⟨a, b, c, d⟩ := txCreate_sane h.db e
      exact ⟨.of a b, d⟩
  cases op with
  | root => cases e; exact h
  | inject h' =>
    obtain ⟨⟨db, x⟩, e1, e⟩ := Res.bind_eq_ok.1 e
    cases e
    refine h.grow ?_
    obtain ⟨⟨s1, ok⟩, e2, e1⟩ := Res.bind_eq_ok.1 e1
    obtain ⟨⟨s2, o⟩, e3, e2⟩ := Res.bind_eq_ok.1 e2
    obtain ⟨a, b, c, _, _⟩ := readHistory_sane h.db e3
    cases o with
    | none => cases e2
    | some _ =>
      cases e2
      cases e1
      exact .of ⟨a, b⟩ c
  | create id h' =>
    obtain ⟨⟨db, x⟩, e1, e⟩ := Res.bind_eq_ok.1 e
    obtain ⟨g, ht⟩ := created e1
    cases x with
    | error _ => cases e; exact h.grow g
    | ok t =>
      cases e
      exact (h.grow g).set fun t' h' => by cases h'; exact ht t rfl
  | destroy id =>
    obtain ⟨t, e1, e⟩ := Res.bind_eq_ok.1 e
    obtain ⟨_, e2, e⟩ := Res.bind_eq_ok.1 e
    cases e
    exact h.set fun t' ht => (nomatch ht)
  | clear id =>
    obtain ⟨t, e1, e⟩ := Res.bind_eq_ok.1 e
    obtain ⟨t1, e2, e⟩ := Res.bind_eq_ok.1 e
    cases e
    obtain ⟨_, _, e2⟩ := Res.bind_eq_ok.1 e2
    cases e2
    exact h.set fun t' ht => by cases ht; exact h.db.rootTx
  | txRoot id =>
    obtain ⟨t, e1, e⟩ := Res.bind_eq_ok.1 e
    obtain ⟨⟨t1, x⟩, e2, e⟩ := Res.bind_eq_ok.1 e
    cases e
    obtain ⟨n, hn, hf, hc, hr⟩ := h.txs id t (Sys.tx_some e1)
    obtain ⟨o⟩ := t
    dsimp only at hn
    subst hn
    obtain ⟨hh, n', e4, hf', _⟩ := nodeHash_fit E.H n hf
    unfold txRoot at e2
    simp only [Tx.node, Res.bind_ok] at e2
    rw [e4] at e2
    cases e2
    obtain ⟨a, b⟩ := nodeHash_coh hc e4
    exact h.set fun t' ht => by cases ht; exact ⟨n', rfl, hf', a, b hr⟩
  | txInject id h' =>
    obtain ⟨t, e1, e⟩ := Res.bind_eq_ok.1 e
    obtain ⟨⟨db, t1, x⟩, e2, e⟩ := Res.bind_eq_ok.1 e
    cases e
    obtain ⟨⟨s1, o⟩, e3, e2⟩ := Res.bind_eq_ok.1 e2
    obtain ⟨a, b, c, d, f⟩ := readHistory_sane h.db e3
    cases o with
    | none =>
      cases e2
      refine (h.grow (.of ⟨a, b⟩ c)).set fun t' ht => ?_
      cases ht
      show SaneTx s1.rd t
      rw [d]; exact h.txs id t (Sys.tx_some e1)
    | some n =>
      obtain ⟨_, _, e2⟩ := Res.bind_eq_ok.1 e2
      cases e2
      refine (h.grow (.of ⟨a, b⟩ c)).set fun t' ht => ?_
      cases ht
      exact f n rfl
  | get id k =>
    obtain ⟨t, e1, e⟩ := Res.bind_eq_ok.1 e
    obtain ⟨_, _, e⟩ := Res.bind_eq_ok.1 e
    cases e; exact h
  | has id k =>
    obtain ⟨t, e1, e⟩ := Res.bind_eq_ok.1 e
    obtain ⟨_, _, e⟩ := Res.bind_eq_ok.1 e
    cases e; exact h
  | insert id k v =>
    obtain ⟨t, e1, e⟩ := Res.bind_eq_ok.1 e
    obtain ⟨⟨t1, x⟩, e2, e⟩ := Res.bind_eq_ok.1 e
    cases e
    exact h.set fun t' ht => by cases ht; exact txInsert_sane (h.txs id t (Sys.tx_some e1)) e2
  | remove id k =>
    obtain ⟨t, e1, e⟩ := Res.bind_eq_ok.1 e
    obtain ⟨⟨t1, x⟩, e2, e⟩ := Res.bind_eq_ok.1 e
    cases e
    exact h.set fun t' ht => by cases ht; exact txRemove_sane (h.txs id t (Sys.tx_some e1)) e2
  | prove id k =>
    obtain ⟨t, e1, e⟩ := Res.bind_eq_ok.1 e
    obtain ⟨⟨t1, x⟩, e2, e⟩ := Res.bind_eq_ok.1 e
    cases e
    exact h.set fun t' ht => by cases ht; exact txProve_sane (h.txs id t (Sys.tx_some e1)) e2
  | commit id =>
    obtain ⟨t, e1, e⟩ := Res.bind_eq_ok.1 e
    obtain ⟨⟨db, t1, x⟩, e2, e⟩ := Res.bind_eq_ok.1 e
    cases e
    obtain ⟨g, ht1, _⟩ := txCommit_sane hE h.db (h.txs id t (Sys.tx_some e1)) e2
    exact (h.grow g).set fun t' ht => by cases ht; exact ht1
  | reopen rand =>
    obtain ⟨⟨d, x⟩, e1, e⟩ := Res.bind_eq_ok.1 e
    cases x with
    | error _ => cases e
    | ok db =>
      cases e
      have st := h.db.store
      have h1 := st.sok.pos; have h2 := st.sok.idx; have h3 := st.idx
      exact ⟨⟨dbOpen_of hE st.le (by show s.db.store.files.length < _; omega) (by omega) e1, dbOpen_flat e1⟩, fun _ _ ht => (nomatch ht)⟩
  | get1 k h' =>
    obtain ⟨⟨db, x⟩, e1, e⟩ := Res.bind_eq_ok.1 e
    cases e
    refine h.grow ?_
    obtain ⟨⟨db1, y⟩, e2, e1⟩ := Res.bind_eq_ok.1 e1
    have hd := (created e2).1
    cases y with
    | error _ => cases e1; exact hd
    | ok t =>
      obtain ⟨_, _, e1⟩ := Res.bind_eq_ok.1 e1
      obtain ⟨_, _, e1⟩ := Res.bind_eq_ok.1 e1
      cases e1; exact hd
  | has1 k h' =>
    obtain ⟨⟨db, x⟩, e1, e⟩ := Res.bind_eq_ok.1 e
    cases e
    refine h.grow ?_
    obtain ⟨⟨db1, y⟩, e2, e1⟩ := Res.bind_eq_ok.1 e1
    have hd := (created e2).1
    cases y with
    | error _ => cases e1; exact hd
    | ok t =>
      obtain ⟨_, _, e1⟩ := Res.bind_eq_ok.1 e1
      obtain ⟨_, _, e1⟩ := Res.bind_eq_ok.1 e1
      cases e1; exact hd
  | insert1 k v =>
    obtain ⟨⟨db, x⟩, e1, e⟩ := Res.bind_eq_ok.1 e
    cases e
    refine h.grow ?_
    obtain ⟨⟨db1, y⟩, e2, e1⟩ := Res.bind_eq_ok.1 e1
    obtain ⟨hd, ht⟩ := created e2
    cases y with
    | error _ => cases e1; exact hd
    | ok t =>
      obtain ⟨⟨t1, z⟩, e4, e1⟩ := Res.bind_eq_ok.1 e1
      have ht1 := txInsert_sane (ht t rfl) e4
      cases z with
      | error _ =>
        obtain ⟨_, _, e1⟩ := Res.bind_eq_ok.1 e1
        cases e1; exact hd
      | ok u =>
        obtain ⟨⟨db2, t2, w⟩, e3, e1⟩ := Res.bind_eq_ok.1 e1
        obtain ⟨_, _, e1⟩ := Res.bind_eq_ok.1 e1
        cases e1
        obtain ⟨g, _, _⟩ := txCommit_sane hE hd.sane ht1 e3
        exact ⟨g.sane, hd.ext.trans g.ext⟩
  | remove1 k =>
    obtain ⟨⟨db, x⟩, e1, e⟩ := Res.bind_eq_ok.1 e
    cases e
    refine h.grow ?_
    obtain ⟨⟨db1, y⟩, e2, e1⟩ := Res.bind_eq_ok.1 e1
    obtain ⟨hd, ht⟩ := created e2
    cases y with
    | error _ => cases e1; exact hd
    | ok t =>
      obtain ⟨⟨t1, z⟩, e4, e1⟩ := Res.bind_eq_ok.1 e1
      have ht1 := txRemove_sane (ht t rfl) e4
      cases z with
      | error _ =>
        obtain ⟨_, _, e1⟩ := Res.bind_eq_ok.1 e1
        cases e1; exact hd
      | ok u =>
        obtain ⟨⟨db2, t2, w⟩, e3, e1⟩ := Res.bind_eq_ok.1 e1
        obtain ⟨_, _, e1⟩ := Res.bind_eq_ok.1 e1
        cases e1
        obtain ⟨g, _, _⟩ := txCommit_sane hE hd.sane ht1 e3
        exact ⟨g.sane, hd.ext.trans g.ext⟩
  | prove1 k h' =>
    obtain ⟨⟨db, x⟩, e1, e⟩ := Res.bind_eq_ok.1 e
    cases e
    refine h.grow ?_
    obtain ⟨⟨db1, y⟩, e2, e1⟩ := Res.bind_eq_ok.1 e1
    have hd := (created e2).1
    cases y with
    | error _ => cases e1; exact hd
    | ok t =>
      obtain ⟨_, _, e1⟩ := Res.bind_eq_ok.1 e1
      obtain ⟨_, _, e1⟩ := Res.bind_eq_ok.1 e1
      cases e1; exact hd

theorem FromDir.sane {E : Env} (hE : EnvOk E) {s : Sys} (h : FromDir E s) : Sane E s := by
  induction h with
  | opened h1 h2 h3 e => exact ⟨⟨dbOpen_of hE h1 h2 h3 e, dbOpen_flat e⟩, fun _ _ ht => (nomatch ht)⟩
  | call _ e ih => exact step_sane hE ih e

end Urkel
