import Verif.Spec.Quiet
import Verif.Lemmas.Damage
/-
Hashes recorded in the nodes change nothing.
-/
namespace Urkel

/-- The hash of a node, computed if it is not recorded. -/
def hashVal (H : HashFn) : Node → B32
  | .null => B32.zero
  | .hash h _ => h
  | .leaf h _ _ _ _ => h.getD B32.zero
  | .internal h _ pre l r => h.getD (hashInternal H pre (hashVal H l) (hashVal H r))

/-- All hashes recorded. -/
def norm (H : HashFn) : Node → Node
  | .null => .null
  | .hash h p => .hash h p
  | .leaf h p k v vp => .leaf h p k v vp
  | .internal h p pre l r => .internal (some (h.getD (hashInternal H pre (hashVal H l) (hashVal H r)))) p pre (norm H l) (norm H r)

theorem hashVal_norm (H : HashFn) (n : Node) : hashVal H (norm H n) = hashVal H n := by cases n <;> rfl

theorem norm_hashVal {H : HashFn} {n n' : Node} (h : norm H n = norm H n') : hashVal H n = hashVal H n' := by
  rw [← hashVal_norm H n, h, hashVal_norm]

theorem nodeHash_norm (H : HashFn) : ∀ n : Node, Fit n → ∃ n', nodeHash H n = .ok (hashVal H n, n') ∧ norm H n' = norm H n
  | .null, _ => ⟨_, rfl, rfl⟩
  | .hash _ _, _ => ⟨_, rfl, rfl⟩
  | .leaf (some _) _ _ _ _, _ => ⟨_, rfl, rfl⟩
  | .leaf none _ _ _ _, hf => absurd hf.1 (by simp)
  | .internal (some _) _ _ _ _, _ => ⟨_, rfl, rfl⟩
  | .internal none p pre l r, hf => by
    obtain ⟨l', e1, n1⟩ := nodeHash_norm H l hf.2.2.2.1
    obtain ⟨r', e2, n2⟩ := nodeHash_norm H r hf.2.2.2.2
    refine ⟨.internal (some (hashInternal H pre (hashVal H l) (hashVal H r))) p pre l' r', by
      rw [nodeHash, e1, Res.bind_ok]; dsimp only; rw [e2, Res.bind_ok]; rfl, ?_⟩
    simp only [norm, n1, n2, Option.getD_some, Option.getD_none]

theorem norm_internal {H : HashFn} {h h' : Option B32} {p p' : Option Ptr} {pre pre' : Bits} {l l' r r' : Node}
    (e : norm H (.internal h p pre l r) = norm H (.internal h' p' pre' l' r')) :
    p = p' ∧ pre = pre' ∧ norm H l = norm H l' ∧ norm H r = norm H r' ∧
      hashVal H (.internal h p pre l r) = hashVal H (.internal h' p' pre' l' r') := by
  have e' := norm_hashVal e
  simp only [norm, Node.internal.injEq] at e
  exact ⟨e.2.1, e.2.2.1, e.2.2.2.1, e.2.2.2.2, e'⟩

theorem norm_side {H : HashFn} {l l' r r' : Node} (h1 : norm H l = norm H l') (h2 : norm H r = norm H r') (b : Bool) :
    norm H (side l r b) = norm H (side l' r' b) := by cases b <;> assumption

theorem norm_create {H : HashFn} {pre : Bits} {x x' y y' : Node} (h1 : norm H x = norm H x') (h2 : norm H y = norm H y') (b : Bool) :
    norm H (createInternal pre x y b) = norm H (createInternal pre x' y' b) := by
  cases b <;> simp only [createInternal, norm, h1, h2, norm_hashVal h1, norm_hashVal h2, Bool.false_eq_true, ↓reduceIte]

/-- Equal results up to a relation of the values. -/
def ResRel {α β : Type} (R : α → β → Prop) (r : Res α) (r' : Res β) : Prop :=
  match r, r' with
  | .ok a, .ok b => R a b
  | .err e, .err e' => e = e'
  | .abort, .abort => True
  | .ub, .ub => True
  | _, _ => False

theorem ResRel.refl {α : Type} {R : α → α → Prop} (h : ∀ a, R a a) (r : Res α) : ResRel R r r := by cases r <;> simp [ResRel, h]

theorem ResRel.bind {α α' β β' : Type} {R : α → α' → Prop} {S : β → β' → Prop} {r : Res α} {r' : Res α'} {f : α → Res β} {f' : α' → Res β'}
    (h : ResRel R r r') (hf : ∀ a b, r = .ok a → r' = .ok b → R a b → ResRel S (f a) (f' b)) : ResRel S (r >>= f) (r' >>= f') := by
  cases r <;> cases r' <;> try exact h.elim
  · exact hf _ _ rfl rfl h
  · exact h
  · trivial
  · trivial

theorem ResRel.bindEq {α β β' : Type} {S : β → β' → Prop} {r : Res α} {f : α → Res β} {f' : α → Res β'}
    (hf : ∀ a, r = .ok a → ResRel S (f a) (f' a)) : ResRel S (r >>= f) (r >>= f') := by
  cases r <;> simp only [ResRel]
  · exact hf _ rfl
  all_goals first | trivial | rfl

variable {E : Env} {s : Store} {key : B32}

def Alike (H : HashFn) (n n' : Node) : Prop := norm H n = norm H n'

theorem Alike.refl (H : HashFn) (n : Node) : Alike H n n := rfl

theorem Alike.null {H : HashFn} {n : Node} (h : Alike H .null n) : n = .null := by cases n <;> first | rfl | cases h
theorem Alike.hash {H : HashFn} {h : B32} {p : Ptr} {n : Node} (e : Alike H (.hash h p) n) : n = .hash h p := by
  cases n <;> simp [Alike, norm] at e; rw [e.1, e.2]
theorem Alike.leaf {H : HashFn} {h : Option B32} {p : Option Ptr} {k : B32} {v : Option Bytes} {vp : Option Ptr} {n : Node} (e : Alike H (.leaf h p k v vp) n) :
    n = .leaf h p k v vp := by
  cases n <;> simp [Alike, norm] at e
  obtain ⟨rfl, rfl, rfl, rfl, rfl⟩ := e; rfl
theorem Alike.internal {H : HashFn} {h : Option B32} {p : Option Ptr} {pre : Bits} {l r n : Node} (e : Alike H (.internal h p pre l r) n) :
    ∃ h' l' r', n = .internal h' p pre l' r' ∧ Alike H l l' ∧ Alike H r r' ∧ hashVal H (.internal h p pre l r) = hashVal H (.internal h' p pre l' r') := by
  cases n with
  | internal h' p' pre' l' r' => obtain ⟨rfl, rfl, h1, h2, h3⟩ := norm_internal e; exact ⟨_, _, _, rfl, h1, h2, h3⟩
  | _ => simp [Alike, norm] at e

theorem Alike.symm {H : HashFn} {n n' : Node} (h : Alike H n n') : Alike H n' n := Eq.symm h

theorem treeGet_alike {want : Bool} : ∀ (fuel : Nat) (n n' : Node) (d : Nat), Alike E.H n n' →
    treeGet s key want fuel n d = treeGet s key want fuel n' d
  | 0, _, _, _, _ => rfl
  | fuel + 1, n, n', d, hn => by
    cases n with
    | null => rw [hn.null]
    | hash h p => rw [hn.hash]
    | leaf h p k v vp => rw [hn.leaf]
    | internal h p pre l r =>
      obtain ⟨h', l', r', rfl, hl, hr, -⟩ := hn.internal
      simp only [treeGet]
      congr 1; funext has
      split
      · rfl
      · congr 1; funext bit
        exact treeGet_alike fuel _ _ _ (norm_side hl hr bit)

theorem treeInsert_alike {v : Bytes} : ∀ (fuel : Nat) (n n' : Node) (d : Nat), Alike E.H n n' →
    ResRel (Alike E.H) (treeInsert E s key v fuel n d) (treeInsert E s key v fuel n' d)
  | 0, _, _, _, _ => trivial
  | fuel + 1, n, n', d, hn => by
    cases n with
    | null => rw [hn.null]; exact ResRel.refl (Alike.refl _) _
    | hash h p => rw [hn.hash]; exact ResRel.refl (Alike.refl _) _
    | leaf h p k v vp => rw [hn.leaf]; exact ResRel.refl (Alike.refl _) _
    | internal h p pre l r =>
      obtain ⟨h', l', r', rfl, hl, hr, -⟩ := hn.internal
      simp only [treeInsert]
      refine ResRel.bindEq fun bits _ => ResRel.bindEq fun bit _ => ?_
      split
      · refine ResRel.bindEq fun x _ => ?_
        exact norm_create rfl (norm_create hl hr false) bit
      · refine ResRel.bind (treeInsert_alike fuel _ _ _ (norm_side hl hr bit)) fun a b _ _ hab => ?_
        exact norm_create hab (norm_side hl hr (!bit)) bit

/-! ### Removing -/

theorem removeSide_alike {pre : Bits} {bit : Bool} {n n' : Node} (hn : Alike E.H n n') : ResRel (Alike E.H) (removeSide pre n bit) (removeSide pre n' bit) := by
  cases n with
  | null => rw [hn.null]; exact ResRel.refl (Alike.refl _) _
  | hash h p => rw [hn.hash]; exact ResRel.refl (Alike.refl _) _
  | leaf h p k v vp => rw [hn.leaf]; exact ResRel.refl (Alike.refl _) _
  | internal h p pre' l r =>
    obtain ⟨h', l', r', rfl, hl, hr, -⟩ := hn.internal
    exact ResRel.bindEq fun j _ => norm_create hl hr false

theorem removeJoin_alike {pre : Bits} {bit : Bool} {y y' : Node} (hy : Alike E.H y y') :
    ResRel (Alike E.H) (removeJoin s pre y bit) (removeJoin s pre y' bit) := by
  cases y with
  | null => rw [hy.null]; exact ResRel.refl (Alike.refl _) _
  | hash h p => rw [hy.hash]; exact ResRel.refl (Alike.refl _) _
  | leaf h p k v vp => rw [hy.leaf]; exact ResRel.refl (Alike.refl _) _
  | internal h p pre' l r =>
    obtain ⟨h', l', r', rfl, hl, hr, -⟩ := hy.internal
    exact removeSide_alike (pre := pre) (bit := bit) hy

theorem treeRemove_alike : ∀ (fuel : Nat) (n n' : Node) (d : Nat), Alike E.H n n' →
    ResRel (Alike E.H) (treeRemove s key fuel n d) (treeRemove s key fuel n' d)
  | 0, _, _, _, _ => trivial
  | fuel + 1, n, n', d, hn => by
    cases n with
    | null => rw [hn.null]; exact ResRel.refl (Alike.refl _) _
    | hash h p => rw [hn.hash]; exact ResRel.refl (Alike.refl _) _
    | leaf h p k v vp => rw [hn.leaf]; exact ResRel.refl (Alike.refl _) _
    | internal h p pre l r =>
      obtain ⟨h', l', r', rfl, hl, hr, -⟩ := hn.internal
      simp only [treeRemove]
      refine ResRel.bindEq fun has _ => ?_
      split
      · exact rfl
      · refine ResRel.bindEq fun bit _ => ?_
        refine ResRel.bind (treeRemove_alike fuel _ _ _ (norm_side hl hr bit)) fun a b _ _ hab => ?_
        have hy : Alike E.H (side l r (!bit)) (side l' r' (!bit)) := norm_side hl hr (!bit)
        cases a with
        | null => obtain rfl := hab.null; exact removeJoin_alike (s := s) (pre := pre) (bit := bit) hy
        | hash h p => obtain rfl := hab.hash; exact norm_create rfl hy bit
        | leaf h p k v vp => obtain rfl := hab.leaf; exact norm_create rfl hy bit
        | internal h p pre' l r =>
          obtain ⟨h', l', r', rfl, hl, hr, -⟩ := hab.internal
          exact norm_create hab hy bit

/-! ### Proving -/

theorem treeProve_norm : ∀ {fuel : Nat} {n : Node} {d pushed : Nat} {pf : Option Proof} {n' : Node},
    treeProve E s key fuel n d pushed = .ok (pf, n') → Fit n → Alike E.H n' n
  | 0, _, _, _, _, _, e, _ => by cases e
  | fuel + 1, n, d, pushed, pf, n', e, hf => by
    cases n with
    | null => cases e; rfl
    | hash h p =>
      simp only [treeProve] at e
      obtain ⟨r, e1, e⟩ := Res.bind_eq_ok.1 e
      cases r with
      | none => cases e; rfl
      | some rn =>
        obtain ⟨x, _, e⟩ := Res.bind_eq_ok.1 e
        cases e; rfl
    | leaf h p k v vp =>
      simp only [treeProve] at e
      obtain ⟨r, e1, e⟩ := Res.bind_eq_ok.1 e
      cases r with
      | none => cases e; rfl
      | some x => dsimp only at e; split at e <;> (cases e; rfl)
    | internal h p pre l r =>
      simp only [treeProve] at e
      obtain ⟨has, e1, e⟩ := Res.bind_eq_ok.1 e
      have again : ∀ {a b : Node}, Alike E.H a l → Alike E.H b r → Alike E.H (.internal h p pre a b) (.internal h p pre l r) := fun ha hb => by
        simp only [Alike, norm]
        rw [norm_hashVal ha, norm_hashVal hb, ha, hb]
      split at e
      · obtain ⟨a, e2, n1⟩ := nodeHash_norm E.H l hf.2.2.2.1
        obtain ⟨b, e3, n2⟩ := nodeHash_norm E.H r hf.2.2.2.2
        rw [e2, Res.bind_ok] at e; dsimp only at e; rw [e3, Res.bind_ok] at e
        cases e
        exact again n1 n2
      · obtain ⟨bit, e2, e⟩ := Res.bind_eq_ok.1 e
        obtain ⟨a, e3, n1⟩ := nodeHash_norm E.H _ (fit_side hf (!bit)).1
        rw [e3, Res.bind_ok] at e; dsimp only at e
        obtain ⟨_, _, e⟩ := Res.bind_eq_ok.1 e
        obtain ⟨⟨pf', c⟩, e4, e⟩ := Res.bind_eq_ok.1 e
        have k := treeProve_norm e4 (fit_side hf bit).1
        cases e
        cases bit
        · exact again k n1
        · exact again n1 k

theorem treeProve_alike : ∀ (fuel : Nat) (n n' : Node) (d pushed : Nat), Alike E.H n n' → Fit n → Fit n' →
    ResRel (fun a b => a.1 = b.1 ∧ Alike E.H a.2 b.2) (treeProve E s key fuel n d pushed) (treeProve E s key fuel n' d pushed)
  | 0, _, _, _, _, _, _, _ => trivial
  | fuel + 1, n, n', d, pushed, hn, hf, hf' => by
    have rfl' : ∀ r : Res (Option Proof × Node), ResRel (fun a b => a.1 = b.1 ∧ Alike E.H a.2 b.2) r r := ResRel.refl fun a => ⟨rfl, rfl⟩
    cases n with
    | null => rw [hn.null]; exact rfl' _
    | hash h p => rw [hn.hash]; exact rfl' _
    | leaf h p k v vp => rw [hn.leaf]; exact rfl' _
    | internal h p pre l r =>
      obtain ⟨h', l', r', rfl, hl, hr, hh⟩ := hn.internal
      simp only [treeProve]
      refine ResRel.bindEq fun has _ => ?_
      have hash2 : ∀ {x x' : Node}, Alike E.H x x' → Fit x → Fit x' →
          ∃ y y', nodeHash E.H x = .ok (hashVal E.H x, y) ∧ nodeHash E.H x' = .ok (hashVal E.H x, y') ∧ Alike E.H x y ∧ Alike E.H x' y' := fun hx fx fx' => by
        obtain ⟨y, e1, n1⟩ := nodeHash_norm E.H _ fx
        obtain ⟨y', e2, n2⟩ := nodeHash_norm E.H _ fx'
        rw [← norm_hashVal hx] at e2
        exact ⟨y, y', e1, e2, n1.symm, n2.symm⟩
      -- the hash of a branch does not depend on which hashes below it are recorded
      have again : ∀ {a a' b b' : Node}, Alike E.H l a → Alike E.H r b → Alike E.H l' a' → Alike E.H r' b' →
          Alike E.H (.internal h p pre a b) (.internal h' p pre a' b') := fun ha hb ha' hb' => by
        have e := hn
        simp only [Alike, norm] at e ⊢
        rw [← norm_hashVal ha, ← norm_hashVal hb, ← norm_hashVal ha', ← norm_hashVal hb', ← ha, ← hb, ← ha', ← hb']
        exact e
      split
      · obtain ⟨a, a', e1, e2, n1, n2⟩ := hash2 hl hf.2.2.2.1 hf'.2.2.2.1
        obtain ⟨b, b', e3, e4, n3, n4⟩ := hash2 hr hf.2.2.2.2 hf'.2.2.2.2
        rw [e1, e2]; simp only [Res.bind_ok]; rw [e3, e4]
        exact ⟨rfl, again n1 n3 n2 n4⟩
      · refine ResRel.bindEq fun bit _ => ?_
        have f1 := (fit_side hf (!bit)).1
        have f2 := (fit_side hf' (!bit)).1
        obtain ⟨a, a', e1, e2, n1, n2⟩ := hash2 (norm_side hl hr (!bit)) f1 f2
        rw [e1, e2]; simp only [Res.bind_ok]
        refine ResRel.bindEq fun _ _ => ?_
        have down := treeProve_alike fuel _ _ (d + pre.size + 1) (pushed + 1) (norm_side hl hr bit) (fit_side hf bit).1 (fit_side hf' bit).1
        refine ResRel.bind down fun x y ex ey hxy => ?_
        obtain ⟨pf, c⟩ := x
        obtain ⟨pf', c'⟩ := y
        obtain ⟨rfl, hc⟩ := hxy
        refine ⟨rfl, ?_⟩
        have k1 : Alike E.H (side l r bit) c := (treeProve_norm ex (fit_side hf bit).1).symm
        have k2 : Alike E.H (side l' r' bit) c' := (treeProve_norm ey (fit_side hf' bit).1).symm
        cases bit
        · exact again k1 n1 k2 n2
        · exact again n1 k1 n2 k2

/-! ### Writing -/

theorem Flat.hashed {n : Node} (hn : Flat n) (H : HashFn) : nodeHash H n = .ok (hashVal H n, n) := by
  cases n <;> first | rfl | exact hn.elim

theorem nodeHash_branch {H : HashFn} {h : Option B32} {p : Option Ptr} {pre : Bits} {l r : Node} (hl : Flat l) (hr : Flat r) :
    nodeHash H (.internal h p pre l r) = .ok (hashVal H (.internal h p pre l r), .internal (some (hashVal H (.internal h p pre l r))) p pre l r) := by
  cases h with
  | some h => rfl
  | none => rw [nodeHash, hl.hashed H, Res.bind_ok]; dsimp only; rw [hr.hashed H, Res.bind_ok]; rfl

theorem flushAndHash_branch {h h' : Option B32} {p : Option Ptr} {pre : Bits} {l r : Node} {w : Bool} (hl : Flat l) (hr : Flat r)
    (hh : hashVal E.H (.internal h p pre l r) = hashVal E.H (.internal h' p pre l r)) :
    flushAndHash E s (.internal h p pre l r) w = flushAndHash E s (.internal h' p pre l r) w := by
  unfold flushAndHash
  rw [nodeHash_branch hl hr, nodeHash_branch hl hr, hh]

theorem flushAndHash_val {n m : Node} {w : Bool} {s' : Store} (hn : ∃ n', nodeHash E.H n = .ok (hashVal E.H n, n') ∧ hashVal E.H n' = hashVal E.H n)
    (e : flushAndHash E s n w = .ok (s', some m)) : hashVal E.H m = hashVal E.H n := by
  obtain ⟨n', e1, e2⟩ := hn
  have fin : ∀ {s1 : Store} {ok : Bool}, (if (!ok) = true then pure (s1, none) else do
        let x ← nodeHash E.H n
        match x with
          | (_, n) => do
            let o ← toHash n
            pure (s1, some o) : Res (Store × Option Node)) = .ok (s', some m) → hashVal E.H m = hashVal E.H n := fun {s1 ok} e => by
    split at e
    · cases e
    · rw [e1, Res.bind_ok] at e
      dsimp only at e
      obtain ⟨o, e3, e⟩ := Res.bind_eq_ok.1 e
      cases e
      rw [← e2]
      cases n' with
      | null => cases e3; rfl
      | hash h p => cases e3; rfl
      | leaf h p k v vp => cases h <;> cases p <;> cases e3; rfl
      | internal h p pre l r => cases h <;> cases p <;> cases e3; rfl
  unfold flushAndHash at e
  dsimp only at e
  split at e
  · obtain ⟨⟨s1, ok⟩, _, e⟩ := Res.bind_eq_ok.1 e
    exact fin e
  · exact fin (s1 := s) (ok := true) e

theorem storeWriteNode_branch {h : Option B32} {pre : Bits} {l r : Node} :
    storeWriteNode E s (.internal h none pre l r) = (do
      let raw ← nodeWrite (.internal none none pre l r)
      let slab ← slabWrite E s.slab raw
      pure ({ s with slab := slab }, .internal h (some (markPtr slab.fileIndex (slab.filePos - raw.length) raw.length)) pre l r)) := rfl

theorem treeWrite_val {n m : Node} {s' : Store} : ∀ {s : Store}, Fit n → treeWrite E n s = .ok (s', some m) → hashVal E.H m = hashVal E.H n := by
  cases n with
  | null => intro s _ e; cases e; rfl
  | hash h p => intro s _ e; cases e; rfl
  | leaf h p k v vp =>
    intro s hf e
    cases h with
    | none => exact absurd hf.1 (by simp)
    | some h =>
      cases p with
      | some p => unfold treeWrite at e; exact flushAndHash_val ⟨_, rfl, rfl⟩ e
      | none =>
        obtain ⟨⟨s1, n1⟩, e1, e⟩ := Res.bind_eq_ok.1 e
        obtain ⟨⟨s2, n2⟩, e2, e⟩ := Res.bind_eq_ok.1 e
        have h1 : ∃ vp', n1 = .leaf (some h) none k v vp' := by
          cases v <;> cases vp <;> first | cases e1 | skip
          obtain ⟨slab, _, e1⟩ := Res.bind_eq_ok.1 e1
          cases e1; exact ⟨_, rfl⟩
        obtain ⟨vp', rfl⟩ := h1
        have h2 : ∃ p', n2 = .leaf (some h) (some p') k v vp' := by
          obtain ⟨raw, _, e2⟩ := Res.bind_eq_ok.1 e2
          obtain ⟨slab, _, e2⟩ := Res.bind_eq_ok.1 e2
          cases e2; exact ⟨_, rfl⟩
        obtain ⟨p', rfl⟩ := h2
        dsimp only at e
        exact (flushAndHash_val (n := .leaf (some h) (some p') k v vp') ⟨_, rfl, rfl⟩ e)
  | internal h p pre l r =>
    intro s hf e
    obtain ⟨⟨s1, l'⟩, e1, e⟩ := Res.bind_eq_ok.1 e
    cases l' with
    | none => cases e
    | some l' =>
    obtain ⟨⟨s2, r'⟩, e2, e⟩ := Res.bind_eq_ok.1 e
    cases r' with
    | none => cases e
    | some r' =>
    have f1 := treeWrite_some e1
    have f2 := treeWrite_some e2
    have v1 := treeWrite_val hf.2.2.2.1 e1
    have v2 := treeWrite_val hf.2.2.2.2 e2
    have hv : ∀ p', hashVal E.H (.internal h p' pre l' r') = hashVal E.H (.internal h p pre l r) := fun p' => by simp only [hashVal, v1, v2]
    cases p with
    | some p => rw [← hv (some p)]; exact flushAndHash_val ⟨_, nodeHash_branch f1 f2, rfl⟩ e
    | none =>
      dsimp only at e
      rw [storeWriteNode_branch] at e
      obtain ⟨⟨s3, n'⟩, e3, e⟩ := Res.bind_eq_ok.1 e
      obtain ⟨raw, _, e3⟩ := Res.bind_eq_ok.1 e3
      obtain ⟨slab, _, e3⟩ := Res.bind_eq_ok.1 e3
      cases e3
      dsimp only at e
      refine (flushAndHash_val ⟨_, nodeHash_branch f1 f2, rfl⟩ e).trans (hv _)

theorem treeWrite_alike {n n' : Node} : ∀ {s : Store}, Alike E.H n n' → Fit n → Fit n' → treeWrite E n s = treeWrite E n' s := by
  induction n generalizing n' with
  | null => intro s hn _ _; rw [hn.null]
  | hash h p => intro s hn _ _; rw [hn.hash]
  | leaf h p k v vp => intro s hn _ _; rw [hn.leaf]
  | internal h p pre l r ihl ihr =>
    intro s hn hf hf'
    obtain ⟨h', l', r', rfl, hl, hr, hh⟩ := hn.internal
    simp only [treeWrite]
    rw [← ihl hl hf.2.2.2.1 hf'.2.2.2.1]
    cases e1 : treeWrite E l s with
    | ok x =>
      obtain ⟨s1, l1⟩ := x
      cases l1 with
      | none => rfl
      | some l1 =>
        simp only [Res.bind_ok]
        rw [← ihr hr hf.2.2.2.2 hf'.2.2.2.2]
        cases e2 : treeWrite E r s1 with
        | ok x =>
          obtain ⟨s2, r1⟩ := x
          cases r1 with
          | none => rfl
          | some r1 =>
            simp only [Res.bind_ok]
            have f1 := treeWrite_some e1
            have f2 := treeWrite_some e2
            have v1 := treeWrite_val hf.2.2.2.1 e1
            have v2 := treeWrite_val hf.2.2.2.2 e2
            have hv : ∀ p', hashVal E.H (.internal h p' pre l1 r1) = hashVal E.H (.internal h' p' pre l1 r1) := fun p' => by
              have := hh
              simp only [hashVal] at this ⊢
              rw [v1, v2, this, norm_hashVal hl, norm_hashVal hr]
            cases p with
            | some p => exact flushAndHash_branch f1 f2 (hv _)
            | none =>
              dsimp only
              rw [storeWriteNode_branch, storeWriteNode_branch]
              cases nodeWrite (.internal none none pre l1 r1) with
              | ok raw =>
                simp only [Res.bind_ok]
                cases slabWrite E s2.slab raw with
                | ok slab => exact flushAndHash_branch f1 f2 (hv _)
                | _ => rfl
              | _ => rfl
        | _ => rfl
    | _ => rfl

/-! ### Programs -/

def TxAlike (H : HashFn) (t t' : Tx) : Prop :=
  match t.root, t'.root with
  | some n, some n' => Alike H n n'
  | none, none => True
  | _, _ => False

def OptRel {α : Type} (R : α → α → Prop) (a b : Option α) : Prop :=
  match a, b with
  | some a, some b => R a b
  | none, none => True
  | _, _ => False

def SysAlike (H : HashFn) (s s' : Sys) : Prop := s.db = s'.db ∧ ∀ i, OptRel (TxAlike H) (s.txs i) (s'.txs i)

theorem TxAlike.refl {H : HashFn} (t : Tx) : TxAlike H t t := by
  unfold TxAlike
  cases t.root with
  | none => trivial
  | some n => rfl

theorem SysAlike.refl {H : HashFn} (s : Sys) : SysAlike H s s := by
  refine ⟨rfl, fun i => ?_⟩
  cases s.txs i with
  | none => trivial
  | some t => exact TxAlike.refl t

theorem SysAlike.tx {H : HashFn} {s s' : Sys} (h : SysAlike H s s') (id : Nat) : ResRel (TxAlike H) (s.tx id) (s'.tx id) := by
  have := h.2 id
  unfold Sys.tx
  cases e : s.txs id <;> cases e' : s'.txs id <;> rw [e, e'] at this <;> first | trivial | exact this

theorem TxAlike.node {H : HashFn} {t t' : Tx} (h : TxAlike H t t') : ResRel (Alike H) t.node t'.node := by
  unfold TxAlike at h
  unfold Tx.node
  cases e : t.root <;> cases e' : t'.root <;> rw [e, e'] at h <;> first | trivial | exact h

theorem Tx.node_some {t : Tx} {n : Node} (e : t.node = .ok n) : t.root = some n := by
  unfold Tx.node at e
  cases h : t.root <;> rw [h] at e <;> cases e; rfl

theorem SysAlike.set {H : HashFn} {s s' : Sys} (h : SysAlike H s s') {t t' : Option Tx} (ht : OptRel (TxAlike H) t t') (id : Nat) :
    SysAlike H (s.setTx id t) (s'.setTx id t') := by
  refine ⟨h.1, fun i => ?_⟩
  unfold Sys.setTx
  dsimp only
  by_cases hi : i = id
  · simp only [hi, ↓reduceIte]; exact ht
  · simp only [hi, ↓reduceIte]; exact h.2 i

theorem SysAlike.put {H : HashFn} {s s' : Sys} (h : SysAlike H s s') {t t' : Tx} (ht : TxAlike H t t') (id : Nat) :
    SysAlike H (s.setTx id (some t)) (s'.setTx id (some t')) := h.set (t := some t) (t' := some t') ht id

theorem SysAlike.withDb {H : HashFn} {s s' : Sys} (h : SysAlike H s s') (db : Db) : SysAlike H { s with db := db } { s' with db := db } := ⟨rfl, h.2⟩

theorem step_alike {s s' : Sys} (h : SysAlike E.H s s') (hs : Held s) (hs' : Held s') (op : Op) :
    ResRel (fun a b => a.2 = b.2 ∧ SysAlike E.H a.1 b.1) (step E s op) (step E s' op) := by
  have hdb := h.1
  cases op with
  | root => exact ⟨by rw [hdb], h⟩
  | inject x =>
    simp only [step]; rw [← hdb]
    exact ResRel.bindEq fun a _ => ⟨rfl, h.withDb _⟩
  | create id x =>
    simp only [step]; rw [← hdb]
    refine ResRel.bindEq fun a _ => ?_
    obtain ⟨db, r⟩ := a
    cases r with
    | ok t => exact ⟨rfl, (h.withDb db).put (TxAlike.refl t) id⟩
    | error e => exact ⟨rfl, h.withDb db⟩
  | destroy id =>
    simp only [step]
    refine (h.tx id).bind fun t t' e1 e2 ht => ?_
    unfold txDestroy
    refine ResRel.bind (R := fun _ _ => True) (ht.node.bind (S := fun _ _ => True) fun _ _ _ _ _ => trivial) fun _ _ _ _ _ => ?_
    exact ⟨rfl, h.set (t := none) (t' := none) trivial id⟩
  | clear id =>
    simp only [step]; rw [← hdb]
    refine (h.tx id).bind fun t t' e1 e2 ht => ?_
    unfold txClear
    refine ResRel.bind (R := TxAlike E.H) (ht.node.bind (S := TxAlike E.H) fun _ _ _ _ _ => (TxAlike.refl _ : TxAlike E.H ⟨some s.db.store.state.rootNode⟩ ⟨some s.db.store.state.rootNode⟩)) fun a b _ _ hab => ?_
    exact ⟨rfl, h.put hab id⟩
  | txRoot id =>
    simp only [step]
    refine (h.tx id).bind fun t t' e1 e2 ht => ?_
    unfold txRoot
    refine ResRel.bind (R := fun a b => a.2 = b.2 ∧ TxAlike E.H a.1 b.1) (ht.node.bind fun n n' e3 e4 hn => ?_) fun a b _ _ hab => ?_
    · obtain ⟨m, e5, h5⟩ := nodeHash_norm E.H n (hs.txs id t (Sys.tx_some e1) n (Tx.node_some e3))
      obtain ⟨m', e6, h6⟩ := nodeHash_norm E.H n' (hs'.txs id t' (Sys.tx_some e2) n' (Tx.node_some e4))
      rw [e5, e6]
      exact ⟨norm_hashVal hn, h5.trans (hn.trans h6.symm)⟩
    · obtain ⟨t1, x⟩ := a
      obtain ⟨t2, y⟩ := b
      obtain ⟨rfl, hab⟩ := hab
      exact ⟨rfl, h.put hab id⟩
  | txInject id x =>
    simp only [step]; rw [← hdb]
    refine (h.tx id).bind fun t t' e1 e2 ht => ?_
    unfold txInject
    refine ResRel.bind (R := fun a b => a.1 = b.1 ∧ TxAlike E.H a.2.1 b.2.1 ∧ a.2.2 = b.2.2) (ResRel.bindEq fun a _ => ?_) fun a b _ _ hab => ?_
    · obtain ⟨s1, r⟩ := a
      cases r with
      | none => exact ⟨rfl, ht, rfl⟩
      | some n => exact ht.node.bind fun _ _ _ _ _ => ⟨rfl, TxAlike.refl _, rfl⟩
    · obtain ⟨db1, t1, r1⟩ := a
      obtain ⟨db2, t2, r2⟩ := b
      obtain ⟨rfl, hab, rfl⟩ := hab
      exact ⟨rfl, (h.withDb db1).put hab id⟩
  | get id k =>
    simp only [step]; rw [← hdb]
    refine (h.tx id).bind fun t t' e1 e2 ht => ?_
    have e : txGet s.db t k = txGet s.db t' k := by
      unfold txGet
      have := ht.node
      cases e3 : t.node <;> cases e4 : t'.node <;> rw [e3, e4] at this <;> first | exact this.elim | skip
      · exact treeGet_alike (E := E) _ _ _ _ this
      all_goals first | rfl | (cases this; rfl)
    rw [e]
    exact ResRel.bindEq fun _ _ => ⟨rfl, h⟩
  | has id k =>
    simp only [step]; rw [← hdb]
    refine (h.tx id).bind fun t t' e1 e2 ht => ?_
    have e : txHas s.db t k = txHas s.db t' k := by
      unfold txHas
      have := ht.node
      cases e3 : t.node <;> cases e4 : t'.node <;> rw [e3, e4] at this <;> first | exact this.elim | skip
      · simp only [Res.bind_ok]; rw [treeGet_alike (E := E) _ _ _ _ this]
      all_goals first | rfl | (cases this; rfl)
    rw [e]
    exact ResRel.bindEq fun _ _ => ⟨rfl, h⟩
  | insert id k v =>
    simp only [step]; rw [← hdb]
    refine (h.tx id).bind fun t t' e1 e2 ht => ?_
    unfold txInsert
    refine ResRel.bind (R := fun a b => a.2 = b.2 ∧ TxAlike E.H a.1 b.1) ?_ fun a b _ _ hab => ?_
    · split
      · exact ⟨rfl, ht⟩
      · refine ht.node.bind fun n n' e3 e4 hn => ?_
        have := treeInsert_alike (s := s.db.store) (key := k) (v := v) treeFuel n n' 0 hn
        cases e5 : treeInsert E s.db.store k v treeFuel n 0 <;> cases e6 : treeInsert E s.db.store k v treeFuel n' 0 <;> rw [e5, e6] at this <;>
          first | exact this.elim | skip
        · exact ⟨rfl, this⟩
        · obtain rfl : _ = _ := this
          rename_i er
          cases er <;> exact ⟨rfl, ht⟩
        · trivial
        · trivial
    · obtain ⟨t1, x⟩ := a
      obtain ⟨t2, y⟩ := b
      obtain ⟨rfl, hab⟩ := hab
      exact ⟨rfl, h.put hab id⟩
  | remove id k =>
    simp only [step]; rw [← hdb]
    refine (h.tx id).bind fun t t' e1 e2 ht => ?_
    unfold txRemove
    refine ResRel.bind (R := fun a b => a.2 = b.2 ∧ TxAlike E.H a.1 b.1) ?_ fun a b _ _ hab => ?_
    · refine ht.node.bind fun n n' e3 e4 hn => ?_
      have := treeRemove_alike (s := s.db.store) (key := k) treeFuel n n' 0 hn
      cases e5 : treeRemove s.db.store k treeFuel n 0 <;> cases e6 : treeRemove s.db.store k treeFuel n' 0 <;> rw [e5, e6] at this <;>
        first | exact this.elim | skip
      · exact ⟨rfl, this⟩
      · obtain rfl : _ = _ := this
        exact ⟨rfl, ht⟩
      · trivial
      · trivial
    · obtain ⟨t1, x⟩ := a
      obtain ⟨t2, y⟩ := b
      obtain ⟨rfl, hab⟩ := hab
      exact ⟨rfl, h.put hab id⟩
  | prove id k =>
    simp only [step]; rw [← hdb]
    refine (h.tx id).bind fun t t' e1 e2 ht => ?_
    unfold txProve
    refine ResRel.bind (R := fun a b => a.2 = b.2 ∧ TxAlike E.H a.1 b.1) ?_ fun a b _ _ hab => ?_
    · refine ht.node.bind fun n n' e3 e4 hn => ?_
      refine (treeProve_alike treeFuel n n' 0 0 hn (hs.txs id t (Sys.tx_some e1) n (Tx.node_some e3)) (hs'.txs id t' (Sys.tx_some e2) n' (Tx.node_some e4))).bind
        fun a b _ _ hab => ?_
      obtain ⟨pf, m⟩ := a
      obtain ⟨pf', m'⟩ := b
      obtain ⟨rfl, hm⟩ := hab
      cases pf with
      | none => exact ⟨rfl, hm⟩
      | some pf =>
        refine ResRel.bindEq fun size _ => ResRel.bindEq fun raw _ => ?_
        split
        · trivial
        · exact ⟨rfl, hm⟩
    · obtain ⟨t1, x⟩ := a
      obtain ⟨t2, y⟩ := b
      obtain ⟨rfl, hab⟩ := hab
      exact ⟨rfl, h.put hab id⟩
  | commit id =>
    simp only [step]; rw [← hdb]
    refine (h.tx id).bind fun t t' e1 e2 ht => ?_
    have e : txCommit E s.db t = txCommit E s.db t' := by
      unfold txCommit
      have := ht.node
      cases e3 : t.node <;> cases e4 : t'.node <;> rw [e3, e4] at this <;> first | exact this.elim | skip
      · simp only [Res.bind_ok]
        rw [treeWrite_alike this (hs.txs id t (Sys.tx_some e1) _ (Tx.node_some e3)) (hs'.txs id t' (Sys.tx_some e2) _ (Tx.node_some e4))]
      all_goals first | rfl | (cases this; rfl)
    rw [e]
    exact ResRel.bindEq fun a _ => ⟨rfl, (h.withDb _).put (TxAlike.refl _) id⟩
  | reopen rand =>
    simp only [step]; rw [← hdb]
    exact ResRel.refl (fun a => ⟨rfl, SysAlike.refl _⟩) _
  | get1 k x =>
    simp only [step]; rw [← hdb]
    exact ResRel.bindEq fun a _ => ⟨rfl, h.withDb _⟩
  | has1 k x =>
    simp only [step]; rw [← hdb]
    exact ResRel.bindEq fun a _ => ⟨rfl, h.withDb _⟩
  | insert1 k v =>
    simp only [step]; rw [← hdb]
    exact ResRel.bindEq fun a _ => ⟨rfl, h.withDb _⟩
  | remove1 k =>
    simp only [step]; rw [← hdb]
    exact ResRel.bindEq fun a _ => ⟨rfl, h.withDb _⟩
  | prove1 k x =>
    simp only [step]; rw [← hdb]
    exact ResRel.bindEq fun a _ => ⟨rfl, h.withDb _⟩

/-- A call that only looks leaves a program that is the same but for recorded hashes. -/
theorem quiet_alike {s s' : Sys} {op : Op} {r : Ret} (hq : op.Quiet) (hs : Held s) (e : step E s op = .ok (s', r)) : SysAlike E.H s s' := by
  have same : ∀ {id : Nat} {t t' : Tx}, s.txs id = some t → TxAlike E.H t t' → SysAlike E.H s (s.setTx id (some t')) := fun {id t t'} h1 h2 => by
    refine ⟨rfl, fun i => ?_⟩
    unfold Sys.setTx
    dsimp only
    by_cases hi : i = id
    · simp only [hi, ↓reduceIte, h1]; exact h2
    · simp only [hi, ↓reduceIte]; exact (SysAlike.refl s).2 i
  cases hq with
  | root => cases e; exact SysAlike.refl s
  | txRoot id =>
    obtain ⟨t, e1, e⟩ := Res.bind_eq_ok.1 e
    obtain ⟨⟨t', h⟩, e2, e⟩ := Res.bind_eq_ok.1 e
    obtain ⟨n, e3, e2⟩ := Res.bind_eq_ok.1 e2
    obtain ⟨m, e5, h5⟩ := nodeHash_norm E.H n (hs.txs id t (Sys.tx_some e1) n (Tx.node_some e3))
    rw [e5] at e2
    cases e2; cases e
    refine same (Sys.tx_some e1) ?_
    unfold TxAlike
    rw [Tx.node_some e3]
    exact h5.symm
  | get id k =>
    obtain ⟨t, e1, e⟩ := Res.bind_eq_ok.1 e
    obtain ⟨x, e2, e⟩ := Res.bind_eq_ok.1 e
    cases e; exact SysAlike.refl s
  | has id k =>
    obtain ⟨t, e1, e⟩ := Res.bind_eq_ok.1 e
    obtain ⟨x, e2, e⟩ := Res.bind_eq_ok.1 e
    cases e; exact SysAlike.refl s
  | prove id k =>
    obtain ⟨t, e1, e⟩ := Res.bind_eq_ok.1 e
    obtain ⟨⟨t', x⟩, e2, e⟩ := Res.bind_eq_ok.1 e
    obtain ⟨n, e3, e2⟩ := Res.bind_eq_ok.1 e2
    obtain ⟨⟨pf, m⟩, e4, e2⟩ := Res.bind_eq_ok.1 e2
    have h5 := treeProve_norm e4 (hs.txs id t (Sys.tx_some e1) n (Tx.node_some e3))
    have ht : t' = ⟨some m⟩ := by
      cases pf with
      | none => cases e2; rfl
      | some pf =>
        obtain ⟨size, _, e2⟩ := Res.bind_eq_ok.1 e2
        obtain ⟨raw, _, e2⟩ := Res.bind_eq_ok.1 e2
        split at e2
        · cases e2
        · cases e2; rfl
    subst ht
    cases e
    refine same (Sys.tx_some e1) ?_
    unfold TxAlike
    rw [Tx.node_some e3]
    exact h5.symm

end Urkel
