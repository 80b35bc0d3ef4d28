import Verif.Lemmas.Heap
import Verif.Lemmas.NoErr
/-
The tree operations of Model/Heap.lean do what those of Model/Tree.lean say.
-/
namespace Urkel

theorem own_internal {a al ar : Nat} {h : Option B32} {p : Option Ptr} {pre : Bits} {l r : Node} {m : Nat → Option Cell}
    (hm : (pts a (.internal h p pre al ar) ∗∗ own al l ∗∗ own ar r) m) : own a (.internal h p pre l r) m := ⟨al, ar, hm⟩

theorem own_internal_side {a al ar : Nat} {h : Option B32} {p : Option Ptr} {pre : Bits} {l r : Node} (bit : Bool) {m : Nat → Option Cell}
    (hm : (pts a (.internal h p pre al ar) ∗∗ own (if bit then ar else al) (side l r bit) ∗∗
      own (if bit then al else ar) (side l r (!bit))) m) : own a (.internal h p pre l r) m :=
  own_internal (by rw [own_side bit]; exact hm)

theorem own_put {a al ar : Nat} {h : Option B32} {p : Option Ptr} {pre : Bits} {x y : Node} (bit : Bool) {m : Nat → Option Cell}
    (hm : (pts a (.internal h p pre al ar) ∗∗ own (if bit then ar else al) x ∗∗ own (if bit then al else ar) y) m) :
    own a (if bit then .internal h p pre y x else .internal h p pre x y) m := by
  cases bit with
  | false => exact own_internal hm
  | true =>
    refine own_internal (al := al) (ar := ar) ?_
    rw [sep_comm (own al y)]
    exact hm

/-- The value of a leaf. -/
def ownVal : Option Nat → Option Bytes → SProp
  | none, none => emp
  | some x, some v => pts x (.bytes v)
  | _, _ => lpure False

theorem own_leaf {a : Nat} {h : Option B32} {p : Option Ptr} {k : B32} {v : Option Bytes} {vp : Option Ptr} :
    own a (.leaf h p k v vp) = ex fun av => pts a (.leaf h p k av vp) ∗∗ ownVal av v := by
  funext m
  cases v with
  | none =>
    refine propext ⟨fun hm => ⟨none, ?_⟩, fun ⟨av, hm⟩ => ?_⟩
    · show (_ ∗∗ emp) m
      rw [sep_emp]; exact hm
    · cases av with
      | none =>
        have hm : (_ ∗∗ emp) m := hm
        rw [sep_emp] at hm; exact hm
      | some x =>
        have hm : (_ ∗∗ lpure False) m := hm
        rw [sep_comm] at hm
        have hm : (lpure False ∗∗ _) m := hm
        exact (lpure_sep.1 hm).1.elim
  | some v =>
    refine propext ⟨fun ⟨x, hm⟩ => ⟨some x, hm⟩, fun ⟨av, hm⟩ => ?_⟩
    cases av with
    | some x => exact ⟨x, hm⟩
    | none =>
      have hm : (_ ∗∗ lpure False) m := hm
      rw [sep_comm] at hm
      exact (lpure_sep.1 hm).1.elim

theorem loadValue_spec {av : Option Nat} {v : Option Bytes} {P R : SProp} {β : Type} {Q : β → SProp} {k : Option Bytes → HM β}
    (hP : P = ownVal av v ∗∗ R) (h : Triple P (k v) Q) : Triple P (loadValue av >>= k) Q := by
  have : Triple (ownVal av v) (loadValue av) (fun r => lpure (r = v) ∗∗ ownVal av v) := by
    cases av with
    | none =>
      cases v with
      | none => exact Triple.ret fun m hm => lpure_sep.2 ⟨rfl, hm⟩
      | some v =>
        refine Triple.pre (P' := lpure False ∗∗ emp) (fun m hm => by rw [sep_emp]; exact hm) (Triple.pure_pre fun e => e.elim)
    | some x =>
      cases v with
      | none =>
        refine Triple.pre (P' := lpure False ∗∗ emp) (fun m hm => by rw [sep_emp]; exact hm) (Triple.pure_pre fun e => e.elim)
      | some v =>
        refine loadBytes_spec (R := emp) (sep_emp _).symm ?_
        exact Triple.ret fun m hm => lpure_sep.2 ⟨rfl, hm⟩
  refine Triple.call this hP ?_
  rw [← hP]; exact h

/-! ### Reading nodes -/

/-- Reading the fields of a leaf. -/
theorem hPeek1_leaf {a : Nat} {h : Option B32} {p : Option Ptr} {k : B32} {v : Option Bytes} {vp : Option Ptr} :
    Triple (own a (.leaf h p k v vp)) (hPeek1 a) (fun r => lpure (r = .leaf h p k v vp) ∗∗ own a (.leaf h p k v vp)) := by
  cases v with
  | none =>
    unfold own
    refine Triple.load (by frames) ?_
    exact Triple.ret fun m hm => lpure_sep.2 ⟨rfl, hm⟩
  | some v =>
    unfold own
    refine Triple.ex_pre fun x => ?_
    refine Triple.load (by frames) ?_
    refine loadBytes_spec (by frames) ?_
    exact Triple.ret fun m hm => lpure_sep.2 ⟨rfl, x, hm⟩

theorem hRetrieve_spec {s : Store} {a : Nat} {h : Option B32} {p : Option Ptr} {k : B32} {v : Option Bytes} {vp : Option Ptr}
    {r : Option Bytes} (e : storeRetrieve s v vp = .ok r) :
    Triple (own a (.leaf h p k v vp)) (hRetrieve s a) (fun x => lpure (x = r) ∗∗ own a (.leaf h p k v vp)) := by
  refine Triple.call (R := emp) hPeek1_leaf (sep_emp _).symm ?_
  rw [sep_emp]
  refine Triple.last (Triple.lift e ?_)
  exact Triple.ret fun m hm => lpure_sep.2 ⟨rfl, hm⟩

theorem hResolve_none {A : Alloc} {s : Store} {a : Nat} {h : B32} {p : Ptr} (e : storeResolve s h p = .ok none)
    {β : Type} {P R : SProp} {Q : β → SProp} {k : Option Nat → HM β} (hP : P = pts a (.hash h p) ∗∗ R)
    (hk : Triple P (k none) Q) : Triple P (hResolve A s a >>= k) Q := by
  have : Triple (pts a (.hash h p)) (hResolve A s a) (fun x => lpure (x = none) ∗∗ pts a (.hash h p)) := by
    refine Triple.malloc fun out => ?_
    refine Triple.load (a := a) (by frames) ?_
    refine Triple.lift e ?_
    refine Triple.free (a := out) (by frames) ?_
    exact Triple.ret fun m hm => lpure_sep.2 ⟨rfl, hm⟩
  refine Triple.call this hP ?_
  rw [← hP]; exact hk

theorem hResolve_some {A : Alloc} {s : Store} {a : Nat} {h : B32} {p : Ptr} {n : Node} (e : storeResolve s h p = .ok (some n))
    {β : Type} {P R : SProp} {Q : β → SProp} {k : Option Nat → HM β} (hP : P = pts a (.hash h p) ∗∗ R)
    (hk : ∀ rn, Triple (own rn n ∗∗ P) (k (some rn)) Q) : Triple P (hResolve A s a >>= k) Q := by
  have : Triple (pts a (.hash h p)) (hResolve A s a) (fun x => ex fun rn => lpure (x = some rn) ∗∗ own rn n ∗∗ pts a (.hash h p)) := by
    refine Triple.malloc fun out => ?_
    refine Triple.load (a := a) (by frames) ?_
    refine Triple.lift e ?_
    rcases storeResolve_shape e with ⟨p', pre, hl, pl, hr, pr, rfl⟩ | ⟨p', k', vp, rfl⟩
    · refine Triple.malloc fun l => Triple.malloc fun r => ?_
      refine Triple.update (a := out) (by frames) ?_
      refine Triple.ret fun m hm => ⟨out, lpure_sep.2 ⟨rfl, ?_⟩⟩
      refine sep_mono (fun m hm => own_internal (al := l) (ar := r) hm) ?_
      unfold own
      perm hm
    · refine Triple.update (a := out) (by frames) ?_
      refine Triple.ret fun m hm => ⟨out, lpure_sep.2 ⟨rfl, ?_⟩⟩
      unfold own
      perm hm
  refine Triple.bind this hP fun x => ?_
  rw [ex_sep]
  refine Triple.ex_pre fun rn => ?_
  rw [sep_assoc]
  refine Triple.pure_pre fun hx => ?_
  rw [hx, sep_assoc, ← hP]
  exact hk rn

/-- Freeing a tree in the middle of a program. -/
theorem Triple.destroy {a : Nat} {n : Node} {β : Type} {P R : SProp} {Q : β → SProp} {k : Unit → HM β} (hP : P = own a n ∗∗ R)
    (hk : Triple R (k ()) Q) : Triple P (hDestroy a >>= k) Q := by
  refine Triple.bind hDestroy_spec hP fun _ => ?_
  rw [emp_sep]; exact hk

theorem Triple.freeNode {a : Nat} {P0 : SProp} {β : Type} {P R : SProp} {Q : β → SProp} {k : Unit → HM β}
    (h0 : Triple P0 (hFree a) (fun _ => emp)) (hP : P = P0 ∗∗ R) (hk : Triple R (k ()) Q) : Triple P (hFree a >>= k) Q := by
  refine Triple.bind h0 hP fun _ => ?_
  rw [emp_sep]; exact hk

theorem Triple.split {α : Type} {P P' : SProp} {Q : α → SProp} {m : HM α} (h : P = P') (t : Triple P' m Q) : Triple P m Q := h ▸ t

/-! ### urkel_tree_get -/

theorem hGet_spec {A : Alloc} {s : Store} {key : B32} {want : Bool} : ∀ (fuel : Nat) (n : Node) (a depth : Nat) (r : Except Err Bytes),
    catchErr (treeGet s key want fuel n depth) = .ok r →
    Triple (own a n) (hGet A s key want fuel a depth) (fun x => lpure (x = r) ∗∗ own a n) := by
  intro fuel
  induction fuel with
  | zero => intro n a depth r e; cases e
  | succ fuel ih =>
    intro n a depth r e
    cases n with
    | null =>
      cases e
      unfold own
      refine Triple.load (by frames) ?_
      exact Triple.ret fun m hm => lpure_sep.2 ⟨rfl, hm⟩
    | internal hs p pre l r' =>
      unfold treeGet at e
      dsimp only at e
      obtain ⟨has, e1, e⟩ := catch_bind e (bitsHas_ne _ _ _)
      unfold own
      refine Triple.ex_pre fun al => Triple.ex_pre fun ar => ?_
      refine Triple.load (by frames) ?_
      refine Triple.lift e1 ?_
      cases has with
      | false =>
        cases e
        exact Triple.ret fun m hm => lpure_sep.2 ⟨rfl, al, ar, hm⟩
      | true =>
        obtain ⟨bit, e2, e⟩ := catch_bind e (getBit_ne _ _)
        refine Triple.lift e2 ?_
        refine Triple.split (own_side bit) ?_
        refine Triple.last (Triple.call (ih _ _ _ _ e) (by frames) ?_)
        refine Triple.ret fun m hm => lpure_sep.2 ⟨rfl, own_internal_side (al := al) (ar := ar) bit ?_⟩
        perm hm
    | leaf hs p k v vp =>
      have hl : Triple (own a (.leaf hs p k v vp))
          (if k ≠ key then pure (.error .ENOTFOUND)
            else if want then do
              match ← hRetrieve s a with
              | none => pure (.error .ECORRUPTION)
              | some x => pure (.ok x)
            else pure (.ok []) : HM (Except Err Bytes)) (fun x => lpure (x = r) ∗∗ own a (.leaf hs p k v vp)) := by
        unfold treeGet at e
        dsimp only at e
        by_cases hk : k = key
        · rw [if_neg (not_not.2 hk)] at e ⊢
          cases want with
          | false =>
            cases e
            exact Triple.ret fun m hm => lpure_sep.2 ⟨rfl, hm⟩
          | true =>
            rw [if_pos rfl] at e ⊢
            obtain ⟨o, e1, e⟩ := catch_bind e (storeRetrieve_ne _ _ _)
            refine Triple.call (R := emp) (hRetrieve_spec e1) (sep_emp _).symm ?_
            rw [sep_emp]
            cases o with
            | none => cases e; exact Triple.ret fun m hm => lpure_sep.2 ⟨rfl, hm⟩
            | some o => cases e; exact Triple.ret fun m hm => lpure_sep.2 ⟨rfl, hm⟩
        · rw [if_pos hk] at e ⊢
          cases e
          exact Triple.ret fun m hm => lpure_sep.2 ⟨rfl, hm⟩
      cases v with
      | none =>
        unfold own at hl ⊢
        refine Triple.load (by frames) ?_
        exact hl
      | some v =>
        unfold own at hl ⊢
        refine Triple.ex_pre fun x => ?_
        refine Triple.load (by frames) ?_
        exact Triple.pre (fun m hm => ⟨x, hm⟩) hl
    | hash h p =>
      unfold treeGet at e
      dsimp only at e
      obtain ⟨o, e1, e⟩ := catch_bind e (storeResolve_ne _ _ _)
      unfold own
      refine Triple.load (by frames) ?_
      cases o with
      | none =>
        cases e
        refine hResolve_none e1 (by frames) ?_
        exact Triple.ret fun m hm => lpure_sep.2 ⟨rfl, hm⟩
      | some n =>
        refine hResolve_some e1 (by frames) fun rn => ?_
        refine Triple.call (ih _ _ _ _ e) (by frames) ?_
        refine Triple.destroy (n := n) (by frames) ?_
        exact Triple.ret fun m hm => lpure_sep.2 ⟨rfl, hm⟩

/-! ### urkel_tree_insert -/

/-- A new root, or an error and the old one. -/
def hOut (a : Nat) (n : Node) (r : Except Err Node) (x : Except Err Nat) : SProp := match r with
  | .ok n' => ex fun a' => lpure (x = .ok a') ∗∗ own a' n'
  | .error e => lpure (x = .error e) ∗∗ own a n

theorem hOut_ok {a a' : Nat} {n n' : Node} {m : Nat → Option Cell} (h : own a' n' m) : hOut a n (.ok n') (.ok a') m :=
  ⟨a', lpure_sep.2 ⟨rfl, h⟩⟩

theorem hOut_err {a : Nat} {n : Node} {e : Err} {m : Nat → Option Cell} (h : own a n m) : hOut a n (.error e) (.error e) m :=
  lpure_sep.2 ⟨rfl, h⟩

/-- A call that returns a new root. -/
theorem Triple.root {m : HM (Except Err Nat)} {a : Nat} {n n' : Node} (h : Triple (own a n) m (hOut a n (.ok n')))
    {β : Type} {P R : SProp} {Q : β → SProp} {k : Except Err Nat → HM β} (hP : P = own a n ∗∗ R)
    (hk : ∀ a', Triple (own a' n' ∗∗ R) (k (.ok a')) Q) : Triple P (m >>= k) Q := by
  refine Triple.bind h hP fun x => ?_
  unfold hOut
  rw [ex_sep]
  refine Triple.ex_pre fun a' => ?_
  rw [sep_assoc]
  exact Triple.pure_pre fun e => by rw [e]; exact hk a'

theorem Triple.failed {m : HM (Except Err Nat)} {a : Nat} {n : Node} {e : Err} (h : Triple (own a n) m (hOut a n (.error e)))
    {β : Type} {P R : SProp} {Q : β → SProp} {k : Except Err Nat → HM β} (hP : P = own a n ∗∗ R)
    (hk : Triple P (k (.error e)) Q) : Triple P (m >>= k) Q := by
  refine Triple.call h hP ?_
  rw [← hP]; exact hk

theorem hInsert_spec {A : Alloc} {E : Env} {s : Store} {key : B32} {value : Bytes} : ∀ (fuel : Nat) (n : Node) (a depth : Nat) (r : Except Err Node),
    catchErr (treeInsert E s key value fuel n depth) = .ok r →
    Triple (own a n) (hInsert A E s key value fuel a depth) (hOut a n r) := by
  intro fuel
  induction fuel with
  | zero => intro n a depth r e; cases e
  | succ fuel ih =>
    intro n a depth r e
    cases n with
    | null =>
      cases e
      unfold own
      refine Triple.load (by frames) ?_
      refine Triple.freeNode hFree_null (by frames) ?_
      refine hCreateLeaf_spec fun leaf => ?_
      exact Triple.ret fun m hm => hOut_ok (by rwa [sep_emp] at hm)
    | internal hs p pre l r' =>
      unfold treeInsert at e
      dsimp only at e
      obtain ⟨bits, e1, e⟩ := catch_bind e (bitsCount_ne _ _ _)
      obtain ⟨bit, e2, e⟩ := catch_bind e (getBit_ne _ _)
      unfold own
      refine Triple.ex_pre fun al => Triple.ex_pre fun ar => ?_
      refine Triple.load (by frames) ?_
      refine Triple.lift e1 ?_
      refine Triple.lift e2 ?_
      by_cases hb : bits = pre.size
      · rw [if_neg (not_not.2 hb)] at e ⊢
        refine Triple.split (own_side bit) ?_
        rcases catch_bind' e with ⟨er, e3, rfl⟩ | ⟨z, e3, e⟩
        · refine Triple.failed (ih _ _ _ (.error er) (by rw [e3]; rfl)) (by frames) ?_
          exact Triple.ret fun m hm => hOut_err (own_internal_side bit hm)
        · cases e
          refine Triple.root (ih _ _ _ (.ok z) (by rw [e3]; rfl)) (by frames) fun a' => ?_
          refine hCreateInternal_spec fun out => ?_
          refine Triple.freeNode (a := a) hFree_internal (by frames) ?_
          refine Triple.ret fun m hm => hOut_ok (own_create (x := a') (y := if bit then al else ar) ?_)
          perm hm
      · rw [if_pos hb] at e ⊢
        obtain ⟨⟨front, back⟩, e3, e⟩ := catch_bind e (bitsSplit_ne _ _)
        cases e
        refine hCreateLeaf_spec fun leaf => ?_
        refine Triple.lift e3 ?_
        refine hCreateInternal_spec fun child => ?_
        refine hCreateInternal_spec fun out => ?_
        refine Triple.freeNode (a := a) hFree_internal (by frames) ?_
        refine Triple.ret fun m hm => hOut_ok (own_create (y := child) (x := leaf) ?_)
        have hc : ∀ m, (pts child (.internal none none back al ar) ∗∗ own al l ∗∗ own ar r') m → own child (createInternal back l r' false) m :=
          fun m hm => ⟨al, ar, hm⟩
        have := sep_mono (Q := pts out (if bit then .internal none none front child leaf else .internal none none front leaf child) ∗∗
          own leaf (createLeaf E.H key value)) hc (m := m) (by perm hm)
        perm this
    | leaf hs p k v vp =>
      unfold treeInsert at e
      dsimp only at e
      refine Triple.split own_leaf ?_
      refine Triple.ex_pre fun av => ?_
      have back : ∀ m, (pts a (.leaf hs p k av vp) ∗∗ ownVal av v) m → own a (.leaf hs p k v vp) m := fun m hm => by
        rw [own_leaf]; exact ⟨av, hm⟩
      refine Triple.load (by frames) ?_
      by_cases hk : k = key
      · rw [if_pos hk] at e
        dsimp only
        rw [if_pos hk]
        refine loadValue_spec (by frames) ?_
        by_cases hv : valueEquals v value = true
        · rw [if_pos hv] at e ⊢
          cases e
          exact Triple.ret fun m hm => hOut_err (back m hm)
        · rw [if_neg hv] at e ⊢
          cases e
          refine hCreateLeaf_spec fun leaf => ?_
          refine Triple.freeNode (Triple.pre back hFree_leaf) (by frames) ?_
          exact Triple.ret fun m hm => hOut_ok hm
      · rw [if_neg hk] at e
        dsimp only
        rw [if_neg hk]
        obtain ⟨pre, e1, e⟩ := catch_bind e (bitsCollide_ne _ _ _)
        obtain ⟨bit, e2, e⟩ := catch_bind e (getBit_ne _ _)
        cases e
        refine Triple.lift e1 ?_
        refine hCreateLeaf_spec fun leaf => ?_
        refine Triple.lift e2 ?_
        refine hCreateInternal_spec fun out => ?_
        refine Triple.ret fun m hm => hOut_ok (own_create (y := a) (x := leaf) ?_)
        have := sep_mono (Q := pts out (if bit then .internal none none pre a leaf else .internal none none pre leaf a) ∗∗
          own leaf (createLeaf E.H key value)) back (m := m) (by perm hm)
        perm this
    | hash h p =>
      unfold treeInsert at e
      dsimp only at e
      obtain ⟨o, e1, e⟩ := catch_bind e (storeResolve_ne _ _ _)
      unfold own
      refine Triple.load (by frames) ?_
      cases o with
      | none =>
        cases e
        refine hResolve_none e1 (by frames) ?_
        exact Triple.ret fun m hm => hOut_err hm
      | some n =>
        refine hResolve_some e1 (by frames) fun rn => ?_
        have hi := ih n rn _ _ e
        cases r with
        | ok z =>
          refine Triple.root hi (by frames) fun a' => ?_
          refine Triple.freeNode (a := a) hFree_hash (by frames) ?_
          exact Triple.ret fun m hm => hOut_ok hm
        | error er =>
          refine Triple.failed hi (by frames) ?_
          refine Triple.destroy (n := n) (by frames) ?_
          exact Triple.ret fun m hm => hOut_err hm

/-! ### urkel_tree_remove -/

/-- The sibling, loaded. -/
def sib (s : Store) : Node → Res Node
  | .hash h p => do
    let r ← storeResolve s h p
    match r with
    | none => .abort
    | some n => pure n
  | y => pure y

/-- The sibling with the longer prefix. -/
def mrg (pre : Bits) (bit : Bool) : Node → Res Node
  | .internal _ _ spre sl sr => do
    let j ← bitsJoin pre spre (!bit)
    pure (createInternal j sl sr false)
  | sd => pure sd

/-- The loaded sibling, and the HASH node that is still there. -/
theorem hSibling_spec {A : Alloc} {s : Store} {y : Nat} {ny sd : Node} (e : sib s ny = .ok sd) :
    Triple (own y ny) (hSibling A s y) (fun x => own x.1 sd ∗∗ (if x.2 then ex fun h => ex fun p => pts y (.hash h p) else lpure (x.1 = y))) := by
  have keep : ∀ m, own y sd m → (fun x : Nat × Bool => own x.1 sd ∗∗
      (if x.2 then ex fun h => ex fun p => pts y (.hash h p) else lpure (x.1 = y))) (y, false) m := by
    intro m hm
    show (own y sd ∗∗ lpure (y = y)) m
    rw [sep_comm]
    exact lpure_sep.2 ⟨rfl, hm⟩
  cases ny with
  | hash h p =>
    obtain ⟨o, e1, e⟩ := Res.bind_eq_ok.1 e
    cases o with
    | none => cases e
    | some n =>
      cases e
      refine Triple.split (P' := pts y (.hash h p)) rfl ?_
      refine Triple.load (by frames) ?_
      refine hResolve_some e1 (by frames) fun rn => ?_
      refine Triple.ret fun m hm => ?_
      show (own rn sd ∗∗ ex fun h => ex fun p => pts y (.hash h p)) m
      rw [sep_comm] at hm ⊢
      exact sep_mono (fun m hm => ⟨h, p, hm⟩) hm
  | null =>
    cases e
    refine Triple.split (P' := pts y .null) rfl ?_
    refine Triple.load (by frames) ?_
    exact Triple.ret keep
  | leaf h p k v vp =>
    cases e
    refine Triple.split own_leaf ?_
    refine Triple.ex_pre fun av => ?_
    refine Triple.load (by frames) ?_
    exact Triple.ret fun m hm => keep m (by rw [own_leaf]; exact ⟨av, hm⟩)
  | internal h p pre l r =>
    cases e
    refine Triple.ex_pre fun al => Triple.ex_pre fun ar => ?_
    refine Triple.load (by frames) ?_
    exact Triple.ret fun m hm => keep m (own_internal hm)

theorem hMerge_spec {A : Alloc} {x : Nat} {sd n' : Node} {pre : Bits} {bit : Bool} (e : mrg pre bit sd = .ok n') :
    Triple (own x sd) (hMerge A x pre bit) (fun out => own out n') := by
  cases sd with
  | hash h p =>
    cases e
    refine Triple.split (P' := pts x (.hash h p)) rfl ?_
    refine Triple.load (by frames) ?_
    exact Triple.ret fun _ h => h
  | null =>
    cases e
    refine Triple.split (P' := pts x .null) rfl ?_
    refine Triple.load (by frames) ?_
    exact Triple.ret fun _ h => h
  | leaf h p k v vp =>
    cases e
    refine Triple.split own_leaf ?_
    refine Triple.ex_pre fun av => ?_
    refine Triple.load (by frames) ?_
    exact Triple.ret fun m hm => by rw [own_leaf]; exact ⟨av, hm⟩
  | internal h p spre l r =>
    obtain ⟨j, e1, e⟩ := Res.bind_eq_ok.1 e
    cases e
    refine Triple.ex_pre fun al => Triple.ex_pre fun ar => ?_
    refine Triple.load (by frames) ?_
    refine Triple.lift e1 ?_
    refine hCreateInternal_spec fun out => ?_
    refine Triple.freeNode (a := x) hFree_internal (by frames) ?_
    refine Triple.ret fun m hm => own_create (x := al) (y := ar) (bit := false) ?_
    perm hm

/-- The sibling in its place; the branch, the null node and the unresolved sibling are
gone. -/
theorem hCollapse_spec {A : Alloc} {s : Store} {a y z : Nat} {ny sd n' : Node} {hs : Option B32} {p : Option Ptr} {pre : Bits} {x1 x2 : Nat} {bit : Bool}
    (e1 : sib s ny = .ok sd) (e2 : mrg pre bit sd = .ok n') :
    Triple (pts a (.internal hs p pre x1 x2) ∗∗ own y ny ∗∗ pts z .null) (hCollapse A s a y z pre bit) (fun out => own out n') := by
  refine Triple.bind (hSibling_spec e1) (by frames) fun ⟨x, resolved⟩ => ?_
  refine Triple.bind (hMerge_spec (A := A) (x := x) e2) (by frames) fun out => ?_
  refine Triple.freeNode (a := a) hFree_internal (by frames) ?_
  cases resolved with
  | true =>
    refine Triple.split (P' := (ex fun h => ex fun p => pts y (.hash h p)) ∗∗ (own out n' ∗∗ pts z .null)) ?_ ?_
    · simp only [↓reduceIte]
      ac_rfl
    rw [ex_sep]
    refine Triple.ex_pre fun h => ?_
    rw [ex_sep]
    refine Triple.ex_pre fun p => ?_
    refine Triple.freeNode (a := y) hFree_hash (by frames) ?_
    refine Triple.freeNode (a := z) hFree_null (by frames) ?_
    exact Triple.ret fun _ h => h
  | false =>
    refine Triple.split (P' := lpure (x = y) ∗∗ (own out n' ∗∗ pts z .null)) ?_ ?_
    · simp only [Bool.false_eq_true, ↓reduceIte]
      ac_rfl
    refine Triple.pure_pre fun _ => ?_
    refine Triple.freeNode (a := z) hFree_null (by frames) ?_
    exact Triple.ret fun _ h => h

theorem hRemove_spec {A : Alloc} {s : Store} {key : B32} : ∀ (fuel : Nat) (n : Node) (a depth : Nat) (r : Except Err Node),
    catchErr (treeRemove s key fuel n depth) = .ok r → Triple (own a n) (hRemove A s key fuel a depth) (hOut a n r) := by
  intro fuel
  induction fuel with
  | zero => intro n a depth r e; cases e
  | succ fuel ih =>
    intro n a depth r e
    cases n with
    | null =>
      cases e
      unfold own
      refine Triple.load (by frames) ?_
      exact Triple.ret fun m hm => hOut_err hm
    | internal hs p pre l r' =>
      unfold treeRemove at e
      dsimp only at e
      obtain ⟨has, e1, e⟩ := catch_bind e (bitsHas_ne _ _ _)
      unfold own
      refine Triple.ex_pre fun al => Triple.ex_pre fun ar => ?_
      refine Triple.load (by frames) ?_
      refine Triple.lift e1 ?_
      cases has with
      | false =>
        cases e
        exact Triple.ret fun m hm => hOut_err (own_internal hm)
      | true =>
        obtain ⟨bit, e2, e⟩ := catch_bind e (getBit_ne _ _)
        refine Triple.lift e2 ?_
        refine Triple.split (own_side bit) ?_
        rcases catch_bind' e with ⟨er, e3, rfl⟩ | ⟨z, e3, e⟩
        · refine Triple.failed (ih _ _ _ (.error er) (by rw [e3]; rfl)) (by frames) ?_
          exact Triple.ret fun m hm => hOut_err (own_internal_side bit hm)
        · refine Triple.root (ih _ _ _ (.ok z) (by rw [e3]; rfl)) (by frames) fun a' => ?_
          have hnode : z ≠ .null → r = .ok (createInternal pre z (side l r' (!bit)) bit) →
              Triple (own a' z ∗∗ pts a (.internal hs p pre al ar) ∗∗ own (if bit then al else ar) (side l r' (!bit)))
                (do
                  let out ← hCreateInternal A pre a' (if bit then al else ar) bit
                  hFree a
                  pure (.ok out)) (hOut a (.internal hs p pre l r') r) := by
            intro _ hr
            rw [hr]
            refine hCreateInternal_spec fun out => ?_
            refine Triple.freeNode (a := a) hFree_internal (by frames) ?_
            refine Triple.ret fun m hm => hOut_ok (own_create (x := a') (y := if bit then al else ar) ?_)
            perm hm
          cases z with
          | null =>
            refine Triple.load (a := a') (P := pts a' .null ∗∗ _) (by frames) ?_
            refine Triple.split (P' := pts a' .null ∗∗ _) rfl ?_
            have e' : catchErr (sib s (side l r' (!bit)) >>= mrg pre bit) = .ok r := by
              rw [← e]
              dsimp only
              cases side l r' (!bit) with
              | hash h q =>
                show catchErr ((storeResolve s h q >>= _) >>= _) = catchErr (storeResolve s h q >>= _)
                cases storeResolve s h q with
                | ok o => cases o <;> rfl
                | _ => rfl
              | _ => rfl
            obtain ⟨sd, e4, e6⟩ := catch_bind e' (by
              cases side l r' (!bit) with
              | hash h q => exact (storeResolve_ne _ _ _).bind fun o => by cases o; exacts [.abort, .ok _]
              | _ => exact .ok _)
            obtain ⟨n', e5, rfl⟩ := catch_cases e6 (by
              cases sd with
              | internal => exact (bitsJoin_ne _ _ _).bind fun _ => .ok _
              | _ => exact .ok _)
            refine Triple.bind (hCollapse_spec (A := A) (a := a) (z := a') e4 e5) (by frames) fun out => ?_
            exact Triple.ret fun m hm => hOut_ok (by rwa [sep_emp] at hm)
          | leaf h2 p2 k2 v2 vp2 =>
            cases e
            refine Triple.split (congrArg (· ∗∗ _) own_leaf) ?_
            rw [ex_sep]
            refine Triple.ex_pre fun av => ?_
            rw [sep_assoc]
            refine Triple.load (a := a') (by frames) ?_
            refine Triple.pre (fun m hm => ?_) (hnode (fun h => nomatch h) rfl)
            rw [own_leaf, ex_sep]
            refine ⟨av, ?_⟩
            perm hm
          | hash h2 p2 =>
            cases e
            refine Triple.load (a := a') (P := pts a' (.hash h2 p2) ∗∗ _) (by frames) ?_
            exact hnode (fun h => nomatch h) rfl
          | internal h2 p2 pre2 l2 r2 =>
            cases e
            refine Triple.split (P' := (ex fun al => ex fun ar => pts a' (.internal h2 p2 pre2 al ar) ∗∗ own al l2 ∗∗ own ar r2) ∗∗ _) rfl ?_
            rw [ex_sep]
            refine Triple.ex_pre fun bl => ?_
            rw [ex_sep]
            refine Triple.ex_pre fun br => ?_
            rw [sep_assoc]
            refine Triple.load (a := a') (by frames) ?_
            refine Triple.pre (fun m hm => ?_) (hnode (fun h => nomatch h) rfl)
            refine sep_mono (fun m hm => own_internal (al := bl) (ar := br) hm) ?_
            rw [sep_assoc]; exact hm
    | leaf hs p k v vp =>
      unfold treeRemove at e
      dsimp only at e
      refine Triple.split own_leaf ?_
      refine Triple.ex_pre fun av => ?_
      have back : ∀ m, (pts a (.leaf hs p k av vp) ∗∗ ownVal av v) m → own a (.leaf hs p k v vp) m := fun m hm => by
        rw [own_leaf]; exact ⟨av, hm⟩
      refine Triple.load (by frames) ?_
      dsimp only
      by_cases hk : k = key
      · rw [if_neg (not_not.2 hk)] at e ⊢
        cases e
        refine Triple.freeNode (R := emp) (Triple.pre back hFree_leaf) (sep_emp _).symm ?_
        refine Triple.malloc fun n => ?_
        exact Triple.ret fun m hm => hOut_ok (by rwa [sep_emp] at hm)
      · rw [if_pos hk] at e ⊢
        cases e
        exact Triple.ret fun m hm => hOut_err (back m hm)
    | hash h p =>
      unfold treeRemove at e
      dsimp only at e
      obtain ⟨o, e1, e⟩ := catch_bind e (storeResolve_ne _ _ _)
      unfold own
      refine Triple.load (by frames) ?_
      cases o with
      | none =>
        cases e
        refine hResolve_none e1 (by frames) ?_
        exact Triple.ret fun m hm => hOut_err hm
      | some n =>
        refine hResolve_some e1 (by frames) fun rn => ?_
        have hi := ih n rn _ _ e
        cases r with
        | ok z =>
          refine Triple.root hi (by frames) fun a' => ?_
          refine Triple.freeNode (a := a) hFree_hash (by frames) ?_
          exact Triple.ret fun m hm => hOut_ok hm
        | error er =>
          refine Triple.failed hi (by frames) ?_
          refine Triple.destroy (n := n) (by frames) ?_
          exact Triple.ret fun m hm => hOut_err hm

/-! ### urkel_tree_prove -/

/-- The nodes of a proof. -/
def ownP : List Nat → List PNode → SProp
  | [], [] => emp
  | a :: as, n :: ns => pts a (.pnode n) ∗∗ ownP as ns
  | _, _ => lpure False

/-- What the nodes `ns` and the result of the heap program say about a proof. -/
def ProofIs (o : Option Proof) (ns : List PNode) (x : Except Err (Nat × PBody)) : Prop := match o with
  | some pf => x = .ok (pf.depth, pf.body) ∧ ns = pf.nodes
  | none => x = .error .ECORRUPTION

/-- A proof or an error, and the tree with the hashes recorded. -/
def hProof (a : Nat) (r : Option Proof × Node) (x : List Nat × Except Err (Nat × PBody)) : SProp :=
  ex fun ns => lpure (ProofIs r.1 ns x.2) ∗∗ ownP x.1 ns ∗∗ own a r.2

theorem hProof_intro {a : Nat} {o : Option Proof} {n' : Node} {as : List Nat} {ns : List PNode} {x : Except Err (Nat × PBody)} {m : Nat → Option Cell}
    (hp : ProofIs o ns x) (h : (ownP as ns ∗∗ own a n') m) : hProof a (o, n') (as, x) m := ⟨ns, lpure_sep.2 ⟨hp, h⟩⟩

theorem hProof_nil {a : Nat} {o : Option Proof} {n' : Node} {x : Except Err (Nat × PBody)} {m : Nat → Option Cell}
    (hp : ProofIs o [] x) (h : own a n' m) : hProof a (o, n') ([], x) m :=
  hProof_intro (ns := []) hp (by rw [show ownP [] [] = emp from rfl, emp_sep]; exact h)

theorem hProve_spec {A : Alloc} {E : Env} {s : Store} {key : B32} : ∀ (fuel : Nat) (n : Node) (a depth pushed : Nat) (r : Option Proof × Node),
    treeProve E s key fuel n depth pushed = .ok r → Triple (own a n) (hProve A E s key fuel a depth pushed) (hProof a r) := by
  intro fuel
  induction fuel with
  | zero => intro n a depth pushed r e; cases e
  | succ fuel ih =>
    intro n a depth pushed r e
    cases n with
    | null =>
      cases e
      refine Triple.load (a := a) (P := pts a .null) (by frames) ?_
      exact Triple.ret fun m hm => hProof_nil ⟨rfl, rfl⟩ hm
    | internal hs p pre l r' =>
      unfold treeProve at e
      dsimp only at e
      obtain ⟨has, e1, e⟩ := Res.bind_eq_ok.1 e
      refine Triple.ex_pre fun al => Triple.ex_pre fun ar => ?_
      refine Triple.load (by frames) ?_
      refine Triple.lift e1 ?_
      cases has with
      | false =>
        obtain ⟨⟨hl, l'⟩, e2, e⟩ := Res.bind_eq_ok.1 e
        obtain ⟨⟨hr, r''⟩, e3, e⟩ := Res.bind_eq_ok.1 e
        cases e
        refine Triple.call (hHash_spec (a := al) e2) (by frames) ?_
        refine Triple.call (hHash_spec (a := ar) e3) (by frames) ?_
        refine Triple.ret fun m hm => hProof_nil ⟨rfl, rfl⟩ ?_
        refine own_internal (al := al) (ar := ar) ?_
        perm hm
      | true =>
        obtain ⟨bit, e2, e⟩ := Res.bind_eq_ok.1 e
        obtain ⟨⟨hy, y⟩, e3, e⟩ := Res.bind_eq_ok.1 e
        obtain ⟨_, e4, e⟩ := Res.bind_eq_ok.1 e
        obtain ⟨⟨pf, x⟩, e5, e⟩ := Res.bind_eq_ok.1 e
        cases e
        refine Triple.lift e2 ?_
        refine Triple.split (own_side bit) ?_
        refine Triple.call (hHash_spec (a := if bit then al else ar) e3) (by frames) ?_
        refine Triple.malloc fun n => ?_
        refine Triple.lift e4 ?_
        refine Triple.bind (ih _ (if bit then ar else al) _ _ (pf, x) e5) (by frames) fun ⟨ns, ret⟩ => ?_
        unfold hProof
        rw [ex_sep]
        refine Triple.ex_pre fun pns => ?_
        rw [sep_assoc]
        refine Triple.pure_pre fun hret => ?_
        refine Triple.ret fun m hm => ?_
        refine ⟨⟨pre, hy⟩ :: pns, lpure_sep.2 ⟨?_, ?_⟩⟩
        · cases pf with
          | none => exact hret
          | some pf => exact ⟨hret.1, by rw [hret.2]⟩
        show ((pts n (.pnode ⟨pre, hy⟩) ∗∗ ownP ns pns) ∗∗ own a _) m
        rw [sep_comm]
        refine sep_mono (P := pts a (.internal hs p pre al ar) ∗∗ own (if bit then ar else al) x ∗∗ own (if bit then al else ar) y)
          (fun m hm => own_put bit hm) ?_
        perm hm
    | leaf hs p k v vp =>
      unfold treeProve at e
      dsimp only at e
      obtain ⟨o, e1, e⟩ := Res.bind_eq_ok.1 e
      refine Triple.split own_leaf ?_
      refine Triple.ex_pre fun av => ?_
      have back : ∀ m, (pts a (.leaf hs p k av vp) ∗∗ ownVal av v) m → own a (.leaf hs p k v vp) m := fun m hm => by
        rw [own_leaf]; exact ⟨av, hm⟩
      refine Triple.load (by frames) ?_
      dsimp only
      refine Triple.call (R := emp) (Triple.pre back (hRetrieve_spec e1)) (sep_emp _).symm ?_
      rw [sep_emp]
      cases o with
      | none =>
        cases e
        exact Triple.ret fun m hm => hProof_nil rfl hm
      | some x =>
        dsimp only at e
        by_cases hk : k = key
        · rw [if_pos hk] at e
          cases e
          refine Triple.ret fun m hm => ?_
          rw [if_pos hk]
          exact hProof_nil ⟨rfl, rfl⟩ hm
        · rw [if_neg hk] at e
          cases e
          refine Triple.ret fun m hm => ?_
          rw [if_neg hk]
          exact hProof_nil ⟨rfl, rfl⟩ hm
    | hash h p =>
      unfold treeProve at e
      dsimp only at e
      obtain ⟨o, e1, e⟩ := Res.bind_eq_ok.1 e
      refine Triple.load (a := a) (P := pts a (.hash h p)) (by frames) ?_
      refine Triple.split (P' := pts a (.hash h p)) rfl ?_
      cases o with
      | none =>
        cases e
        refine hResolve_none e1 (by frames) ?_
        exact Triple.ret fun m hm => hProof_nil rfl hm
      | some n =>
        obtain ⟨⟨pf, x⟩, e5, e⟩ := Res.bind_eq_ok.1 e
        cases e
        refine hResolve_some e1 (by frames) fun rn => ?_
        refine Triple.bind (ih _ rn _ _ (pf, x) e5) (by frames) fun ⟨ns, ret⟩ => ?_
        unfold hProof
        rw [ex_sep]
        refine Triple.ex_pre fun pns => ?_
        rw [sep_assoc]
        refine Triple.pure_pre fun hret => ?_
        refine Triple.destroy (n := x) (by frames) ?_
        exact Triple.ret fun m hm => ⟨pns, lpure_sep.2 ⟨hret, hm⟩⟩

end Urkel
