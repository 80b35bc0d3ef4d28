import Verif.Lemmas.HeapTree
/-
Writing and committing a tree in Model/Heap.lean.
-/
namespace Urkel

/-- A node without children in memory: what the store keeps as a root. -/
def Flat : Node → Prop
  | .null => True
  | .hash _ _ => True
  | _ => False

theorem toHash_flat {n o : Node} (e : toHash n = .ok o) : Flat o := by
  cases n with
  | null => cases e; trivial
  | hash h p => cases e; trivial
  | internal h p pre l r => cases h <;> cases p <;> cases e; trivial
  | leaf h p k v vp => cases h <;> cases p <;> cases e; trivial

theorem flushAndHash_flat {E : Env} {s s' : Store} {n n' : Node} {w : Bool} (e : flushAndHash E s n w = .ok (s', some n')) : Flat n' := by
  unfold flushAndHash at e
  have : ∀ x : Store × Bool, (if !x.2 then pure (x.1, none) else do
      let (_, n) ← nodeHash E.H n
      let o ← toHash n
      pure (x.1, some o) : Res (Store × Option Node)) = .ok (s', some n') → Flat n' := by
    intro x e
    split at e
    · cases e
    · obtain ⟨⟨_, n1⟩, _, e⟩ := Res.bind_eq_ok.1 e
      obtain ⟨o, e1, e⟩ := Res.bind_eq_ok.1 e
      cases e
      exact toHash_flat e1
  split at e
  · obtain ⟨x, _, e⟩ := Res.bind_eq_ok.1 e
    exact this x e
  · exact this (s, true) e

theorem treeWrite_flat {E : Env} {n n' : Node} {s s' : Store} (e : treeWrite E n s = .ok (s', some n')) : Flat n' := by
  cases n with
  | null => cases e; trivial
  | hash h p => cases e; trivial
  | leaf h p k v vp =>
    unfold treeWrite at e
    cases p with
    | some p => exact flushAndHash_flat e
    | none =>
      obtain ⟨⟨_, _⟩, _, e⟩ := Res.bind_eq_ok.1 e
      obtain ⟨⟨_, _⟩, _, e⟩ := Res.bind_eq_ok.1 e
      exact flushAndHash_flat e
  | internal h p pre l r =>
    unfold treeWrite at e
    obtain ⟨⟨_, l'⟩, _, e⟩ := Res.bind_eq_ok.1 e
    cases l' with
    | none => cases e
    | some l' =>
      obtain ⟨⟨_, r'⟩, _, e⟩ := Res.bind_eq_ok.1 e
      cases r' with
      | none => cases e
      | some r' =>
        dsimp only at e
        cases p with
        | some p => exact flushAndHash_flat e
        | none =>
          obtain ⟨⟨_, _⟩, _, e⟩ := Res.bind_eq_ok.1 e
          exact flushAndHash_flat e

/-! ### Parts of nodes -/

theorem hPeek1_flat {a : Nat} {n : Node} (hn : Flat n) : Triple (own a n) (hPeek1 a) (fun r => lpure (r = n) ∗∗ own a n) := by
  cases n with
  | null =>
    refine Triple.load (a := a) (P := pts a .null) (by frames) ?_
    exact Triple.ret fun m hm => lpure_sep.2 ⟨rfl, hm⟩
  | hash h p =>
    refine Triple.load (a := a) (P := pts a (.hash h p)) (by frames) ?_
    exact Triple.ret fun m hm => lpure_sep.2 ⟨rfl, hm⟩
  | leaf => exact hn.elim
  | internal => exact hn.elim

theorem hPeek_internal {a al ar : Nat} {h : Option B32} {p : Option Ptr} {pre : Bits} {l r : Node} (hl : Flat l) (hr : Flat r) :
    Triple (pts a (.internal h p pre al ar) ∗∗ own al l ∗∗ own ar r) (hPeek a)
      (fun x => lpure (x = .internal h p pre l r) ∗∗ pts a (.internal h p pre al ar) ∗∗ own al l ∗∗ own ar r) := by
  refine Triple.load (by frames) ?_
  refine Triple.call (hPeek1_flat (a := al) hl) (by frames) ?_
  refine Triple.call (hPeek1_flat (a := ar) hr) (by frames) ?_
  refine Triple.ret fun m hm => lpure_sep.2 ⟨rfl, ?_⟩
  perm hm

theorem hPeek_leaf {a : Nat} {av : Option Nat} {h : Option B32} {p : Option Ptr} {k : B32} {v : Option Bytes} {vp : Option Ptr} :
    Triple (pts a (.leaf h p k av vp) ∗∗ ownVal av v) (hPeek a) (fun r => lpure (r = .leaf h p k v vp) ∗∗ pts a (.leaf h p k av vp) ∗∗ ownVal av v) := by
  cases av with
  | none =>
    cases v with
    | none =>
      refine Triple.load (a := a) (by frames) ?_
      refine Triple.load (a := a) (by frames) ?_
      exact Triple.ret fun m hm => lpure_sep.2 ⟨rfl, hm⟩
    | some v =>
      refine Triple.split (P' := lpure False ∗∗ pts a _) (sep_comm _ _) (Triple.pure_pre fun e => e.elim)
  | some x =>
    cases v with
    | none => refine Triple.split (P' := lpure False ∗∗ pts a _) (sep_comm _ _) (Triple.pure_pre fun e => e.elim)
    | some v =>
      refine Triple.split (P' := pts a (.leaf h p k (some x) vp) ∗∗ pts x (.bytes v)) rfl ?_
      refine Triple.load (a := a) (by frames) ?_
      refine Triple.load (a := a) (by frames) ?_
      refine loadBytes_spec (by frames) ?_
      exact Triple.ret fun m hm => lpure_sep.2 ⟨rfl, hm⟩

theorem hPeek1_leaf' {a : Nat} {av : Option Nat} {h : Option B32} {p : Option Ptr} {k : B32} {v : Option Bytes} {vp : Option Ptr} :
    Triple (pts a (.leaf h p k av vp) ∗∗ ownVal av v) (hPeek1 a) (fun r => lpure (r = .leaf h p k v vp) ∗∗ pts a (.leaf h p k av vp) ∗∗ ownVal av v) := by
  cases av with
  | none =>
    cases v with
    | none =>
      refine Triple.load (a := a) (by frames) ?_
      exact Triple.ret fun m hm => lpure_sep.2 ⟨rfl, hm⟩
    | some v =>
      refine Triple.split (P' := lpure False ∗∗ pts a _) (sep_comm _ _) (Triple.pure_pre fun e => e.elim)
  | some x =>
    cases v with
    | none => refine Triple.split (P' := lpure False ∗∗ pts a _) (sep_comm _ _) (Triple.pure_pre fun e => e.elim)
    | some v =>
      refine Triple.split (P' := pts a (.leaf h p k (some x) vp) ∗∗ pts x (.bytes v)) rfl ?_
      refine Triple.load (a := a) (by frames) ?_
      refine loadBytes_spec (by frames) ?_
      exact Triple.ret fun m hm => lpure_sep.2 ⟨rfl, hm⟩

/-- `urkel_node_to_hash` writes only the new block. -/
theorem hToHash_spec {a out : Nat} {n o : Node} (e : toHash n = .ok o) :
    Triple (own a n ∗∗ pts out .raw) (hToHash a out) (fun _ => own a n ∗∗ own out o) := by
  have fin : ∀ (P : SProp) (n1 : Node), toHash n1 = .ok o → Triple (P ∗∗ pts out .raw) (do
      let o ← HM.lift (toHash n1)
      match o with
      | .hash h p => update out fun _ => .hash h p
      | .null => update out fun _ => .null
      | _ => HM.ub : HM Unit) (fun _ => P ∗∗ own out o) := by
    intro P n1 e1
    refine Triple.lift e1 ?_
    have hf := toHash_flat e1
    cases o with
    | null =>
      refine Triple.last (Triple.update (a := out) (R := P) (sep_comm _ _) ?_)
      exact Triple.ret fun m hm => by rw [sep_comm]; exact hm
    | hash h p =>
      refine Triple.last (Triple.update (a := out) (R := P) (sep_comm _ _) ?_)
      exact Triple.ret fun m hm => by rw [sep_comm]; exact hm
    | leaf => exact hf.elim
    | internal => exact hf.elim
  cases n with
  | null =>
    refine Triple.bind (hPeek1_flat (n := .null) trivial) rfl fun x => ?_
    rw [sep_assoc]
    refine Triple.pure_pre fun hx => ?_
    rw [hx]; exact fin _ _ e
  | hash h p =>
    refine Triple.bind (hPeek1_flat (n := .hash h p) trivial) rfl fun x => ?_
    rw [sep_assoc]
    refine Triple.pure_pre fun hx => ?_
    rw [hx]; exact fin _ _ e
  | leaf h p k v vp =>
    refine Triple.bind hPeek1_leaf rfl fun x => ?_
    rw [sep_assoc]
    refine Triple.pure_pre fun hx => ?_
    rw [hx]; exact fin _ _ e
  | internal h p pre l r =>
    have hp : Triple (own a (.internal h p pre l r)) (hPeek1 a) (fun x => lpure (x = .internal h p pre .null .null) ∗∗ own a (.internal h p pre l r)) := by
      refine Triple.ex_pre fun al => Triple.ex_pre fun ar => ?_
      refine Triple.load (by frames) ?_
      exact Triple.ret fun m hm => lpure_sep.2 ⟨rfl, own_internal hm⟩
    refine Triple.bind hp rfl fun x => ?_
    rw [sep_assoc]
    refine Triple.pure_pre fun hx => ?_
    rw [hx]
    refine fin _ _ ?_
    rw [← e]; rfl

/-! ### urkel_tree_write -/

/-- A written tree, or the old one with parts of it written. -/
def hWrote (a : Nat) (s' : Store) (r : Option Node) (x : Store × Option Nat) : SProp := match r with
  | some n' => ex fun a' => lpure (x = (s', some a')) ∗∗ own a' n'
  | none => ex fun n' => lpure (x = (s', none)) ∗∗ own a n'

theorem hWrote_some {a a' : Nat} {s' : Store} {n' : Node} {m : Nat → Option Cell} (h : own a' n' m) : hWrote a s' (some n') (s', some a') m :=
  ⟨a', lpure_sep.2 ⟨rfl, h⟩⟩

theorem hWrote_none {a : Nat} {s' : Store} {n' : Node} {m : Nat → Option Cell} (h : own a n' m) : hWrote a s' none (s', none) m :=
  ⟨n', lpure_sep.2 ⟨rfl, h⟩⟩

theorem Triple.wrote {m : HM (Store × Option Nat)} {a : Nat} {n n' : Node} {s' : Store} (h : Triple (own a n) m (hWrote a s' (some n')))
    {β : Type} {P R : SProp} {Q : β → SProp} {k : Store × Option Nat → HM β} (hP : P = own a n ∗∗ R)
    (hk : ∀ a', Triple (own a' n' ∗∗ R) (k (s', some a')) Q) : Triple P (m >>= k) Q := by
  refine Triple.bind h hP fun x => ?_
  unfold hWrote
  rw [ex_sep]
  refine Triple.ex_pre fun a' => ?_
  rw [sep_assoc]
  exact Triple.pure_pre fun e => by rw [e]; exact hk a'

theorem Triple.wroteNone {m : HM (Store × Option Nat)} {a : Nat} {n : Node} {s' : Store} (h : Triple (own a n) m (hWrote a s' none))
    {β : Type} {P R : SProp} {Q : β → SProp} {k : Store × Option Nat → HM β} (hP : P = own a n ∗∗ R)
    (hk : ∀ n', Triple (own a n' ∗∗ R) (k (s', none)) Q) : Triple P (m >>= k) Q := by
  refine Triple.bind h hP fun x => ?_
  unfold hWrote
  rw [ex_sep]
  refine Triple.ex_pre fun n' => ?_
  rw [sep_assoc]
  exact Triple.pure_pre fun e => by rw [e]; exact hk n'

theorem hFinish_spec {A : Alloc} {E : Env} {s s' : Store} {a : Nat} {n : Node} {w : Bool} {r : Option Node}
    (e : flushAndHash E s n w = .ok (s', r)) : Triple (own a n) (hFinish A E s a w) (hWrote a s' r) := by
  have e' : ((if w && needsFlush E s then storeFlush E s else pure (s, true)) >>= fun x => if !x.2 then pure (x.1, none) else do
      let (_, n) ← nodeHash E.H n
      let o ← toHash n
      pure (x.1, some o) : Res (Store × Option Node)) = .ok (s', r) := by
    rw [← e]
    unfold flushAndHash
    split <;> rfl
  obtain ⟨⟨s1, ok⟩, e1, e⟩ := Res.bind_eq_ok.1 e'
  unfold hFinish
  refine Triple.lift e1 ?_
  cases ok with
  | false =>
    cases e
    exact Triple.ret fun m hm => hWrote_none hm
  | true =>
    obtain ⟨⟨h, n1⟩, e2, e⟩ := Res.bind_eq_ok.1 e
    obtain ⟨o, e3, e⟩ := Res.bind_eq_ok.1 e
    cases e
    refine Triple.malloc fun out => ?_
    refine Triple.call (hHash_spec (a := a) e2) (by frames) ?_
    refine Triple.bind (hToHash_spec (a := a) (out := out) e3) (by frames) fun _ => ?_
    refine Triple.destroy (a := a) (n := n1) (by frames) ?_
    exact Triple.ret fun m hm => hWrote_some hm

theorem hWriteNode_internal {E : Env} {s s' : Store} {a al ar : Nat} {h : Option B32} {pre : Bits} {l r n' : Node} (hl : Flat l) (hr : Flat r)
    (e : storeWriteNode E s (.internal h none pre l r) = .ok (s', n')) :
    Triple (pts a (.internal h none pre al ar) ∗∗ own al l ∗∗ own ar r) (hWriteNode E s a) (fun x => lpure (x = s') ∗∗ own a n') := by
  refine Triple.call (R := emp) (hPeek_internal hl hr) (sep_emp _).symm ?_
  rw [sep_emp]
  refine Triple.lift e ?_
  unfold storeWriteNode at e
  obtain ⟨raw, _, e⟩ := Res.bind_eq_ok.1 e
  obtain ⟨slab, _, e⟩ := Res.bind_eq_ok.1 e
  cases e
  refine Triple.update (a := a) (by frames) ?_
  exact Triple.ret fun m hm => lpure_sep.2 ⟨rfl, own_internal hm⟩

theorem hWriteNode_leaf {E : Env} {s s' : Store} {a : Nat} {av : Option Nat} {h : Option B32} {k : B32} {v : Option Bytes} {vp : Option Ptr} {n' : Node}
    (e : storeWriteNode E s (.leaf h none k v vp) = .ok (s', n')) :
    Triple (pts a (.leaf h none k av vp) ∗∗ ownVal av v) (hWriteNode E s a) (fun x => lpure (x = s') ∗∗ own a n') := by
  refine Triple.call (R := emp) hPeek_leaf (sep_emp _).symm ?_
  rw [sep_emp]
  refine Triple.lift e ?_
  unfold storeWriteNode at e
  obtain ⟨raw, _, e⟩ := Res.bind_eq_ok.1 e
  obtain ⟨slab, _, e⟩ := Res.bind_eq_ok.1 e
  cases e
  refine Triple.update (a := a) (by frames) ?_
  exact Triple.ret fun m hm => lpure_sep.2 ⟨rfl, by rw [own_leaf]; exact ⟨av, hm⟩⟩

theorem hWriteLoop_spec {A : Alloc} {E : Env} : ∀ (n : Node) (fuel a : Nat) (s s' : Store) (r : Option Node), n.height ≤ fuel →
    treeWrite E n s = .ok (s', r) → Triple (own a n) (hWriteLoop A E fuel a s) (hWrote a s' r) := by
  intro n
  induction n with
  | null =>
    intro fuel a s s' r hf e
    cases fuel with
    | zero => simp [Node.height] at hf
    | succ fuel =>
      cases e
      refine Triple.load (a := a) (P := pts a .null) (by frames) ?_
      exact Triple.ret fun m hm => hWrote_some hm
  | hash h p =>
    intro fuel a s s' r hf e
    cases fuel with
    | zero => simp [Node.height] at hf
    | succ fuel =>
      cases e
      refine Triple.load (a := a) (P := pts a (.hash h p)) (by frames) ?_
      exact Triple.ret fun m hm => hWrote_some hm
  | leaf h p k v vp =>
    intro fuel a s s' r hf e
    cases fuel with
    | zero => simp [Node.height] at hf
    | succ fuel =>
      unfold treeWrite at e
      refine Triple.split own_leaf ?_
      refine Triple.ex_pre fun av => ?_
      refine Triple.load (a := a) (by frames) ?_
      cases p with
      | some p =>
        refine Triple.pre (fun m hm => ?_) (hFinish_spec e)
        rw [own_leaf]; exact ⟨av, hm⟩
      | none =>
        obtain ⟨⟨s1, n1⟩, e1, e0⟩ := Res.bind_eq_ok.1 e
        obtain ⟨⟨s2, n2⟩, e2, e3⟩ := Res.bind_eq_ok.1 e0
        dsimp only
        have hwv : Triple (pts a (.leaf h none k av vp) ∗∗ ownVal av v) (hWriteValue E s a)
            (fun x => lpure (x = s1) ∗∗ ex fun vp' => lpure (n1 = .leaf h none k v vp') ∗∗ pts a (.leaf h none k av vp') ∗∗ ownVal av v) := by
          refine Triple.call (R := emp) hPeek1_leaf' (sep_emp _).symm ?_
          rw [sep_emp]
          refine Triple.lift e1 ?_
          unfold storeWriteValue at e1
          cases v with
          | none => cases e1
          | some v =>
            cases vp with
            | some vp => cases e1
            | none =>
              obtain ⟨slab, _, e1⟩ := Res.bind_eq_ok.1 e1
              cases e1
              refine Triple.update (a := a) (by frames) ?_
              exact Triple.ret fun m hm => lpure_sep.2 ⟨rfl, _, lpure_sep.2 ⟨rfl, hm⟩⟩
        refine Triple.call (R := emp) hwv (sep_emp _).symm ?_
        rw [sep_emp]
        refine Triple.ex_pre fun vp' => ?_
        refine Triple.pure_pre fun hn1 => ?_
        subst hn1
        refine Triple.call (R := emp) (hWriteNode_leaf e2) (sep_emp _).symm ?_
        rw [sep_emp]
        exact hFinish_spec e3
  | internal h p pre l r' ihl ihr =>
    intro fuel a s s' r hf e
    cases fuel with
    | zero => simp [Node.height] at hf
    | succ fuel =>
      have hf' : max l.height r'.height + 1 ≤ fuel + 1 := hf
      unfold treeWrite at e
      obtain ⟨⟨s1, l'⟩, e1, e⟩ := Res.bind_eq_ok.1 e
      refine Triple.ex_pre fun al => Triple.ex_pre fun ar => ?_
      refine Triple.load (by frames) ?_
      have h1 := ihl fuel al s s1 l' (by omega) e1
      cases l' with
      | none =>
        cases e
        refine Triple.wroteNone h1 (by frames) fun n' => ?_
        refine Triple.ret fun m hm => hWrote_none (own_internal (h := h) (p := p) (pre := pre) (l := n') (r := r') (al := al) (ar := ar) ?_)
        perm hm
      | some l' =>
        obtain ⟨⟨s2, r1⟩, e2, e⟩ := Res.bind_eq_ok.1 e
        refine Triple.wrote h1 (by frames) fun al' => ?_
        refine Triple.update (a := a) (by frames) ?_
        have h2 := ihr fuel ar s1 s2 r1 (by omega) e2
        cases r1 with
        | none =>
          cases e
          refine Triple.wroteNone h2 (by frames) fun n' => ?_
          refine Triple.ret fun m hm => hWrote_none (own_internal (h := h) (p := p) (pre := pre) (l := l') (r := n') (al := al') (ar := ar) ?_)
          have hm : (own ar n' ∗∗ pts a (.internal h p pre al' ar) ∗∗ own al' l') m := hm
          perm hm
        | some r1 =>
          refine Triple.wrote h2 (by frames) fun ar' => ?_
          refine Triple.update (a := a) (by frames) ?_
          refine Triple.split (P' := pts a (.internal h p pre al' ar') ∗∗ own al' l' ∗∗ own ar' r1) ?_ ?_
          · show pts a (.internal h p pre al' ar') ∗∗ own ar' r1 ∗∗ own al' l' = _
            ac_rfl
          dsimp only at e
          cases p with
          | some p => exact Triple.pre (fun m hm => own_internal hm) (hFinish_spec e)
          | none =>
            obtain ⟨⟨s3, n3⟩, e3, e⟩ := Res.bind_eq_ok.1 e
            refine Triple.call (R := emp) (hWriteNode_internal (treeWrite_flat e1) (treeWrite_flat e2) e3) (sep_emp _).symm ?_
            rw [sep_emp]
            exact hFinish_spec e

theorem hWrite_spec {A : Alloc} {E : Env} {n : Node} {a : Nat} {s s' : Store} {r : Option Node} (e : treeWrite E n s = .ok (s', r)) :
    Triple (own a n) (hWrite A E a s) (hWrote a s' r) := by
  intro F x hh
  exact hWriteLoop_spec n (x.length + 1) a s s' r (by have := own_height hh; omega) e F x hh

end Urkel
