import Verif.Lemmas.HeapSys
import Verif.Model.HeapIter
import Verif.Spec.Iter
/-
Iterators in memory.
-/
namespace Urkel

/-! ### Trees with their addresses -/

/-- A tree in memory with the address of every block. -/
inductive ANode where
  | null (a : Nat)
  | internal (a : Nat) (h : Option B32) (p : Option Ptr) (pre : Bits) (l r : ANode)
  | leaf (a : Nat) (h : Option B32) (p : Option Ptr) (k : B32) (v : Option (Nat × Bytes)) (vp : Option Ptr)
  | hash (a : Nat) (h : B32) (p : Ptr)

def ANode.addr : ANode → Nat
  | .null a | .internal a .. | .leaf a .. | .hash a .. => a

def ANode.node : ANode → Node
  | .null _ => .null
  | .internal _ h p pre l r => .internal h p pre l.node r.node
  | .leaf _ h p k v vp => .leaf h p k (v.map Prod.snd) vp
  | .hash _ h p => .hash h p

def ownA : ANode → SProp
  | .null a => pts a .null
  | .internal a h p pre l r => pts a (.internal h p pre l.addr r.addr) ∗∗ ownA l ∗∗ ownA r
  | .leaf a h p k none vp => pts a (.leaf h p k none vp)
  | .leaf a h p k (some (x, v)) vp => pts a (.leaf h p k (some x) vp) ∗∗ pts x (.bytes v)
  | .hash a h p => pts a (.hash h p)

theorem sep_both {P P' Q Q' : SProp} (h1 : ∀ m, P m → P' m) (h2 : ∀ m, Q m → Q' m) {m : Nat → Option Cell} : (P ∗∗ Q) m → (P' ∗∗ Q') m := by
  rintro ⟨m1, m2, hd, he, a, b⟩
  exact ⟨m1, m2, hd, he, h1 _ a, h2 _ b⟩

theorem ownA_own : ∀ (t : ANode) (m : Nat → Option Cell), ownA t m → own t.addr t.node m := by
  intro t
  induction t with
  | null a => intro m h; exact h
  | hash a h p => intro m h; exact h
  | leaf a h p k v vp =>
    intro m hm
    cases v with
    | none => exact hm
    | some v => obtain ⟨x, v⟩ := v; exact ⟨x, hm⟩
  | internal a h p pre l r ihl ihr =>
    intro m hm
    exact ⟨l.addr, r.addr, sep_both (fun _ h => h) (fun m => sep_both ihl ihr) hm⟩

theorem own_ownA : ∀ (n : Node) (a : Nat) (m : Nat → Option Cell), own a n m → ∃ t : ANode, t.addr = a ∧ t.node = n ∧ ownA t m := by
  intro n
  induction n with
  | null => intro a m h; exact ⟨.null a, rfl, rfl, h⟩
  | hash h p => intro a m hm; exact ⟨.hash a h p, rfl, rfl, hm⟩
  | leaf h p k v vp =>
    intro a m hm
    cases v with
    | none => exact ⟨.leaf a h p k none vp, rfl, rfl, hm⟩
    | some v => obtain ⟨x, hm⟩ := hm; exact ⟨.leaf a h p k (some (x, v)) vp, rfl, rfl, hm⟩
  | internal h p pre l r ihl ihr =>
    intro a m hm
    obtain ⟨al, ar, m1, m2, hd, he, h1, m3, m4, hd', he', h3, h4⟩ := hm
    obtain ⟨tl, rfl, rfl, e1⟩ := ihl al m3 h3
    obtain ⟨tr, rfl, rfl, e2⟩ := ihr ar m4 h4
    exact ⟨.internal a h p pre tl tr, rfl, rfl, m1, m2, hd, he, h1, m3, m4, hd', he', e1, e2⟩

/-! ### Stacks -/

/-- A frame with its tree. -/
structure GFrame where
  t : ANode
  depth : Nat
  resolved : Bool
  child : Nat

def GFrame.h (g : GFrame) : HFrame := ⟨g.t.addr, g.depth, g.resolved, g.child⟩
def GFrame.f (g : GFrame) : Frame := ⟨g.t.node, g.depth, g.resolved, g.child⟩

/-- The memory of the tree and of the resolved frames. -/
def heapOf (root : ANode) : List GFrame → SProp
  | [] => ownA root
  | g :: gs => if g.resolved then ownA g.t ∗∗ heapOf root gs else heapOf root gs

/-- The number of blocks of a tree. -/
def Node.blocks : Node → Nat
  | .null => 1
  | .hash _ _ => 1
  | .leaf _ _ _ none _ => 1
  | .leaf _ _ _ (some _) _ => 2
  | .internal _ _ _ l r => 1 + l.blocks + r.blocks

/-- A frame that was not resolved points into the memory below it; a resolved one has at
most three blocks. -/
def GOk (root : ANode) : List GFrame → Prop
  | [] => True
  | g :: gs => GOk root gs ∧ gs.length < keyBits ∧ (g.resolved = true → g.t.node.blocks ≤ 3) ∧ (g.resolved = true ∨ ∃ R, heapOf root gs = ownA g.t ∗∗ R)

theorem GOk.top {root : ANode} {g : GFrame} {gs : List GFrame} (h : GOk root (g :: gs)) : ∃ R, heapOf root (g :: gs) = ownA g.t ∗∗ R := by
  unfold heapOf
  cases hr : g.resolved with
  | true => exact ⟨_, if_pos rfl⟩
  | false =>
    obtain ⟨R, e⟩ := h.2.2.2.resolve_left (by simp [hr])
    exact ⟨R, e⟩

/-- The state of an iterator: `here` says that `iter->node` is the top of the stack. -/
structure GIter where
  root : ANode
  gs : List GFrame
  here : Bool
  done : Bool

def GIter.f (g : GIter) : Iter := ⟨g.root.node, if g.here then g.gs.head?.map (fun x => x.t.node) else none, g.gs.map GFrame.f, g.done⟩

/-- The parts of an iterator that do not change. -/
structure GConst where
  obj : Nat
  lock : Nat
  tx : Nat
  transient : Bool

def GIter.h (g : GIter) (c : GConst) : HIter :=
  ⟨c.obj, c.lock, c.tx, g.root.addr, if g.here then g.gs.head?.map (fun x => x.t.addr) else none, g.gs.map GFrame.h, g.done, c.transient⟩

def GIter.heap (g : GIter) : SProp := heapOf g.root g.gs

theorem check_lt {b : Bool} {u : Unit} (e : check b = .ok u) : b = true := by
  cases b with
  | true => rfl
  | false => cases e

/-- The result of a function that moves an iterator. -/
def moved {α : Type} (c : GConst) (g : GIter) (it : Iter) (r : α) (x : HIter × α) : SProp :=
  ex fun g' : GIter => lpure (it = g'.f ∧ x = (g'.h c, r) ∧ GOk g'.root g'.gs ∧ g'.root = g.root) ∗∗ g'.heap

theorem moved_intro {α : Type} {c : GConst} {g g' : GIter} {it : Iter} {r : α} {x : HIter × α} {m : Nat → Option Cell} (h1 : it = g'.f) (h2 : x = (g'.h c, r))
    (h3 : GOk g'.root g'.gs) (h4 : g'.root = g.root) (hm : g'.heap m) : moved c g it r x m := ⟨g', lpure_sep.2 ⟨⟨h1, h2, h3, h4⟩, hm⟩⟩

theorem hSeekLoop_spec {A : Alloc} {s : Store} {c : GConst} : ∀ (fuel : Nat) (g : GIter) (it : Iter) (r : Except Err Unit),
    g.here = false → GOk g.root g.gs → seekLoop s fuel g.f = .ok (it, r) → Triple g.heap (hSeekLoop A s fuel (g.h c)) (moved c g it r) := by
  intro fuel
  induction fuel with
  | zero => intro g it r _ _ e; cases e
  | succ fuel ih =>
    intro g it r hh hg e
    obtain ⟨root, gs, here, done⟩ := g
    cases hh
    cases gs with
    | nil => cases e
    | cons g gs =>
      obtain ⟨t, depth, resolved, child⟩ := g
      obtain ⟨R, hR⟩ := hg.top
      have hg' : ∀ c, GOk root (⟨t, depth, resolved, c⟩ :: gs) := fun _ => hg
      cases t with
      | null a =>
        cases e
        have hp : (⟨root, ⟨.null a, depth, resolved, child⟩ :: gs, false, done⟩ : GIter).heap = pts a .null ∗∗ R := hR
        refine Triple.load (a := a) hp ?_
        exact Triple.ret fun m hm => moved_intro (g' := ⟨root, ⟨.null a, depth, resolved, child⟩ :: gs, true, done⟩) rfl rfl hg rfl hm
      | leaf a h p k v vp =>
        cases e
        have hp : ∃ av R, (⟨root, ⟨.leaf a h p k v vp, depth, resolved, child⟩ :: gs, false, done⟩ : GIter).heap = pts a (.leaf h p k av vp) ∗∗ R := by
          cases v with
          | none => exact ⟨none, R, hR⟩
          | some v => exact ⟨some v.1, pts v.1 (.bytes v.2) ∗∗ R, hR.trans (sep_assoc _ _ _)⟩
        obtain ⟨av, R', hp⟩ := hp
        refine Triple.load (a := a) hp ?_
        exact Triple.ret fun m hm => moved_intro (g' := ⟨root, ⟨.leaf a h p k v vp, depth, resolved, child⟩ :: gs, true, done⟩) rfl rfl hg rfl hm
      | internal a h p pre l r' =>
        have hp : (⟨root, ⟨.internal a h p pre l r', depth, resolved, child⟩ :: gs, false, done⟩ : GIter).heap =
          pts a (.internal h p pre l.addr r'.addr) ∗∗ (ownA l ∗∗ ownA r') ∗∗ R := hR.trans (sep_assoc _ _ _)
        refine Triple.load (a := a) hp ?_
        unfold seekLoop at e
        simp only [GIter.f, List.map_cons, GFrame.f, ANode.node] at e
        by_cases hc : child ≥ 2
        · rw [if_pos hc] at e
          cases e
          show Triple _ (if child ≥ 2 then _ else _) _
          rw [if_pos hc]
          exact Triple.ret fun m hm => moved_intro (g' := ⟨root, ⟨.internal a h p pre l r', depth, resolved, child⟩ :: gs, false, done⟩) rfl rfl hg rfl hm
        · rw [if_neg hc] at e
          show Triple _ (if child ≥ 2 then _ else _) _
          rw [if_neg hc]
          obtain ⟨it1, e1, e2⟩ := Res.bind_eq_ok.1 e
          unfold iterPush at e1
          obtain ⟨u, e3, e4⟩ := Res.bind_eq_ok.1 e1
          cases e4
          let t' : ANode := if child + 1 = 2 then r' else l
          let g' : GIter := ⟨root, ⟨t', depth + pre.size + 1, false, 0⟩ :: ⟨.internal a h p pre l r', depth, resolved, child + 1⟩ :: gs, false, done⟩
          have hheap : g'.heap = (⟨root, ⟨.internal a h p pre l r', depth, resolved, child⟩ :: gs, false, done⟩ : GIter).heap := rfl
          have hlen : (⟨.internal a h p pre l r', depth, resolved, child + 1⟩ :: gs : List GFrame).length < keyBits := by
            simpa using check_lt e3
          have hok : GOk g'.root g'.gs := by
            refine ⟨hg, hlen, (fun h => nomatch h), Or.inr ?_⟩
            by_cases hc2 : child + 1 = 2
            · refine ⟨pts a (.internal h p pre l.addr r'.addr) ∗∗ ownA l ∗∗ R, ?_⟩
              have ht : t' = r' := if_pos hc2
              show heapOf root _ = ownA t' ∗∗ _
              rw [ht]
              refine hp.trans ?_
              ac_rfl
            · refine ⟨pts a (.internal h p pre l.addr r'.addr) ∗∗ ownA r' ∗∗ R, ?_⟩
              have ht : t' = l := if_neg hc2
              show heapOf root _ = ownA t' ∗∗ _
              rw [ht]
              refine hp.trans ?_
              ac_rfl
          have e5 : seekLoop s fuel g'.f = .ok (it, r) := by
            have : (if child + 1 = 2 then r'.node else l.node) = t'.node := by
              by_cases hc2 : child + 1 = 2
              · simp only [t', if_pos hc2]
              · simp only [t', if_neg hc2]
            rw [this] at e2
            exact e2
          have e6 : hIterPush ⟨c.obj, c.lock, c.tx, root.addr, none, ⟨a, depth, resolved, child + 1⟩ :: gs.map GFrame.h, done, c.transient⟩
              (if child + 1 = 2 then r'.addr else l.addr) (depth + pre.size + 1) false = .ok (g'.h c) := by
            have : (if child + 1 = 2 then r'.addr else l.addr) = t'.addr := by
              by_cases hc2 : child + 1 = 2
              · simp only [t', if_pos hc2]
              · simp only [t', if_neg hc2]
            rw [this]
            unfold hIterPush
            refine Res.bind_eq_ok.2 ⟨u, ?_, rfl⟩
            simpa using e3
          refine Triple.lift e6 ?_
          exact ih g' it r rfl hok e5
      | hash a h p =>
        have hp : (⟨root, ⟨.hash a h p, depth, resolved, child⟩ :: gs, false, done⟩ : GIter).heap = pts a (.hash h p) ∗∗ R := hR
        refine Triple.load (a := a) hp ?_
        unfold seekLoop at e
        simp only [GIter.f, List.map_cons, GFrame.f, ANode.node] at e
        by_cases hc : child ≥ 1
        · rw [if_pos hc] at e
          cases e
          show Triple _ (if child ≥ 1 then _ else _) _
          rw [if_pos hc]
          exact Triple.ret fun m hm => moved_intro (g' := ⟨root, ⟨.hash a h p, depth, resolved, child⟩ :: gs, false, done⟩) rfl rfl hg rfl hm
        · rw [if_neg hc] at e
          show Triple _ (if child ≥ 1 then _ else _) _
          rw [if_neg hc]
          obtain ⟨o, e1, e2⟩ := Res.bind_eq_ok.1 e
          cases o with
          | none =>
            cases e2
            refine hResolve_none (a := a) e1 hp ?_
            exact Triple.ret fun m hm => moved_intro (g' := ⟨root, ⟨.hash a h p, depth, resolved, child + 1⟩ :: gs, false, done⟩) rfl rfl hg rfl hm
          | some n =>
            refine hResolve_some (a := a) e1 hp fun rn => ?_
            obtain ⟨it1, e3, e4⟩ := Res.bind_eq_ok.1 e2
            unfold iterPush at e3
            obtain ⟨u, e5, e6⟩ := Res.bind_eq_ok.1 e3
            cases e6
            refine Triple.pre (P' := ex fun t' : ANode => lpure (t'.addr = rn ∧ t'.node = n) ∗∗ (ownA t' ∗∗ (⟨root, ⟨.hash a h p, depth, resolved, child⟩ :: gs, false, done⟩ : GIter).heap)) ?_ (Triple.ex_pre fun t' => Triple.pure_pre fun ht => ?_)
            · rintro m ⟨m1, m2, hd, he, h1, h2⟩
              obtain ⟨t', a1, a2, a3⟩ := own_ownA n rn m1 h1
              exact ⟨t', lpure_sep.2 ⟨⟨a1, a2⟩, m1, m2, hd, he, a3, h2⟩⟩
            · obtain ⟨rfl, rfl⟩ := ht
              let g' : GIter := ⟨root, ⟨t', depth, true, 0⟩ :: ⟨.hash a h p, depth, resolved, child + 1⟩ :: gs, false, done⟩
              have e7 : hIterPush ⟨c.obj, c.lock, c.tx, root.addr, none, ⟨a, depth, resolved, child + 1⟩ :: gs.map GFrame.h, done, c.transient⟩
                  t'.addr depth true = .ok (g'.h c) := by
                unfold hIterPush
                refine Res.bind_eq_ok.2 ⟨u, ?_, rfl⟩
                simpa using e5
              refine Triple.lift e7 ?_
              have hlen : (⟨.hash a h p, depth, resolved, child + 1⟩ :: gs : List GFrame).length < keyBits := by
                simpa using check_lt e5
              refine ih g' it r rfl ⟨hg, hlen, fun _ => ?_, Or.inl rfl⟩ e4
              rcases storeResolve_shape e1 with ⟨p', pre, hl, pl, hr, pr, e8⟩ | ⟨p', k', vp, e8⟩
              · show t'.node.blocks ≤ 3
                rw [e8]; simp [Node.blocks]
              · show t'.node.blocks ≤ 3
                rw [e8]; simp [Node.blocks]

theorem hIterSeek_spec {A : Alloc} {s : Store} {c : GConst} {g : GIter} {it : Iter} {r : Except Err Unit}
    (hg : GOk g.root g.gs) (e : iterSeek s g.f = .ok (it, r)) : Triple g.heap (hIterSeek A s (g.h c)) (moved c g it r) := by
  obtain ⟨root, gs, here, done⟩ := g
  unfold iterSeek at e
  unfold hIterSeek
  cases done with
  | true =>
    cases e
    exact Triple.ret fun m hm => moved_intro (g' := ⟨root, gs, false, true⟩) rfl rfl hg rfl hm
  | false =>
    cases gs with
    | nil =>
      have e' : (do
        let it ← iterPush ⟨root.node, none, [], false⟩ root.node 0 false
        seekLoop s iterFuel it) = Res.ok (it, r) := e
      have e1 : iterPush ⟨root.node, none, [], false⟩ root.node 0 false = .ok (⟨root, [⟨root, 0, false, 0⟩], false, false⟩ : GIter).f := rfl
      rw [e1, Res.bind_ok] at e'
      refine Triple.lift (x := (⟨root, [⟨root, 0, false, 0⟩], false, false⟩ : GIter).h c) (r := hIterPush _ _ _ _) rfl ?_
      exact hSeekLoop_spec (A := A) iterFuel ⟨root, [⟨root, 0, false, 0⟩], false, false⟩ it r rfl ⟨trivial, by decide, (fun h => nomatch h), Or.inr ⟨emp, (sep_emp _).symm⟩⟩ e'
    | cons f gs =>
      obtain ⟨t, depth, resolved, child⟩ := f
      have e' : (if (gs.map GFrame.f).isEmpty then .ok (⟨root.node, none, gs.map GFrame.f, true⟩, .error .EITEREND)
        else seekLoop s iterFuel ⟨root.node, none, gs.map GFrame.f, false⟩) = Res.ok (it, r) := e
      have key : Triple (heapOf root gs) (if (gs.map GFrame.h).isEmpty then pure ((⟨root, gs, false, true⟩ : GIter).h c, .error .EITEREND)
          else hSeekLoop A s iterFuel ((⟨root, gs, false, false⟩ : GIter).h c)) (moved c ⟨root, ⟨t, depth, resolved, child⟩ :: gs, here, false⟩ it r) := by
        cases gs with
        | nil =>
          cases e'
          exact Triple.ret fun m hm => moved_intro (g' := ⟨root, [], false, true⟩) rfl rfl trivial rfl hm
        | cons g2 gs =>
          exact hSeekLoop_spec (A := A) (c := c) iterFuel ⟨root, g2 :: gs, false, false⟩ it r rfl hg.1 e'
      cases resolved with
      | true =>
        have hp : (⟨root, ⟨t, depth, true, child⟩ :: gs, here, false⟩ : GIter).heap = ownA t ∗∗ heapOf root gs := rfl
        rw [hp]
        refine Triple.pre (P' := own t.addr t.node ∗∗ heapOf root gs) (fun m hm => sep_mono (fun m h => ownA_own t m h) hm) ?_
        refine Triple.destroy (a := t.addr) (n := t.node) rfl ?_
        exact key
      | false => exact key

theorem hNextLoop_spec {A : Alloc} {s : Store} {c : GConst} : ∀ (fuel : Nat) (g : GIter) (it : Iter) (r : Except Err (B32 × Bytes)),
    GOk g.root g.gs → nextLoop s fuel g.f = .ok (it, r) → Triple g.heap (hNextLoop A s fuel (g.h c)) (moved c g it r) := by
  intro fuel
  induction fuel with
  | zero => intro g it r _ e; cases e
  | succ fuel ih =>
    intro g it r hg e
    unfold nextLoop at e
    obtain ⟨⟨it1, r1⟩, e1, e2⟩ := Res.bind_eq_ok.1 e
    unfold hNextLoop
    refine Triple.bind (hIterSeek_spec (A := A) (c := c) hg e1) (R := emp) (sep_emp _).symm fun x => ?_
    rw [sep_emp]
    refine Triple.ex_pre fun g1 => Triple.pure_pre fun h1 => ?_
    obtain ⟨rfl, rfl, hg1, hr1⟩ := h1
    have weak : ∀ {x : HIter × Except Err (B32 × Bytes)} {m : Nat → Option Cell}, moved c g1 it r x m → moved c g it r x m := by
      rintro x m ⟨g2, hm⟩
      obtain ⟨⟨a1, a2, a3, a4⟩, a5⟩ := lpure_sep.1 hm
      exact ⟨g2, lpure_sep.2 ⟨⟨a1, a2, a3, a4.trans hr1⟩, a5⟩⟩
    cases r1 with
    | error er =>
      cases e2
      exact Triple.ret fun m hm => moved_intro rfl rfl hg1 hr1 hm
    | ok u =>
      obtain ⟨root, gs, here, done⟩ := g1
      have again : nextLoop s fuel (⟨root, gs, here, done⟩ : GIter).f = .ok (it, r) →
          Triple (⟨root, gs, here, done⟩ : GIter).heap (hNextLoop A s fuel ((⟨root, gs, here, done⟩ : GIter).h c)) (moved c g it r) :=
        fun e => Triple.post (ih _ it r hg1 e) fun x m hm => weak hm
      cases here with
      | false => exact again e2
      | true =>
        cases gs with
        | nil => exact again e2
        | cons f gs =>
          obtain ⟨t, depth, resolved, child⟩ := f
          obtain ⟨R, hR⟩ := hg1.top
          cases t with
          | null a =>
            have hp : (⟨root, ⟨.null a, depth, resolved, child⟩ :: gs, true, done⟩ : GIter).heap = pts a .null ∗∗ R := hR
            exact Triple.load (a := a) hp (again e2)
          | internal a h p pre l r' =>
            have hp : (⟨root, ⟨.internal a h p pre l r', depth, resolved, child⟩ :: gs, true, done⟩ : GIter).heap =
              pts a (.internal h p pre l.addr r'.addr) ∗∗ (ownA l ∗∗ ownA r') ∗∗ R := hR.trans (sep_assoc _ _ _)
            exact Triple.load (a := a) hp (again e2)
          | hash a h p =>
            have hp : (⟨root, ⟨.hash a h p, depth, resolved, child⟩ :: gs, true, done⟩ : GIter).heap = pts a (.hash h p) ∗∗ R := hR
            exact Triple.load (a := a) hp (again e2)
          | leaf a h p k v vp =>
            have e3 : (do
              let r ← storeRetrieve s (v.map Prod.snd) vp
              match r with
              | none => pure ((⟨root, ⟨.leaf a h p k v vp, depth, resolved, child⟩ :: gs, true, done⟩ : GIter).f, .error .ECORRUPTION)
              | some x => pure ((⟨root, ⟨.leaf a h p k v vp, depth, resolved, child⟩ :: gs, true, done⟩ : GIter).f, .ok (k, x))) = Res.ok (it, r) := e2
            obtain ⟨o, e4, e5⟩ := Res.bind_eq_ok.1 e3
            have hR' : heapOf root (⟨.leaf a h p k v vp, depth, resolved, child⟩ :: gs) = ownA (.leaf a h p k v vp) ∗∗ R := hR
            have hfin : ∀ {r'' : Except Err (B32 × Bytes)}, it = (⟨root, ⟨.leaf a h p k v vp, depth, resolved, child⟩ :: gs, true, done⟩ : GIter).f → r = r'' →
                Triple (⟨root, ⟨.leaf a h p k v vp, depth, resolved, child⟩ :: gs, true, done⟩ : GIter).heap
                  (pure ((⟨root, ⟨.leaf a h p k v vp, depth, resolved, child⟩ :: gs, true, done⟩ : GIter).h c, r'')) (moved c g it r) := by
              intro r'' h1 h2
              exact Triple.ret fun m hm => moved_intro (g' := ⟨root, ⟨.leaf a h p k v vp, depth, resolved, child⟩ :: gs, true, done⟩) h1 (by rw [h2]) hg1 hr1 hm
            have hret : ∀ {Q : HIter × Except Err (B32 × Bytes) → SProp} {kk : Option Bytes → HM (HIter × Except Err (B32 × Bytes))},
                Triple (⟨root, ⟨.leaf a h p k v vp, depth, resolved, child⟩ :: gs, true, done⟩ : GIter).heap (kk o) Q →
                Triple (⟨root, ⟨.leaf a h p k v vp, depth, resolved, child⟩ :: gs, true, done⟩ : GIter).heap (hRetrieve s a >>= kk) Q := by
              intro Q kk hk
              refine Triple.call (P0 := ownA (.leaf a h p k v vp)) (x := o) (P1 := ownA (.leaf a h p k v vp)) ?_ hR' (hR'.symm ▸ hk)
              cases v with
              | none =>
                have := hRetrieve_spec (a := a) (h := h) (p := p) (k := k) e4
                exact this
              | some v =>
                obtain ⟨x, v⟩ := v
                have hpk : Triple (ownA (.leaf a h p k (some (x, v)) vp)) (hPeek1 a)
                    (fun y => lpure (y = .leaf h p k (some v) vp) ∗∗ ownA (.leaf a h p k (some (x, v)) vp)) := by
                  unfold hPeek1
                  refine Triple.load (a := a) (c := .leaf h p k (some x) vp) (R := pts x (.bytes v)) rfl ?_
                  refine loadBytes_spec (x := x) (sep_comm _ _) ?_
                  exact Triple.ret fun m hm => lpure_sep.2 ⟨rfl, hm⟩
                refine Triple.call (R := emp) hpk (sep_emp _).symm ?_
                rw [sep_emp]
                refine Triple.last (Triple.lift e4 ?_)
                exact Triple.ret fun m hm => lpure_sep.2 ⟨rfl, hm⟩
            have hp : ∃ av R, (⟨root, ⟨.leaf a h p k v vp, depth, resolved, child⟩ :: gs, true, done⟩ : GIter).heap = pts a (.leaf h p k av vp) ∗∗ R := by
              cases v with
              | none => exact ⟨none, R, hR⟩
              | some v => exact ⟨some v.1, pts v.1 (.bytes v.2) ∗∗ R, hR.trans (sep_assoc _ _ _)⟩
            obtain ⟨av, R', hp⟩ := hp
            refine Triple.load (a := a) hp ?_
            refine hret ?_
            cases o with
            | none => cases e5; exact hfin rfl rfl
            | some o => cases e5; exact hfin rfl rfl

/-- The iterator's own blocks. -/
def ownIter (c : GConst) : SProp := pts c.obj .raw ∗∗ pts c.lock .raw

theorem hIterNext_spec {A : Alloc} {db : Db} {c : GConst} {g : GIter} {it : Iter} {r : Except Err (B32 × Bytes)}
    (hg : GOk g.root g.gs) (e : iterNext db g.f = .ok (it, r)) :
    Triple (g.heap ∗∗ ownIter c) (hIterNext A db (g.h c)) (fun x => moved c g it r x ∗∗ ownIter c) := by
  unfold hIterNext ownIter
  refine Triple.load (a := c.obj) (c := .raw) (R := g.heap ∗∗ pts c.lock .raw) (by ac_rfl) ?_
  refine Triple.load (a := c.lock) (c := .raw) (R := g.heap ∗∗ pts c.obj .raw) (by ac_rfl) ?_
  exact Triple.frame (hNextLoop_spec (A := A) (c := c) iterFuel g it r hg e)

theorem hIterCalls_spec {A : Alloc} {c : GConst} : ∀ (dbs : List Db) {g : GIter} {rs : List (Except Err (B32 × Bytes))},
    GOk g.root g.gs → iterCalls g.f dbs = .ok rs →
    Triple (g.heap ∗∗ ownIter c) (hIterCalls A (g.h c) dbs) (fun x => ex fun g' : GIter =>
      lpure (x = (g'.h c, rs) ∧ GOk g'.root g'.gs ∧ g'.root = g.root) ∗∗ (g'.heap ∗∗ ownIter c)) := by
  intro dbs
  induction dbs with
  | nil =>
    intro g rs hg e
    cases e
    exact Triple.ret fun m hm => ⟨g, lpure_sep.2 ⟨⟨rfl, hg, rfl⟩, hm⟩⟩
  | cons db dbs ih =>
    intro g rs hg e
    obtain ⟨⟨it1, r⟩, e1, e2⟩ := Res.bind_eq_ok.1 e
    obtain ⟨rs', e3, e4⟩ := Res.bind_eq_ok.1 e2
    cases e4
    unfold hIterCalls
    refine Triple.bind (hIterNext_spec (A := A) (c := c) hg e1) (R := emp) (sep_emp _).symm fun x => ?_
    rw [sep_emp]
    unfold moved
    rw [ex_sep]
    refine Triple.ex_pre fun g1 => ?_
    rw [sep_assoc]
    refine Triple.pure_pre fun h1 => ?_
    obtain ⟨rfl, rfl, hg1, hr1⟩ := h1
    refine Triple.bind (ih (g := g1) hg1 e3) (R := emp) (sep_emp _).symm fun y => ?_
    rw [sep_emp]
    refine Triple.ex_pre fun g2 => Triple.pure_pre fun h2 => ?_
    obtain ⟨rfl, hg2, hr2⟩ := h2
    exact Triple.ret fun m hm => ⟨g2, lpure_sep.2 ⟨⟨rfl, hg2, hr2.trans hr1⟩, hm⟩⟩

/-- Destroying the frames leaves the tree of the transaction. -/
theorem hIterFrames_spec {root : ANode} : ∀ gs : List GFrame, Triple (heapOf root gs) (hIterFrames (gs.map GFrame.h)) (fun _ => ownA root) := by
  intro gs
  induction gs with
  | nil => exact Triple.ret fun m hm => hm
  | cons g gs ih =>
    obtain ⟨t, depth, resolved, child⟩ := g
    cases resolved with
    | false => exact Triple.bind ih (R := emp) (sep_emp _).symm fun _ => by rw [sep_emp]; exact Triple.ret fun m hm => hm
    | true =>
      refine Triple.bind ih (R := ownA t) (sep_comm _ _) fun _ => ?_
      refine Triple.pre (P' := own t.addr t.node ∗∗ ownA root) ?_ ?_
      · intro m hm
        rw [sep_comm] at hm
        exact sep_mono (fun m h => ownA_own t m h) hm
      · refine Triple.last (Triple.destroy (a := t.addr) (n := t.node) rfl ?_)
        exact Triple.ret fun m hm => hm

end Urkel
