import Verif.Model.Heap
import Mathlib.Data.List.Perm.Subperm
/-
Separation logic for Model/Heap.lean.
-/
namespace Urkel

/-- Statements about a part of the heap. -/
abbrev SProp := (Nat → Option Cell) → Prop

/-- The part is empty. -/
def emp : SProp := fun m => ∀ a, m a = none

/-- The part is one block. -/
def pts (a : Nat) (c : Cell) : SProp := fun m => ∀ x, m x = if x = a then some c else none

/-- The part has two disjoint parts. -/
def sep (P Q : SProp) : SProp := fun m =>
  ∃ m1 m2 : Nat → Option Cell, (∀ a, m1 a = none ∨ m2 a = none) ∧ (∀ a, m a = (m1 a).or (m2 a)) ∧ P m1 ∧ Q m2

@[inherit_doc] infixr:60 " ∗∗ " => sep

def lpure (p : Prop) : SProp := fun m => p ∧ emp m

def ex {α : Type} (P : α → SProp) : SProp := fun m => ∃ x, P x m

theorem sep_comm (P Q : SProp) : P ∗∗ Q = Q ∗∗ P := by
  have h : ∀ P Q : SProp, ∀ m, (P ∗∗ Q) m → (Q ∗∗ P) m := by
    rintro P Q m ⟨m1, m2, hd, he, h1, h2⟩
    refine ⟨m2, m1, fun a => (hd a).symm, fun a => ?_, h2, h1⟩
    rw [he]
    rcases hd a with h | h <;> rw [h] <;> simp
  funext m
  exact propext ⟨h P Q m, h Q P m⟩

theorem sep_assoc (P Q R : SProp) : (P ∗∗ Q) ∗∗ R = P ∗∗ (Q ∗∗ R) := by
  have h1 : ∀ P Q R : SProp, ∀ m, ((P ∗∗ Q) ∗∗ R) m → (P ∗∗ (Q ∗∗ R)) m := by
    rintro P Q R m ⟨m12, m3, hd, he, ⟨m1, m2, hd', he', h1, h2⟩, h3⟩
    refine ⟨m1, fun a => (m2 a).or (m3 a), fun a => ?_, fun a => ?_, h1, m2, m3, fun a => ?_, fun a => rfl, h2, h3⟩
    · have := hd a
      rw [he' a] at this
      rcases hd' a with h | h
      · exact .inl h
      · rcases this with h' | h'
        · left; cases hh : m1 a <;> simp_all
        · right; show (m2 a).or (m3 a) = none; rw [h, h']; rfl
    · rw [he, he']; cases m1 a <;> simp
    · have := hd a
      rw [he' a] at this
      rcases this with h' | h'
      · left
        cases hh : m2 a with
        | none => rfl
        | some c => rw [hh] at h'; cases hm : m1 a <;> rw [hm] at h' <;> simp at h'
      · exact .inr h'
  funext m
  refine propext ⟨h1 P Q R m, fun h => ?_⟩
  rw [sep_comm P, sep_comm Q] at h
  have := h1 R Q P m h
  rw [sep_comm R, sep_comm Q P] at this
  exact this

theorem emp_sep (P : SProp) : emp ∗∗ P = P := by
  funext m
  refine propext ⟨?_, fun h => ⟨fun _ => none, m, fun _ => .inl rfl, fun a => by simp, fun _ => rfl, h⟩⟩
  rintro ⟨m1, m2, _, he, h1, h2⟩
  have : m = m2 := by funext a; rw [he, h1 a]; simp
  rw [this]; exact h2

theorem sep_emp (P : SProp) : P ∗∗ emp = P := by rw [sep_comm, emp_sep]

instance : Std.Commutative sep := ⟨sep_comm⟩
instance : Std.Associative sep := ⟨sep_assoc⟩

theorem sep_left_comm (P Q R : SProp) : P ∗∗ (Q ∗∗ R) = Q ∗∗ (P ∗∗ R) := by ac_rfl

theorem ex_sep {α : Type} (P : α → SProp) (R : SProp) : ex P ∗∗ R = ex fun x => P x ∗∗ R := by
  funext m
  refine propext ⟨?_, ?_⟩
  · rintro ⟨m1, m2, hd, he, ⟨x, h1⟩, h2⟩; exact ⟨x, m1, m2, hd, he, h1, h2⟩
  · rintro ⟨x, m1, m2, hd, he, h1, h2⟩; exact ⟨m1, m2, hd, he, ⟨x, h1⟩, h2⟩

theorem sep_ex {α : Type} (P : α → SProp) (R : SProp) : R ∗∗ ex P = ex fun x => R ∗∗ P x := by
  rw [sep_comm, ex_sep]; simp only [sep_comm R]

theorem lpure_true {p : Prop} (h : p) (P : SProp) : lpure p ∗∗ P = P := by
  have : lpure p = emp := by funext m; exact propext ⟨And.right, fun e => ⟨h, e⟩⟩
  rw [this, emp_sep]

theorem lpure_sep {p : Prop} {P : SProp} {m : Nat → Option Cell} : (lpure p ∗∗ P) m ↔ p ∧ P m := by
  refine ⟨?_, fun ⟨h, hm⟩ => by rw [lpure_true h]; exact hm⟩
  intro h
  have hp : p := by obtain ⟨m1, m2, _, _, ⟨hp, _⟩, _⟩ := h; exact hp
  exact ⟨hp, by rwa [lpure_true hp] at h⟩

/-- Two blocks of disjoint parts have different addresses. -/
theorem pts_ne {a b : Nat} {c d : Cell} {R : SProp} {m : Nat → Option Cell} (h : (pts a c ∗∗ pts b d ∗∗ R) m) : a ≠ b := by
  obtain ⟨m1, m2, hd, he, h1, m3, m4, hd', he', h3, _⟩ := h
  rintro rfl
  have := hd a
  rw [h1 a, he' a, h3 a] at this
  simp at this

theorem sep_mono {P P' Q : SProp} (h : ∀ m, P m → P' m) {m : Nat → Option Cell} : (P ∗∗ Q) m → (P' ∗∗ Q) m := by
  rintro ⟨m1, m2, hd, he, h1, h2⟩
  exact ⟨m1, m2, hd, he, h _ h1, h2⟩

theorem sep_perm {P Q : SProp} {m : Nat → Option Cell} (h : P m) (e : P = Q) : Q m := e ▸ h

/-- The goal is a hypothesis up to the order of the parts. -/
macro "perm " h:term : tactic => `(tactic| (refine sep_perm $h ?_; first | rfl | (simp only [sep_emp, emp_sep]; done) | (simp only [sep_emp, emp_sep]; ac_rfl) | ac_rfl))

/-! ### The heap as a function -/

def view (h : Heap) : Nat → Option Cell := fun a => h.lookup a

theorem view_cons (a : Nat) (c : Cell) (h : Heap) (x : Nat) : view ((a, c) :: h) x = if x = a then some c else view h x := by
  unfold view
  rw [List.lookup_cons]
  by_cases hx : x = a
  · simp [hx]
  · rw [beq_false_of_ne hx, if_neg hx]

theorem view_filter (a : Nat) (h : Heap) (x : Nat) : view (h.filter fun e => e.1 != a) x = if x = a then none else view h x := by
  induction h with
  | nil => simp [view]
  | cons e t ih =>
    obtain ⟨b, c⟩ := e
    rw [List.filter_cons]
    split
    · rename_i hb
      rw [view_cons, view_cons, ih]
      by_cases h1 : x = b
      · subst h1
        have : x ≠ a := by simpa using hb
        simp [this]
      · simp [h1]
    · rename_i hb
      rw [ih, view_cons]
      have : b = a := by simpa using hb
      subst this
      by_cases h1 : x = b <;> simp [h1]

theorem heap_empty {h : Heap} (e : emp (view h)) : h = [] := by
  cases h with
  | nil => rfl
  | cons x t =>
    obtain ⟨a, c⟩ := x
    have := e a
    rw [view_cons] at this
    simp at this

/-! ### Triples -/

/-- From every heap with a part `P`, the computation returns, and leaves `Q` in the place
of `P` and the rest as it was. -/
def Triple {α : Type} (P : SProp) (m : HM α) (Q : α → SProp) : Prop :=
  ∀ (F : SProp) (h : Heap), (P ∗∗ F) (view h) → ∃ a h', m h = .ok (a, h') ∧ (Q a ∗∗ F) (view h')

theorem HM.bind_of {α β : Type} {m : HM α} {k : α → HM β} {h h' : Heap} {a : α} (e : m h = .ok (a, h')) : (m >>= k) h = k a h' := by
  show (match m h with | .ok (a, h) => k a h | .err e => .err e | .abort => .abort | .ub => .ub) = _
  rw [e]

namespace Triple
variable {α β : Type}

theorem ret {P : SProp} {Q : α → SProp} {a : α} (h : ∀ m, P m → Q a m) : Triple P (pure a) Q :=
  fun _ x hx => ⟨a, x, rfl, sep_mono h hx⟩

theorem bind {P R : SProp} {Q0 : α → SProp} {Q : β → SProp} {m : HM α} {k : α → HM β} {P0 : SProp} (hm : Triple P0 m Q0)
    (hP : P = P0 ∗∗ R) (hk : ∀ a, Triple (Q0 a ∗∗ R) (k a) Q) : Triple P (m >>= k) Q := by
  intro F h hh
  rw [hP, sep_assoc] at hh
  obtain ⟨a, h', e, h1⟩ := hm _ _ hh
  rw [← sep_assoc] at h1
  obtain ⟨b, h2, e2, h3⟩ := hk a F h' h1
  exact ⟨b, h2, (HM.bind_of e).trans e2, h3⟩

theorem last {P : SProp} {Q : α → SProp} {m : HM α} (h : Triple P (m >>= fun a => pure a) Q) : Triple P m Q := by
  intro F x hx
  obtain ⟨a, h', e, h1⟩ := h F x hx
  refine ⟨a, h', ?_, h1⟩
  rw [← e]
  show m x = (match m x with | .ok (a, h) => Res.ok (a, h) | .err e => .err e | .abort => .abort | .ub => .ub)
  cases m x <;> rfl

theorem post {P : SProp} {Q Q' : α → SProp} {m : HM α} (h : Triple P m Q) (hq : ∀ a m, Q a m → Q' a m) : Triple P m Q' := by
  intro F x hx
  obtain ⟨a, h', e, h1⟩ := h F x hx
  exact ⟨a, h', e, sep_mono (hq a) h1⟩

theorem pre {P P' : SProp} {Q : α → SProp} {m : HM α} (hp : ∀ m, P m → P' m) (h : Triple P' m Q) : Triple P m Q :=
  fun F x hx => h F x (sep_mono hp hx)

theorem ex_pre {γ : Type} {P : γ → SProp} {Q : α → SProp} {m : HM α} (h : ∀ x, Triple (P x) m Q) : Triple (ex P) m Q := by
  intro F x hx
  rw [ex_sep] at hx
  obtain ⟨y, hy⟩ := hx
  exact h y F x hy

theorem pure_pre {p : Prop} {P : SProp} {Q : α → SProp} {m : HM α} (h : p → Triple P m Q) : Triple (lpure p ∗∗ P) m Q := by
  intro F x hx
  rw [sep_assoc] at hx
  obtain ⟨hp, hx⟩ := lpure_sep.1 hx
  exact h hp F x hx

theorem frame {P R : SProp} {Q : α → SProp} {m : HM α} (h : Triple P m Q) : Triple (P ∗∗ R) m (fun a => Q a ∗∗ R) := by
  intro F x hx
  rw [sep_assoc] at hx
  obtain ⟨a, h', e, h1⟩ := h _ x hx
  exact ⟨a, h', e, by rw [sep_assoc]; exact h1⟩

theorem malloc {P : SProp} {Q : β → SProp} {A : Alloc} {c : Cell} {k : Nat → HM β} (h : ∀ a, Triple (pts a c ∗∗ P) (k a) Q) :
    Triple P (Urkel.malloc A c >>= k) Q := by
  intro F x hx
  refine h (A.pick x) F ((A.pick x, c) :: x) ?_
  rw [sep_assoc]
  refine ⟨fun y => if y = A.pick x then some c else none, view x, fun a => ?_, fun a => ?_, fun y => rfl, hx⟩
  · by_cases ha : a = A.pick x
    · right; rw [ha]; exact A.fresh x
    · left; exact if_neg ha
  · rw [view_cons]
    dsimp only
    by_cases ha : a = A.pick x
    · rw [if_pos ha, if_pos ha]; rfl
    · rw [if_neg ha, if_neg ha]; simp

theorem look {a : Nat} {c : Cell} {R : SProp} {x : Heap} (h : (pts a c ∗∗ R) (view x)) : x.lookup a = some c := by
  obtain ⟨m1, m2, _, he, h1, _⟩ := h
  have := he a
  rw [h1 a, if_pos rfl] at this
  exact this

theorem load {P R : SProp} {Q : β → SProp} {a : Nat} {c : Cell} {k : Cell → HM β} (hP : P = pts a c ∗∗ R) (h : Triple P (k c) Q) :
    Triple P (Urkel.load a >>= k) Q := by
  intro F x hx
  obtain ⟨b, h', e, h1⟩ := h F x hx
  refine ⟨b, h', ?_, h1⟩
  rw [hP, sep_assoc] at hx
  refine (HM.bind_of ?_).trans e
  unfold Urkel.load
  rw [look hx]

theorem erase {a : Nat} {c : Cell} {R : SProp} {x : Heap} (h : (pts a c ∗∗ R) (view x)) : R (view (x.filter fun e => e.1 != a)) := by
  obtain ⟨m1, m2, hd, he, h1, h2⟩ := h
  have : view (x.filter fun e => e.1 != a) = m2 := by
    funext y
    rw [view_filter]
    by_cases hy : y = a
    · rw [if_pos hy, hy]
      rcases hd a with hh | hh
      · rw [h1 a, if_pos rfl] at hh; cases hh
      · exact hh.symm
    · rw [if_neg hy, he, h1 y, if_neg hy]; simp
  rw [this]; exact h2

theorem free {P R : SProp} {Q : β → SProp} {a : Nat} {c : Cell} {k : Unit → HM β} (hP : P = pts a c ∗∗ R) (h : Triple R (k ()) Q) :
    Triple P (Urkel.free a >>= k) Q := by
  intro F x hx
  rw [hP, sep_assoc] at hx
  obtain ⟨b, h', e, h1⟩ := h F _ (erase hx)
  refine ⟨b, h', ?_, h1⟩
  refine (HM.bind_of ?_).trans e
  unfold Urkel.free
  rw [look hx]

theorem update {P R : SProp} {Q : β → SProp} {a : Nat} {c : Cell} {f : Cell → Cell} {k : Unit → HM β} (hP : P = pts a c ∗∗ R)
    (h : Triple (pts a (f c) ∗∗ R) (k ()) Q) : Triple P (Urkel.update a f >>= k) Q := by
  intro F x hx
  rw [hP, sep_assoc] at hx
  have hx' : (pts a (f c) ∗∗ R ∗∗ F) (view ((a, f c) :: x.filter fun e => e.1 != a)) := by
    refine ⟨fun y => if y = a then some (f c) else none, view (x.filter fun e => e.1 != a), fun y => ?_, fun y => ?_, fun y => rfl, erase hx⟩
    · by_cases hy : y = a
      · right; rw [view_filter, if_pos hy]
      · left; exact if_neg hy
    · rw [view_cons]
      dsimp only
      by_cases hy : y = a
      · rw [if_pos hy, if_pos hy]; rfl
      · rw [if_neg hy, if_neg hy]; simp
  rw [← sep_assoc] at hx'
  obtain ⟨b, h', e, h1⟩ := h F _ hx'
  refine ⟨b, h', ?_, h1⟩
  refine (HM.bind_of ?_).trans e
  unfold Urkel.update
  rw [look hx]

theorem lift {P : SProp} {Q : β → SProp} {r : Res α} {x : α} {k : α → HM β} (hr : r = .ok x) (h : Triple P (k x) Q) :
    Triple P (HM.lift r >>= k) Q := by
  subst hr
  exact h

end Triple

/-- `P = P0 ∗∗ ?R`: finds `?R`. -/
syntax "frames" : tactic
open Lean Meta Elab Tactic in
elab_rules : tactic
  | `(tactic| frames) => withMainContext do
    let g ← getMainGoal
    let t ← instantiateMVars (← g.getType)
    let rec atoms : Nat → Expr → MetaM (List Expr)
      | 0, e => return [e]
      | n + 1, e => do
        let e ← instantiateMVars e
        match e.getAppFnArgs with
        | (``Urkel.sep, #[p, q]) => return (← atoms n p) ++ (← atoms n q)
        | (``Urkel.emp, #[]) => return []
        | _ => return [e]
    match t.getAppFnArgs with
    | (``Eq, #[_, lhs, rhs]) =>
      match rhs.getAppFnArgs with
      | (``Urkel.sep, #[p0, r]) =>
        let mut have_ ← atoms 100 lhs
        for p in ← atoms 100 p0 do
          let mut found := false
          let mut rest := []
          for q in have_ do
            if found then rest := rest ++ [q]
            else if ← withReducible (isDefEq p q) then found := true
            else rest := rest ++ [q]
          unless found do throwError "frames: {p} not found in {have_}"
          have_ := rest
        let body : Expr := match have_.reverse with
          | [] => mkConst ``Urkel.emp
          | q :: qs => qs.foldl (fun acc e => mkApp2 (mkConst ``Urkel.sep) e acc) q
        unless ← isDefEq r body do throwError "frames: cannot assign {r}"
        evalTactic (← `(tactic| (first | rfl | (simp only [sep_emp, emp_sep]; done) | (simp only [sep_emp, emp_sep]; ac_rfl) | ac_rfl)))
      | _ => throwError "frames: not a separating conjunction: {rhs}"
    | _ => throwError "frames: not an equation"

end Urkel
