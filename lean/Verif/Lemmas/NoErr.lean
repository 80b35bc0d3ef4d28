import Verif.Model.Api
/-
Functions that never fail with an error code.
-/
namespace Urkel

def NoErr {α : Type} (r : Res α) : Prop := ∀ e, r ≠ .err e

namespace NoErr
variable {α β : Type}

theorem ok (a : α) : NoErr (Res.ok a) := fun _ h => nomatch h
theorem abort : NoErr (Res.abort : Res α) := fun _ h => nomatch h
theorem ub : NoErr (Res.ub : Res α) := fun _ h => nomatch h

theorem bind {r : Res α} {f : α → Res β} (h : NoErr r) (hf : ∀ a, NoErr (f a)) : NoErr (r >>= f) := by
  cases r with
  | ok a => exact hf a
  | err e => exact absurd rfl (h e)
  | abort => exact abort
  | ub => exact ub

theorem check (b : Bool) : NoErr (check b) := by cases b <;> intro e h <;> cases h

theorem ite {p : Prop} [Decidable p] {a b : Res α} (ha : NoErr a) (hb : NoErr b) : NoErr (if p then a else b) := by
  split <;> assumption

end NoErr

theorem catch_cases {α : Type} {x : Res α} {r : Except Err α} (h : catchErr x = .ok r) (hn : NoErr x) : ∃ a, x = .ok a ∧ r = .ok a := by
  cases x with
  | ok a => cases h; exact ⟨a, rfl, rfl⟩
  | err e => exact absurd rfl (hn e)
  | abort => cases h
  | ub => cases h

/-- A caught call after a computation that has no error code. -/
theorem catch_bind {α β : Type} {x : Res α} {f : α → Res β} {r : Except Err β} (h : catchErr (x >>= f) = .ok r) (hn : NoErr x) :
    ∃ a, x = .ok a ∧ catchErr (f a) = .ok r := by
  cases x with
  | ok a => exact ⟨a, rfl, h⟩
  | err e => exact absurd rfl (hn e)
  | abort => cases h
  | ub => cases h

/-- A caught call after one that may fail. -/
theorem catch_bind' {α β : Type} {x : Res α} {f : α → Res β} {r : Except Err β} (h : catchErr (x >>= f) = .ok r) :
    (∃ e, x = .err e ∧ r = .error e) ∨ ∃ a, x = .ok a ∧ catchErr (f a) = .ok r := by
  cases x with
  | ok a => exact .inr ⟨a, rfl, h⟩
  | err e => cases h; exact .inl ⟨e, rfl, rfl⟩
  | abort => cases h
  | ub => cases h

theorem getBit_ne (d : Bytes) (i : Nat) : NoErr (getBit d i) := by
  unfold getBit; split <;> first | exact .ok _ | exact .ub

theorem setBit_ne (d : Bytes) (i : Nat) (b : Bool) : NoErr (setBit d i b) := by
  unfold setBit; split <;> first | exact .ok _ | exact .ub

theorem bitsInit_ne (n : Nat) : NoErr (bitsInit n) := (NoErr.check _).bind fun _ => .ok _

theorem bitsGet_ne (b : Bits) (i : Nat) : NoErr (bitsGet b i) := (NoErr.check _).bind fun _ => getBit_ne _ _

theorem bitsSet_ne (b : Bits) (i : Nat) (v : Bool) : NoErr (bitsSet b i v) :=
  (NoErr.check _).bind fun _ => (setBit_ne _ _ _).bind fun _ => .ok _

theorem bitsCountLoop_ne (b : Bits) (key : Bytes) : ∀ len i d c, NoErr (bitsCountLoop b key len i d c)
  | 0, _, _, _ => .ok _
  | len + 1, i, d, c => (bitsGet_ne _ _).bind fun _ => (getBit_ne _ _).bind fun _ => .ite (.ok _) (bitsCountLoop_ne b key len _ _ _)

theorem bitsCountAt_ne (b : Bits) (i : Nat) (key : Bytes) (d : Nat) : NoErr (bitsCountAt b i key d) :=
  (NoErr.check _).bind fun _ => (NoErr.check _).bind fun _ => (NoErr.check _).bind fun _ => bitsCountLoop_ne _ _ _ _ _ _

theorem bitsCount_ne (b : Bits) (key : Bytes) (d : Nat) : NoErr (bitsCount b key d) := bitsCountAt_ne _ _ _ _

theorem bitsHas_ne (b : Bits) (key : Bytes) (d : Nat) : NoErr (bitsHas b key d) := (bitsCount_ne _ _ _).bind fun _ => .ok _

theorem bitsCopyLoop_ne (src : Bits) : ∀ n i j out, NoErr (bitsCopyLoop src n i j out)
  | 0, _, _, _ => .ok _
  | n + 1, i, j, out => (bitsGet_ne _ _).bind fun _ => (bitsSet_ne _ _ _).bind fun _ => bitsCopyLoop_ne src n _ _ _

theorem bitsSlice_ne (b : Bits) (i j : Nat) : NoErr (bitsSlice b i j) :=
  (NoErr.check _).bind fun _ => (bitsInit_ne _).bind fun _ => bitsCopyLoop_ne _ _ _ _ _

theorem bitsSplit_ne (b : Bits) (i : Nat) : NoErr (bitsSplit b i) :=
  (bitsSlice_ne _ _ _).bind fun _ => (bitsSlice_ne _ _ _).bind fun _ => .ok _

theorem bitsCollide_ne (b : Bits) (key : Bytes) (d : Nat) : NoErr (bitsCollide b key d) :=
  (bitsCountAt_ne _ _ _ _).bind fun _ => bitsSlice_ne _ _ _

theorem bitsJoin_ne (l r : Bits) (b : Bool) : NoErr (bitsJoin l r b) :=
  (bitsInit_ne _).bind fun _ => (bitsSet_ne _ _ _).bind fun _ => bitsCopyLoop_ne _ _ _ _ _

theorem bitsSize_ne (b : Bits) : NoErr (bitsSize b) := (NoErr.check _).bind fun _ => .ok _

theorem bitsWrite_ne (b : Bits) : NoErr (bitsWrite b) := (NoErr.check _).bind fun _ => .ok _

theorem takeN_ne (n : Nat) (d : Bytes) : NoErr (takeN n d) := by
  unfold takeN; exact .ite .ub (.ok _)

theorem take32_ne (d : Bytes) : NoErr (take32 d) := by
  unfold take32; split
  · exact .ub
  · exact .ok _

theorem ptrRead_ne (d : Bytes) : NoErr (ptrRead d) :=
  (takeN_ne _ _).bind fun _ => (takeN_ne _ _).bind fun _ => (takeN_ne _ _).bind fun _ => .ok _

theorem nodeReadChildren_ne (pre : Bits) (d : Bytes) : NoErr (nodeReadChildren pre d) :=
  .ite (.ok _) ((ptrRead_ne _).bind fun _ => (take32_ne _).bind fun _ => (ptrRead_ne _).bind fun _ => (take32_ne _).bind fun _ => .ok _)

theorem nodeRead_ne (d : Bytes) : NoErr (nodeRead d) := by
  unfold nodeRead
  refine .ite (.ok _) ((takeN_ne _ _).bind fun t => ?_)
  refine .ite (.ite (.ite (.ok _) (.ite ?_ ?_)) ?_) (.ite (.ite (.ok _) ?_) (.ok _))
  · exact (takeN_ne _ _).bind fun _ => .ite (.ok _) (.ite (.ok _) ((bitsInit_ne _).bind fun _ => (takeN_ne _ _).bind fun _ => nodeReadChildren_ne _ _))
  · exact (takeN_ne _ _).bind fun _ => .ite (.ok _) (.ite (.ok _) ((bitsInit_ne _).bind fun _ => (takeN_ne _ _).bind fun _ => nodeReadChildren_ne _ _))
  · exact (bitsInit_ne _).bind fun _ => nodeReadChildren_ne _ _
  · exact (ptrRead_ne _).bind fun _ => (take32_ne _).bind fun _ => .ok _

theorem storeReadInto_ne (c : Nat) (s : Store) (n i p : Nat) : NoErr (storeReadInto c s n i p) := .ite .ub (.ok _)

theorem storeReadNode_ne (s : Store) (p : Ptr) : NoErr (storeReadNode s p) := by
  unfold storeReadNode
  refine .ite (.ok _) ((storeReadInto_ne _ _ _ _ _).bind fun x => ?_)
  split
  · exact .ok _
  · refine (nodeRead_ne _).bind fun r => ?_
    split <;> exact .ok _

theorem storeResolve_ne (s : Store) (h : B32) (p : Ptr) : NoErr (storeResolve s h p) := by
  refine (storeReadNode_ne s p).bind fun r => ?_
  split <;> exact .ok _

theorem storeRetrieve_ne (s : Store) (v : Option Bytes) (vp : Option Ptr) : NoErr (storeRetrieve s v vp) := by
  unfold storeRetrieve
  split
  · exact (NoErr.check _).bind fun _ => .ok _
  · exact .abort
  · exact .ite (.ok _) (storeReadInto_ne _ _ _ _ _)

theorem nodeHash_ne (H : HashFn) : ∀ n, NoErr (nodeHash H n) := by
  intro n
  induction n with
  | null => exact .ok _
  | hash h p => exact .ok _
  | leaf h p k v vp =>
    cases h with
    | some h => exact .ok _
    | none => cases v with
      | none => exact .abort
      | some v => exact .ok _
  | internal h p pre l r ihl ihr =>
    cases h with
    | some h => exact .ok _
    | none => exact ihl.bind fun _ => ihr.bind fun _ => .ok _

/-- What can be read from a file. -/
theorem nodeRead_shape {d : Bytes} {n : Node} (e : nodeRead d = .ok (some n)) :
    (∃ pre hl pl hr pr, n = .internal none none pre (.hash hl pl) (.hash hr pr)) ∨ ∃ k vp, n = .leaf none none k none (some vp) := by
  have hc : ∀ pre d, nodeReadChildren pre d = .ok (some n) → ∃ pre hl pl hr pr, n = .internal none none pre (.hash hl pl) (.hash hr pr) := by
    intro pre d e
    unfold nodeReadChildren at e
    split at e
    · cases e
    · obtain ⟨⟨pl, d1⟩, _, e⟩ := Res.bind_eq_ok.1 e
      obtain ⟨⟨hl, d2⟩, _, e⟩ := Res.bind_eq_ok.1 e
      obtain ⟨⟨pr, d3⟩, _, e⟩ := Res.bind_eq_ok.1 e
      obtain ⟨⟨hr, d4⟩, _, e⟩ := Res.bind_eq_ok.1 e
      cases e
      exact ⟨_, _, _, _, _, rfl⟩
  unfold nodeRead at e
  split at e
  · cases e
  · obtain ⟨⟨t, d1⟩, _, e⟩ := Res.bind_eq_ok.1 e
    dsimp only at e
    split at e
    · split at e
      · split at e
        · cases e
        · split at e
          · obtain ⟨⟨x, d2⟩, _, e⟩ := Res.bind_eq_ok.1 e
            dsimp only at e
            split at e
            · cases e
            · split at e
              · cases e
              · obtain ⟨b, _, e⟩ := Res.bind_eq_ok.1 e
                obtain ⟨⟨y, d3⟩, _, e⟩ := Res.bind_eq_ok.1 e
                exact .inl (hc _ _ e)
          · obtain ⟨⟨x, d2⟩, _, e⟩ := Res.bind_eq_ok.1 e
            dsimp only at e
            split at e
            · cases e
            · split at e
              · cases e
              · obtain ⟨b, _, e⟩ := Res.bind_eq_ok.1 e
                obtain ⟨⟨y, d3⟩, _, e⟩ := Res.bind_eq_ok.1 e
                exact .inl (hc _ _ e)
      · obtain ⟨b, _, e⟩ := Res.bind_eq_ok.1 e
        exact .inl (hc _ _ e)
    · split at e
      · split at e
        · cases e
        · obtain ⟨⟨vp, d2⟩, _, e⟩ := Res.bind_eq_ok.1 e
          obtain ⟨⟨k, d3⟩, _, e⟩ := Res.bind_eq_ok.1 e
          cases e
          exact .inr ⟨_, _, rfl⟩
      · cases e

theorem storeResolve_shape {s : Store} {h : B32} {p : Ptr} {n : Node} (e : storeResolve s h p = .ok (some n)) :
    (∃ p pre hl pl hr pr, n = .internal (some h) p pre (.hash hl pl) (.hash hr pr)) ∨ ∃ p k vp, n = .leaf (some h) p k none vp := by
  unfold storeResolve at e
  obtain ⟨r, e1, e⟩ := Res.bind_eq_ok.1 e
  have hr : ∀ n, r = some n → (∃ p pre hl pl hr pr, n = .internal none p pre (.hash hl pl) (.hash hr pr)) ∨ ∃ p k vp, n = .leaf none p k none vp := by
    intro n hn
    subst hn
    unfold storeReadNode at e1
    split at e1
    · cases e1
    · obtain ⟨x, _, e1⟩ := Res.bind_eq_ok.1 e1
      split at e1
      · cases e1
      · obtain ⟨q, e2, e1⟩ := Res.bind_eq_ok.1 e1
        cases q with
        | none => cases e1
        | some q =>
          rcases nodeRead_shape e2 with ⟨pre, hl, pl, hr, pr, rfl⟩ | ⟨k, vp, rfl⟩
          · cases e1; exact .inl ⟨_, _, _, _, _, _, rfl⟩
          · cases e1; exact .inr ⟨_, _, _, rfl⟩
  cases r with
  | none => cases e
  | some n' =>
    rcases hr n' rfl with ⟨p, pre, hl, pl, hr, pr, rfl⟩ | ⟨p, k, vp, rfl⟩
    · cases e; exact .inl ⟨_, _, _, _, _, _, rfl⟩
    · cases e; exact .inr ⟨_, _, _, rfl⟩

end Urkel
