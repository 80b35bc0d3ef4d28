import Verif.Spec.Work
import Verif.Lemmas.Cost
/-
How often calls hash.
-/
namespace Urkel

section
variable {α β : Type} {H : HashFn} {n m len : Nat}

theorem Asks.const (a : α) : Asks H n len (fun _ => a) := ⟨[], by simp, by simp, fun _ _ => rfl⟩

theorem Asks.mono {n' len' : Nat} {f : HashFn → α} (h : Asks H n len f) (hn : n ≤ n') (hl : len ≤ len') : Asks H n' len' f := by
  obtain ⟨Q, a, b, c⟩ := h
  exact ⟨Q, by omega, fun q hq => Nat.le_trans (b q hq) hl, c⟩

theorem Asks.le {n' : Nat} {f : HashFn → α} (h : Asks H n len f) (hn : n ≤ n') : Asks H n' len f := h.mono hn (Nat.le_refl _)

theorem Asks.one {x : Bytes} (hx : x.length ≤ len) : Asks H 1 len (fun H' => H' x) :=
  ⟨[x], by simp, by simpa using hx, fun H' h => h x (by simp)⟩

theorem Asks.app {f : HashFn → α} {g : HashFn → α → β} (hf : Asks H n len f) (hg : Asks H m len (fun H' => g H' (f H))) :
    Asks H (n + m) len (fun H' => g H' (f H')) := by
  obtain ⟨Q, a, b, c⟩ := hf
  obtain ⟨R, a', b', c'⟩ := hg
  refine ⟨Q ++ R, by simp; omega, ?_, fun H' h => ?_⟩
  · intro q hq
    rcases List.mem_append.1 hq with hq | hq
    · exact b q hq
    · exact b' q hq
  · dsimp only
    rw [c H' fun q hq => h q (by simp [hq])]
    exact c' H' fun q hq => h q (by simp [hq])

theorem Asks.map {f : HashFn → α} (hf : Asks H n len f) (g : α → β) : Asks H n len (fun H' => g (f H')) :=
  Asks.app (m := 0) (g := fun _ => g) hf (Asks.const _)

theorem Asks.bind {f : HashFn → Res α} {g : HashFn → α → Res β} (hf : Asks H n len f)
    (hg : ∀ a, f H = .ok a → Asks H m len (fun H' => g H' a)) : Asks H (n + m) len (fun H' => f H' >>= g H') := by
  refine Asks.app (g := fun H' x => x >>= g H') hf ?_
  cases e : f H with
  | ok a => exact hg a e
  | err _ => exact Asks.const _
  | abort => exact Asks.const _
  | ub => exact Asks.const _

theorem Asks.bind0 {x : Res α} {g : HashFn → α → Res β} (hg : ∀ a, x = .ok a → Asks H m len (fun H' => g H' a)) :
    Asks H m len (fun H' => x >>= g H') := (Asks.bind (n := 0) (Asks.const x) hg).le (by omega)

end

section
variable {H : HashFn}

theorem hashInternal_asks {pre : Bits} (hp : Sized pre) {l r : B32} : Asks H 1 99 (fun H' => hashInternal H' pre l r) := by
  unfold hashInternal
  split
  · exact .one (by simp [l.len, r.len])
  · exact .one (by have := hp.len; simp [l.len, r.len, length_leBytes]; omega)

theorem hashLeaf_asks {k h : B32} : Asks H 1 99 (fun H' => hashLeaf H' k h) := .one (by simp [k.len, h.len])

theorem hashValue_asks {k : B32} {v : Bytes} (hv : v.length ≤ 1023) : Asks H 2 1023 (fun H' => hashValue H' k v) := by
  unfold hashValue
  exact Asks.app (n := 1) (m := 1) (g := fun H' x => hashLeaf H' k x) (.one hv) (hashLeaf_asks.mono (Nat.le_refl _) (by omega))

theorem createLeaf_asks {k : B32} {v : Bytes} (hv : v.length ≤ 1023) : Asks H 2 1023 (fun H' => createLeaf H' k v) :=
  (hashValue_asks hv).map fun x => Node.leaf (some x) none k (some v) none

/-- The nodes of a tree that have no hash yet. -/
def hcost : Node → Nat
  | .null => 0
  | .hash _ _ => 0
  | .leaf _ _ _ _ _ => 0
  | .internal h _ _ l r => hcost l + hcost r + if h.isNone then 1 else 0

/-- Below a node with a hash all nodes have one. -/
def Tidy : Node → Prop
  | .internal h _ _ l r => (h.isSome = true → hcost l = 0 ∧ hcost r = 0) ∧ Tidy l ∧ Tidy r
  | _ => True

theorem hcost_flat {n : Node} (h : Flat n) : hcost n = 0 ∧ Tidy n := by
  cases n with
  | null => exact ⟨rfl, trivial⟩
  | hash _ _ => exact ⟨rfl, trivial⟩
  | leaf _ _ _ _ _ => exact h.elim
  | internal _ _ _ _ _ => exact h.elim

theorem hcost_side (l r : Node) (b : Bool) : hcost (side l r b) + hcost (side l r (!b)) = hcost l + hcost r := by
  cases b <;> simp [side]; omega

theorem hcost_createInternal (pre : Bits) (x y : Node) (b : Bool) : hcost (createInternal pre x y b) = hcost x + hcost y + 1 := by
  unfold createInternal
  cases b <;> simp [hcost]; omega

theorem tidy_createInternal {pre : Bits} {x y : Node} {b : Bool} (hx : Tidy x) (hy : Tidy y) : Tidy (createInternal pre x y b) := by
  unfold createInternal
  cases b
  · exact ⟨(fun h => nomatch h), hx, hy⟩
  · exact ⟨(fun h => nomatch h), hy, hx⟩

theorem tidy_side {l r : Node} (hl : Tidy l) (hr : Tidy r) (b : Bool) : Tidy (side l r b) := by cases b <;> assumption

theorem resolve_hcost {s : Store} {h : B32} {p : Ptr} {n : Node} (e : storeResolve s h p = .ok (some n)) : hcost n = 0 ∧ Tidy n := by
  unfold storeResolve at e
  obtain ⟨r, e1, e⟩ := Res.bind_eq_ok.1 e
  have hr : ∀ n, r = some n → (∃ q pre hl pl hr pr, n = .internal none (some q) pre (.hash hl pl) (.hash hr pr)) ∨ ∃ q k vp, n = .leaf none (some q) k none vp := by
    intro n hn
    subst hn
    unfold storeReadNode at e1
    split at e1
    · cases e1
    · obtain ⟨x, _, e1⟩ := Res.bind_eq_ok.1 e1
      split at e1
      · cases e1
      · obtain ⟨q, e2, e1⟩ := Res.bind_eq_ok.1 e1
        cases q with
        | none => cases e1
        | some q =>
          rcases nodeRead_shape e2 with ⟨pre, hl, pl, hr, pr, rfl⟩ | ⟨k, vp, rfl⟩
          · cases e1; exact .inl ⟨_, _, _, _, _, _, rfl⟩
          · cases e1; exact .inr ⟨_, _, _, rfl⟩
  cases r with
  | none => cases e
  | some m =>
    rcases hr m rfl with ⟨q, pre, hl, pl, hr, pr, rfl⟩ | ⟨q, k, vp, rfl⟩
    · cases e; exact ⟨rfl, fun _ => ⟨rfl, rfl⟩, trivial, trivial⟩
    · cases e; exact ⟨rfl, trivial⟩

theorem retrieve_len {s : Store} {v : Option Bytes} {vp : Option Ptr} {x : Bytes} (e : storeRetrieve s v vp = .ok (some x)) : x.length ≤ 1023 := by
  unfold storeRetrieve at e
  cases v with
  | some v =>
    dsimp only at e
    by_cases h : v.length ≤ valueSize
    · rw [check_of (by simpa using h)] at e
      cases e; exact h
    · simp only [h, decide_false] at e
      cases e
  | none =>
    cases vp with
    | none => cases e
    | some p =>
      dsimp only at e
      split at e
      · cases e
      · rename_i hp
        rw [storeReadInto_ok (by omega)] at e
        unfold storeRead at e
        unfold valueSize at hp
        split at e
        · cases e
        · split at e
          · cases e
          · rename_i f _
            dsimp only at e
            generalize (if p.index = s.index then s.curSize else f.length) = z at e
            by_cases h0 : p.size = 0
            · rw [if_pos h0] at e; cases e; simp
            · rw [if_neg h0] at e
              split at e
              · cases e
              · cases e; simp only [List.length_take]; omega

theorem resolve_fit {s : Store} {h : B32} {p : Ptr} {n : Node} (e : storeResolve s h p = .ok (some n)) : Fit n := by
  rcases storeResolve_cases s h p with ⟨a, _⟩ | ⟨_, a | ⟨m, a, b, _⟩⟩
  · rw [a] at e; cases e
  · rw [a] at e; cases e
  · rw [a] at e; cases e; exact b

/-! ### Hashing a tree -/

/-- Part of `Fit`. -/
def Hashable : Node → Prop
  | .leaf h _ _ _ _ => h.isSome = true
  | .internal _ _ pre l r => Sized pre ∧ Hashable l ∧ Hashable r
  | _ => True

theorem Fit.hashable {n : Node} : Fit n → Hashable n := by
  induction n with
  | null => exact id
  | hash _ _ => exact id
  | leaf _ _ _ _ _ => exact fun h => h.1
  | internal _ _ _ _ _ ihl ihr => exact fun h => ⟨h.1, ihl h.2.2.2.1, ihr h.2.2.2.2⟩

theorem Flat.hashable {n : Node} (h : Flat n) : Hashable n := by
  cases n with
  | null => trivial
  | hash _ _ => trivial
  | leaf _ _ _ _ _ => exact h.elim
  | internal _ _ _ _ _ => exact h.elim

theorem nodeHash_asks {n : Node} : Hashable n → Asks H (hcost n) 99 (fun H' => nodeHash H' n) := by
  induction n with
  | null => intro _; exact .const _
  | hash _ _ => intro _; exact .const _
  | leaf x p k v vp =>
    intro hf
    cases x with
    | some x => exact .const _
    | none => exact nomatch hf
  | internal x p pre l r ihl ihr =>
    intro hf
    cases x with
    | some x => exact .const _
    | none =>
      simp only [nodeHash]
      refine (Asks.bind (m := hcost r + 1) (ihl hf.2.1) ?_).le (by simp only [hcost, Option.isNone_none, if_true]; omega)
      rintro ⟨hl, l'⟩ _
      refine Asks.bind (ihr hf.2.2) ?_
      rintro ⟨hr, r'⟩ _
      exact (hashInternal_asks hf.1).map fun h => Res.ok (h, Node.internal (some h) p pre l' r')

/-- Afterwards nothing is left to hash. -/
theorem nodeHash_done {n : Node} : ∀ {h : B32} {n' : Node}, Tidy n → nodeHash H n = .ok (h, n') → hcost n' = 0 ∧ Tidy n' := by
  induction n with
  | null => intro h n' _ e; cases e; exact ⟨rfl, trivial⟩
  | hash _ _ => intro h n' _ e; cases e; exact ⟨rfl, trivial⟩
  | leaf x p k v vp =>
    intro h n' _ e
    cases x with
    | some x => cases e; exact ⟨rfl, trivial⟩
    | none =>
      cases v with
      | none => cases e
      | some v => cases e; exact ⟨rfl, trivial⟩
  | internal x p pre l r ihl ihr =>
    intro h n' ht e
    cases x with
    | some x =>
      cases e
      obtain ⟨a, b⟩ := ht.1 rfl
      exact ⟨by simp [hcost, a, b], ht⟩
    | none =>
      rw [nodeHash] at e
      obtain ⟨⟨hl, l'⟩, e1, e⟩ := Res.bind_eq_ok.1 e
      obtain ⟨⟨hr, r'⟩, e2, e⟩ := Res.bind_eq_ok.1 e
      cases e
      obtain ⟨a, a'⟩ := ihl ht.2.1 e1
      obtain ⟨b, b'⟩ := ihr ht.2.2 e2
      exact ⟨by simp [hcost, a, b], fun _ => ⟨a, b⟩, a', b'⟩

theorem nodeHash_hcost {n n' : Node} {h : B32} (ht : Tidy n) (e : nodeHash H n = .ok (h, n')) : hcost n' ≤ hcost n ∧ Tidy n' := by
  obtain ⟨a, b⟩ := nodeHash_done ht e
  exact ⟨by omega, b⟩

end

/-! ### Changes -/

section
variable {E : Env} {s : Store} {key : B32} {value : Bytes}

theorem treeInsert_hcost : ∀ (fuel : Nat) (n : Node) (d : Nat) (n' : Node), Tidy n →
    treeInsert E s key value fuel n d = .ok n' → hcost n' ≤ hcost n + (257 - d) ∧ Tidy n' := by
  intro fuel
  induction fuel with
  | zero => intro n d n' _ e; cases e
  | succ f ih =>
    intro n d n' ht e
    cases n with
    | null => cases e; exact ⟨Nat.zero_le _, trivial⟩
    | hash h p =>
      rw [treeInsert] at e
      obtain ⟨r, e1, e⟩ := Res.bind_eq_ok.1 e
      cases r with
      | none => cases e
      | some m =>
        obtain ⟨h1, h2⟩ := resolve_hcost e1
        have := ih m d n' h2 e
        rw [h1] at this
        simpa [hcost] using this
    | leaf h p k v vp =>
      rw [treeInsert] at e
      split at e
      · split at e
        · cases e
        · cases e; exact ⟨Nat.zero_le _, trivial⟩
      · obtain ⟨pre, _, e⟩ := Res.bind_eq_ok.1 e
        obtain ⟨b, e2, e⟩ := Res.bind_eq_ok.1 e
        have := getBit_lt e2
        cases e
        refine ⟨?_, tidy_createInternal trivial trivial⟩
        rw [hcost_createInternal]; simp only [hcost, createLeaf]; omega
    | internal h p pre l r =>
      rw [treeInsert] at e
      obtain ⟨bits, _, e⟩ := Res.bind_eq_ok.1 e
      obtain ⟨b, e2, e⟩ := Res.bind_eq_ok.1 e
      have := getBit_lt e2
      have hc : hcost l + hcost r ≤ hcost (.internal h p pre l r) := by simp only [hcost]; omega
      split at e
      · obtain ⟨⟨front, back⟩, _, e⟩ := Res.bind_eq_ok.1 e
        cases e
        refine ⟨?_, tidy_createInternal trivial (tidy_createInternal ht.2.1 ht.2.2)⟩
        rw [hcost_createInternal, hcost_createInternal]; simp only [hcost, createLeaf] at hc ⊢; omega
      · obtain ⟨z, e1, e⟩ := Res.bind_eq_ok.1 e
        cases e
        obtain ⟨h1, h2⟩ := ih _ _ _ (tidy_side ht.2.1 ht.2.2 b) e1
        have := hcost_side l r b
        refine ⟨?_, tidy_createInternal h2 (tidy_side ht.2.1 ht.2.2 _)⟩
        rw [hcost_createInternal]; omega

theorem treeInsert_asks (hv : value.length ≤ 1023) : ∀ (fuel : Nat) (n : Node) (d : Nat),
    Asks E.H 2 1023 (fun H' => treeInsert (E.hashing H') s key value fuel n d) := by
  have hl : Asks E.H 2 1023 (fun H' => createLeaf H' key value) := createLeaf_asks hv
  intro fuel
  induction fuel with
  | zero => intro n d; exact .const _
  | succ f ih =>
    intro n d
    cases n with
    | null => exact hl.map fun x => Res.ok x
    | hash h p =>
      simp only [treeInsert]
      refine Asks.bind0 fun r _ => ?_
      cases r with
      | none => exact .const _
      | some m => exact ih m d
    | leaf h p k v vp =>
      simp only [treeInsert]
      split
      · split
        · exact .const _
        · exact hl.map fun x => Res.ok x
      · refine Asks.bind0 fun pre _ => Asks.bind0 fun b _ => ?_
        exact hl.map fun x => Res.ok (createInternal pre x (.leaf h p k v vp) b)
    | internal h p pre l r =>
      simp only [treeInsert]
      refine Asks.bind0 fun bits _ => Asks.bind0 fun b _ => ?_
      split
      · refine Asks.bind0 fun ⟨front, back⟩ _ => ?_
        exact hl.map fun x => Res.ok (createInternal front x (createInternal back l r false) b)
      · exact Asks.bind (n := 2) (m := 0) (ih _ _) fun z _ => .const _

theorem treeRemove_hcost : ∀ (fuel : Nat) (n : Node) (d : Nat) (n' : Node), Tidy n →
    treeRemove s key fuel n d = .ok n' → hcost n' ≤ hcost n + (257 - d) ∧ Tidy n' := by
  intro fuel
  induction fuel with
  | zero => intro n d n' _ e; cases e
  | succ f ih =>
    intro n d n' ht e
    cases n with
    | null => cases e
    | hash h p =>
      rw [treeRemove] at e
      obtain ⟨r, e1, e⟩ := Res.bind_eq_ok.1 e
      cases r with
      | none => cases e
      | some m =>
        obtain ⟨h1, h2⟩ := resolve_hcost e1
        have := ih m d n' h2 e
        rw [h1] at this
        simpa [hcost] using this
    | leaf h p k v vp =>
      rw [treeRemove] at e
      split at e
      · cases e
      · cases e; exact ⟨Nat.zero_le _, trivial⟩
    | internal h p pre l r =>
      rw [treeRemove] at e
      obtain ⟨has, _, e⟩ := Res.bind_eq_ok.1 e
      split at e
      · cases e
      · obtain ⟨b, e2, e⟩ := Res.bind_eq_ok.1 e
        have hlt := getBit_lt e2
        have hc : hcost l + hcost r ≤ hcost (.internal h p pre l r) := by simp only [hcost]; omega
        have hs := hcost_side l r b
        dsimp only at e
        obtain ⟨z, e1, e⟩ := Res.bind_eq_ok.1 e
        obtain ⟨hz, hzt⟩ := ih _ _ _ (tidy_side ht.2.1 ht.2.2 b) e1
        have hyt := tidy_side ht.2.1 ht.2.2 (!b)
        generalize side l r (!b) = y at e hs hyt
        have fin : ∀ sd : Node, hcost sd ≤ hcost y → Tidy sd → removeSide pre sd b = .ok n' →
            hcost n' ≤ hcost (.internal h p pre l r) + (257 - d) ∧ Tidy n' := by
          intro sd h1 h2 e
          cases sd with
          | internal h' p' spre sl sr =>
            obtain ⟨j, _, e⟩ := Res.bind_eq_ok.1 e
            cases e
            refine ⟨?_, tidy_createInternal h2.2.1 h2.2.2⟩
            rw [hcost_createInternal]
            simp only [hcost] at h1 ⊢ hc
            omega
          | null => cases e; exact ⟨by omega, h2⟩
          | hash _ _ => cases e; exact ⟨by omega, h2⟩
          | leaf _ _ _ _ _ => cases e; exact ⟨by omega, h2⟩
        cases z with
        | null =>
          dsimp only at e
          cases y with
          | hash h' p' =>
            obtain ⟨x, e3, e⟩ := Res.bind_eq_ok.1 e
            cases x with
            | none => cases e
            | some m => exact fin m (by rw [(resolve_hcost e3).1]; omega) (resolve_hcost e3).2 e
          | null => exact fin .null (Nat.le_refl _) trivial e
          | leaf a b c d e' => exact fin _ (Nat.le_refl _) trivial e
          | internal a b c d e' => exact fin _ (Nat.le_refl _) hyt e
        | hash _ _ => cases e; exact ⟨by rw [hcost_createInternal]; omega, tidy_createInternal hzt hyt⟩
        | leaf _ _ _ _ _ => cases e; exact ⟨by rw [hcost_createInternal]; omega, tidy_createInternal hzt hyt⟩
        | internal _ _ _ _ _ => cases e; exact ⟨by rw [hcost_createInternal]; omega, tidy_createInternal hzt hyt⟩

/-! ### Proofs -/

theorem treeProve_hcost : ∀ (fuel : Nat) (n : Node) (d m : Nat) (r : Option Proof) (n' : Node), Tidy n →
    treeProve E s key fuel n d m = .ok (r, n') → hcost n' ≤ hcost n ∧ Tidy n' := by
  intro fuel
  induction fuel with
  | zero => intro n d m r n' _ e; cases e
  | succ f ih =>
    intro n d m r n' ht e
    cases n with
    | null => cases e; exact ⟨Nat.le_refl _, trivial⟩
    | hash h p =>
      rw [treeProve] at e
      obtain ⟨x, e1, e⟩ := Res.bind_eq_ok.1 e
      cases x with
      | none => cases e; exact ⟨Nat.le_refl _, trivial⟩
      | some x =>
        obtain ⟨⟨pf, _⟩, _, e⟩ := Res.bind_eq_ok.1 e
        cases e; exact ⟨Nat.le_refl _, trivial⟩
    | leaf h p k v vp =>
      rw [treeProve] at e
      obtain ⟨x, e1, e⟩ := Res.bind_eq_ok.1 e
      cases x with
      | none => cases e; exact ⟨Nat.le_refl _, trivial⟩
      | some x =>
        dsimp only at e
        split at e <;> (cases e; exact ⟨Nat.le_refl _, trivial⟩)
    | internal h p pre l r' =>
      have key : ∀ l2 r2 : Node, hcost l2 ≤ hcost l → hcost r2 ≤ hcost r' → Tidy l2 → Tidy r2 →
          hcost (.internal h p pre l2 r2) ≤ hcost (.internal h p pre l r') ∧ Tidy (.internal h p pre l2 r2) := by
        intro l2 r2 a b c d
        refine ⟨by simp only [hcost]; omega, fun hh => ?_, c, d⟩
        obtain ⟨x, y⟩ := ht.1 hh
        exact ⟨by omega, by omega⟩
      rw [treeProve] at e
      obtain ⟨has, _, e⟩ := Res.bind_eq_ok.1 e
      split at e
      · obtain ⟨⟨hl, l2⟩, e1, e⟩ := Res.bind_eq_ok.1 e
        obtain ⟨⟨hr, r2⟩, e2, e⟩ := Res.bind_eq_ok.1 e
        cases e
        obtain ⟨a, a'⟩ := nodeHash_hcost ht.2.1 e1
        obtain ⟨b, b'⟩ := nodeHash_hcost ht.2.2 e2
        exact key _ _ a b a' b'
      · obtain ⟨b, _, e⟩ := Res.bind_eq_ok.1 e
        obtain ⟨⟨hy, y⟩, e1, e⟩ := Res.bind_eq_ok.1 e
        obtain ⟨_, _, e⟩ := Res.bind_eq_ok.1 e
        obtain ⟨⟨pf, x⟩, e2, e⟩ := Res.bind_eq_ok.1 e
        obtain ⟨h1, h1'⟩ := nodeHash_hcost (tidy_side ht.2.1 ht.2.2 _) e1
        obtain ⟨h2, h2'⟩ := ih _ _ _ _ _ (tidy_side ht.2.1 ht.2.2 _) e2
        cases e
        cases b
        · exact key _ _ h2 h1 h2' h1'
        · exact key _ _ h1 h2 h1' h2'

/-- Proving hashes what had no hash yet, and the value of another key's leaf. -/
theorem treeProve_asks : ∀ (fuel : Nat) (n : Node) (d m : Nat), Fit n →
    Asks E.H (hcost n + 1) 1023 (fun H' => treeProve (E.hashing H') s key fuel n d m) := by
  intro fuel
  induction fuel with
  | zero => intro n d m _; exact .const _
  | succ f ih =>
    intro n d m hf
    cases n with
    | null => exact .const _
    | hash h p =>
      simp only [treeProve]
      refine Asks.bind0 fun r e1 => ?_
      cases r with
      | none => exact .const _
      | some x =>
        have := (ih x d m (resolve_fit e1))
        rw [(resolve_hcost e1).1] at this
        exact Asks.bind (m := 0) this fun _ _ => .const _
    | leaf h p k v vp =>
      simp only [treeProve]
      refine Asks.bind0 fun r e1 => ?_
      cases r with
      | none => exact .const _
      | some x =>
        dsimp only
        split
        · exact .const _
        · exact ((Asks.one (H := E.H) (retrieve_len e1)).map fun y => (Res.ok (some (⟨d, [], .collision k y⟩ : Proof), Node.leaf h p k v vp) : Res (Option Proof × Node))).le (by omega)
    | internal h p pre l r =>
      have hc : hcost l + hcost r ≤ hcost (.internal h p pre l r) := by simp only [hcost]; omega
      have up : ∀ n, Fit n → Asks E.H (hcost n) 1023 (fun H' => nodeHash H' n) := fun n hn => (nodeHash_asks hn.hashable).mono (Nat.le_refl _) (by omega)
      simp only [treeProve]
      refine Asks.bind0 fun has _ => ?_
      split
      · refine (Asks.bind (m := hcost r) (up l hf.2.2.2.1) ?_).le (by omega)
        rintro ⟨hl, l2⟩ _
        refine (Asks.bind (m := 0) (up r hf.2.2.2.2) ?_).le (by omega)
        rintro ⟨hr, r2⟩ _
        exact .const _
      · refine Asks.bind0 fun b _ => ?_
        have hs := hcost_side l r b
        refine (Asks.bind (m := hcost (side l r b) + 1) (up _ (fit_side hf _).1) ?_).le (by omega)
        rintro ⟨hy, y⟩ _
        refine Asks.bind0 fun _ _ => ?_
        refine (Asks.bind (m := 0) (ih _ _ _ (fit_side hf _).1) ?_).le (by omega)
        rintro ⟨pf, x⟩ _
        exact .const _

end

/-! ### What does not hash -/

section
variable (E : Env) (H' : HashFn)

theorem storeWriteNode_hashing (s : Store) (n : Node) : storeWriteNode (E.hashing H') s n = storeWriteNode E s n := rfl

theorem storeWriteValue_hashing (s : Store) (n : Node) : storeWriteValue (E.hashing H') s n = storeWriteValue E s n := rfl

theorem flushLoop_hashing : ∀ (l : List Nat) (d : Bytes) (i : Nat) (s : Store), flushLoop (E.hashing H') l d i s = flushLoop E l d i s := by
  intro l
  induction l with
  | nil => intros; rfl
  | cons x l ih =>
    intro d i s
    simp only [flushLoop, ih]
    rfl

theorem storeFlush_hashing (s : Store) : storeFlush (E.hashing H') s = storeFlush E s := by
  simp only [storeFlush, flushLoop_hashing]

theorem storeCommit_hashing (s : Store) (n : Node) : storeCommit (E.hashing H') s n = storeCommit E s n := by
  simp only [storeCommit, flushSync, storeFlush_hashing]
  rfl

theorem findMeta_hashing (key : B32) (f : Bytes) : ∀ (n : Nat) (m : Meta), findMeta (E.hashing H') key f n m = findMeta E key f n m := by
  intro n
  induction n with
  | zero => intros; rfl
  | succ n ih => intro m; simp only [findMeta, ih]; rfl

theorem recoverState_hashing (key : B32) (fs : List Bytes) : ∀ (n : Nat) (m : Meta),
    recoverState (E.hashing H') key fs n m = recoverState E key fs n m := by
  intro n
  induction n with
  | zero => intros; rfl
  | succ n ih => intro m; simp only [recoverState, ih, findMeta_hashing]

end

section
variable {E : Env}

theorem flushAndHash_asks {s : Store} {n : Node} (hf : Hashable n) (w : Bool) : Asks E.H (hcost n) 99 (fun H' => flushAndHash (E.hashing H') s n w) := by
  have fin : ∀ x : Res (Store × Bool), Asks E.H (hcost n) 99 (fun H' => x >>= fun (s, ok) => if !ok then pure (s, none) else do
      let (_, n) ← nodeHash H' n
      let o ← toHash n
      pure (s, some o)) := fun x => by
    refine Asks.bind0 fun ⟨s1, ok⟩ _ => ?_
    dsimp only
    split
    · exact .const _
    · exact Asks.bind (m := 0) (nodeHash_asks hf) fun ⟨_, n'⟩ _ => .const _
  simp only [flushAndHash, storeFlush_hashing]
  by_cases c : (w && needsFlush E s) = true
  · have c' : ∀ H', (w && needsFlush (E.hashing H') s) = true := fun _ => c
    simp only [c', if_true]
    exact fin _
  · have c' : ∀ H', (w && needsFlush (E.hashing H') s) = false := fun _ => Bool.eq_false_iff.2 c
    simp only [c']
    exact fin _

theorem treeWrite_asks {n : Node} : ∀ {s : Store}, Fit n → Asks E.H (hcost n) 99 (fun H' => treeWrite (E.hashing H') n s) := by
  induction n with
  | null => intro s _; exact .const _
  | hash _ _ => intro s _; exact .const _
  | leaf h p k v vp =>
    intro s hf
    cases p with
    | some p => simp only [treeWrite]; exact flushAndHash_asks hf.hashable false
    | none =>
      simp only [treeWrite]
      refine Asks.bind0 (x := storeWriteValue E s (.leaf h none k v vp)) fun ⟨s1, n1⟩ e1 => ?_
      refine Asks.bind0 (x := storeWriteNode E s1 n1) fun ⟨s2, n2⟩ e2 => ?_
      have h2 : ∃ p k v vp, n2 = .leaf h p k v vp := by
        cases v with
        | none => cases e1
        | some v =>
          cases vp with
          | some _ => cases e1
          | none =>
            obtain ⟨_, _, e1⟩ := Res.bind_eq_ok.1 e1
            cases e1
            obtain ⟨_, _, e2⟩ := Res.bind_eq_ok.1 e2
            obtain ⟨_, _, e2⟩ := Res.bind_eq_ok.1 e2
            cases e2
            exact ⟨_, _, _, _, rfl⟩
      obtain ⟨p, k, v, vp, rfl⟩ := h2
      have hh := hf.1
      cases h with
      | none => cases hh
      | some h =>
        show Asks E.H 0 99 (fun H' => (flushAndHash (E.hashing H') s2 (.leaf (some h) p k v vp) true))
        exact flushAndHash_asks (n := .leaf (some h) p k v vp) rfl true
  | internal h p pre l r ihl ihr =>
    intro s hf
    simp only [treeWrite]
    have fin : ∀ (s : Store) (p' : Option Ptr) (l' r' : Node) (w : Bool), Flat l' → Flat r' →
        Asks E.H (if h.isNone then 1 else 0) 99 (fun H' => flushAndHash (E.hashing H') s (.internal h p' pre l' r') w) := by
      intro s p' l' r' w hl hr
      have h1 : Hashable (.internal h p' pre l' r') := ⟨hf.1, hl.hashable, hr.hashable⟩
      refine (flushAndHash_asks h1 w).le ?_
      simp only [hcost, (hcost_flat hl).1, (hcost_flat hr).1]; omega
    refine (Asks.bind (m := hcost r + if h.isNone then 1 else 0) (ihl hf.2.2.2.1) ?_).le (by simp only [hcost]; omega)
    rintro ⟨s1, l'⟩ e1
    cases l' with
    | none => exact .const _
    | some l' =>
      dsimp only
      refine Asks.bind (ihr hf.2.2.2.2) ?_
      rintro ⟨s2, r'⟩ e2
      cases r' with
      | none => exact .const _
      | some r' =>
        have hl := treeWrite_some (E := E) e1
        have hr := treeWrite_some (E := E) e2
        cases p with
        | some p => exact fin _ _ _ _ _ hl hr
        | none =>
          dsimp only
          refine Asks.bind0 (x := storeWriteNode E s2 (.internal h none pre l' r')) fun ⟨s3, n3⟩ e3 => ?_
          obtain ⟨_, _, e3⟩ := Res.bind_eq_ok.1 e3
          obtain ⟨_, _, e3⟩ := Res.bind_eq_ok.1 e3
          cases e3
          exact fin _ _ _ _ _ hl hr

theorem txCommit_asks {db : Db} {n : Node} (hf : Fit n) : Asks E.H (hcost n) 99 (fun H' => txCommit (E.hashing H') db ⟨some n⟩) := by
  refine (Asks.bind (m := 0) (f := fun H' => treeWrite (E.hashing H') n db.store) (treeWrite_asks hf) ?_)
  rintro ⟨s, r⟩ _
  simp only [storeCommit_hashing]
  exact .const _

/-- Reading a root hashes it: one branch, or one value and its leaf. -/
theorem storeReadRoot_asks {s : Store} {p : Ptr} : Asks E.H 2 1023 (fun H' => storeReadRoot (E.hashing H') s p) := by
  unfold storeReadRoot
  split
  · exact .const _
  · refine Asks.bind0 fun r e1 => ?_
    cases r with
    | none => exact .const _
    | some n =>
      have hn : (∃ q pre hl pl hr pr, Sized pre ∧ n = .internal none (some q) pre (.hash hl pl) (.hash hr pr)) ∨ ∃ q k vp, n = .leaf none (some q) k none vp := by
        unfold storeReadNode at e1
        split at e1
        · cases e1
        · obtain ⟨x, _, e1⟩ := Res.bind_eq_ok.1 e1
          split at e1
          · cases e1
          · obtain ⟨q, e2, e1⟩ := Res.bind_eq_ok.1 e1
            cases q with
            | none => cases e1
            | some q =>
              rcases nodeRead_shape e2 with ⟨pre, hl, pl, hr, pr, rfl⟩ | ⟨k, vp, rfl⟩
              · cases e1; exact .inl ⟨_, _, _, _, _, _, nodeRead_sized e2, rfl⟩
              · cases e1; exact .inr ⟨_, _, _, rfl⟩
      rcases hn with ⟨q, pre, hl, pl, hr, pr, hs, rfl⟩ | ⟨q, k, vp, rfl⟩
      · refine Asks.bind0 fun o e2 => ?_
        cases e2
        have h1 : Hashable (.internal none (some q) pre (.hash hl pl) (.hash hr pr)) := ⟨hs, trivial, trivial⟩
        refine (Asks.bind (m := 0) ((nodeHash_asks h1).mono (Nat.le_refl _) (by omega)) fun ⟨_, n⟩ _ => .const _).le ?_
        simp [hcost]
      · refine Asks.bind0 fun x e3 => ?_
        cases x with
        | none => exact .const _
        | some x =>
          refine Asks.bind0 fun _ _ => ?_
          show Asks E.H 2 1023 (fun H' => nodeHash H' (.leaf none (some q) k (some x) vp) >>= fun y => toHash y.2 >>= fun o =>
            match o with
            | .hash h p => pure ({ s with cache := cacheInsert s.cache h p }, some o)
            | _ => .abort)
          refine (Asks.bind (n := 2) (m := 0) ?_ fun ⟨_, n⟩ _ => .const _)
          exact (hashValue_asks (retrieve_len e3)).map fun h => Res.ok (h, Node.leaf (some h) (some q) k (some x) vp)

theorem openStore_asks {d : Dir} {rand : B32} : Asks E.H 2 1023 (fun H' => openStore (E.hashing H') d rand) := by
  unfold openStore
  cases d.key rand with
  | none => exact .const _
  | some key =>
    simp only [recoverState_hashing]
    refine Asks.bind0 fun ⟨st, lm, files, index⟩ _ => ?_
    refine Asks.bind (n := 2) (m := 0) storeReadRoot_asks ?_
    rintro ⟨s, r⟩ _
    exact .const _

theorem dbOpen_asks {d : Dir} {rand : B32} : Asks E.H 2 1023 (fun H' => dbOpen (E.hashing H') d rand) :=
  Asks.bind (n := 2) (m := 0) openStore_asks fun _ _ => .const _

theorem historyLoop_asks {h : B32} : ∀ (fuel : Nat) (s : Store), Asks E.H (2 * fuel) 1023 (fun H' => historyLoop (E.hashing H') h fuel s) := by
  intro fuel
  induction fuel with
  | zero => intro s; exact .const _
  | succ f ih =>
    intro s
    simp only [historyLoop]
    split
    · exact .const _
    · refine Asks.bind0 (x := storeReadMeta E s s.lastMeta.metaPtr) fun r _ => ?_
      cases r with
      | none => exact .const _
      | some m =>
        refine (Asks.bind (n := 2) (m := 2 * f) storeReadRoot_asks ?_).le (by omega)
        rintro ⟨s1, rn⟩ _
        cases rn with
        | none => exact .const _
        | some n =>
          dsimp only
          split
          · exact .const _
          · exact ih _

/-- Along a chain of commit records every one costs at most two. -/
theorem historyLoop_chain (hE : EnvOk E) {h : B32} {older : List PTree} : ∀ (fuel : Nat) {s : Store}, HistAt E s.key s.rd s.lastMeta.metaPtr older →
    Asks E.H (2 * older.length) 1023 (fun H' => historyLoop (E.hashing H') h fuel s) := by
  induction older with
  | nil =>
    intro fuel s hat
    cases fuel with
    | zero => exact .const _
    | succ fuel =>
      have : s.lastMeta.metaPtr.index = 0 := by rw [show s.lastMeta.metaPtr = nowhere from hat]; rfl
      simp only [historyLoop, if_pos this]
      exact .const _
  | cons t older ih =>
    intro fuel s hat
    cases fuel with
    | zero => exact .const _
    | succ fuel =>
      obtain ⟨hidx, m, hrd, ok1, ok2, hroot, hrest⟩ := hat
      have e1 : ∀ H', storeReadMeta (E.hashing H') s s.lastMeta.metaPtr = storeReadMeta E s s.lastMeta.metaPtr := fun _ => rfl
      simp only [historyLoop, if_neg (show ¬ s.lastMeta.metaPtr.index = 0 by omega), e1, storeReadMeta_ok hE hrd ok1 ok2, Res.bind_ok]
      refine (Asks.bind (n := 2) (m := 2 * older.length) storeReadRoot_asks ?_).le (by simp only [List.length_cons]; omega)
      rintro ⟨s1, rn⟩ e2
      have e3 : storeReadRoot E s m.rootPtr = .ok (s1, rn) := e2
      cases rn with
      | none => exact .const _
      | some n =>
        dsimp only
        split
        · exact .const _
        · rcases hroot with ⟨rfl, h0⟩ | hd
          · rw [storeReadRoot_null (by rw [h0]; rfl)] at e3
            cases e3
            exact ih fuel hrest
          · rw [storeReadRoot_ok hd] at e3
            cases e3
            exact ih fuel hrest

theorem readHistory_asks {s : Store} {h : B32} : Asks E.H (2 * (totalBytes s.files + 2)) 1023 (fun H' => readHistory (E.hashing H') s h) := by
  unfold readHistory
  split
  · exact .const _
  · split
    · exact .const _
    · split
      · exact .const _
      · exact historyLoop_asks _ _

theorem readHistory_chain (hE : EnvOk E) {s : Store} {h : B32} {hist : List PTree} (hs : SInv E s hist) :
    Asks E.H (2 * hist.length) 1023 (fun H' => readHistory (E.hashing H') s h) := by
  unfold readHistory
  split
  · exact .const _
  · split
    · exact .const _
    · split
      · exact .const _
      · obtain ⟨newer, older, rfl, hat, _⟩ := hs.last
        rw [← hs.slab.sok.rd_eq] at hat
        exact (historyLoop_chain hE _ hat).le (by simp only [List.length_append]; omega)

/-- A lookup of a root, whatever the bound on what it costs. -/
theorem txCreate_asks {db : Db} {h : Option B32} {b : Nat} (hb : ∀ h, Asks E.H b 1023 (fun H' => readHistory (E.hashing H') db.store h)) :
    Asks E.H b 1023 (fun H' => txCreate (E.hashing H') db h) := by
  unfold txCreate
  cases h with
  | some h => exact Asks.bind (m := 0) (hb h) fun ⟨_, r⟩ _ => by cases r <;> exact .const _
  | none =>
    dsimp only
    split
    · exact Asks.bind (m := 0) (hb _) fun ⟨_, r⟩ _ => by cases r <;> exact .const _
    · exact .const _

theorem txCreate_asks_head {db : Db} (h : db.revert = false) : Asks E.H 0 1023 (fun H' => txCreate (E.hashing H') db none) := by
  simp only [txCreate, h]
  exact .const _

theorem dbInject_asks {db : Db} {h : B32} {b : Nat} (hb : ∀ h, Asks E.H b 1023 (fun H' => readHistory (E.hashing H') db.store h)) :
    Asks E.H b 1023 (fun H' => dbInject (E.hashing H') db h) := by
  unfold dbInject hasHistory
  refine (Asks.bind (m := 0) (f := fun H' => readHistory (E.hashing H') db.store h >>= fun x => match x.2 with
    | some _ => pure (x.1, true)
    | none => (.ub : Res (Store × Bool))) ?_ fun _ _ => .const _)
  exact Asks.bind (m := 0) (hb h) fun ⟨_, r⟩ _ => by cases r <;> exact .const _

theorem txInject_asks {db : Db} {t : Tx} {h : B32} {b : Nat} (hb : ∀ h, Asks E.H b 1023 (fun H' => readHistory (E.hashing H') db.store h)) :
    Asks E.H b 1023 (fun H' => txInject (E.hashing H') db t h) := by
  unfold txInject
  exact Asks.bind (m := 0) (hb h) fun ⟨_, r⟩ _ => by cases r <;> exact .const _

theorem txInsert_asks {db : Db} {t : Tx} {k : B32} {v : Bytes} : Asks E.H 2 1023 (fun H' => txInsert (E.hashing H') db t k v) := by
  unfold txInsert
  split
  · exact .const _
  · rename_i hv
    refine Asks.bind0 fun n _ => ?_
    obtain ⟨Q, a, b, c⟩ := treeInsert_asks (E := E) (s := db.store) (key := k) (value := v) (by unfold valueSize at hv; omega) treeFuel n 0
    exact ⟨Q, a, b, fun H' h => by dsimp only at c ⊢; rw [c H' h]⟩

theorem txRoot_asks {n : Node} (hf : Fit n) : Asks E.H (hcost n) 1023 (fun H' => txRoot (E.hashing H') ⟨some n⟩) := by
  unfold txRoot
  refine Asks.bind0 fun m hm => ?_
  cases hm
  refine Asks.mono (n := hcost n) (len := 99) ?_ (Nat.le_refl _) (by omega)
  exact Asks.bind (m := 0) (nodeHash_asks hf.hashable) fun _ _ => .const _

theorem txProve_asks {db : Db} {n : Node} {k : B32} (hf : Fit n) : Asks E.H (hcost n + 1) 1023 (fun H' => txProve (E.hashing H') db ⟨some n⟩ k) := by
  unfold txProve
  exact Asks.bind0 fun m hm => by cases hm; exact Asks.bind (m := 0) (treeProve_asks _ _ _ _ hf) fun _ _ => .const _

/-! ### Programs -/

/-- The transaction `id` has at most `b` nodes without a hash. -/
def TxWork (s : Sys) (id b : Nat) : Prop := ∀ n, s.txs id = some ⟨some n⟩ → hcost n ≤ b ∧ Tidy n

theorem TxWork.mono {s : Sys} {id a b : Nat} (h : TxWork s id a) (hab : a ≤ b) : TxWork s id b := fun n hn => ⟨Nat.le_trans (h n hn).1 hab, (h n hn).2⟩

theorem TxWork.set_self {s : Sys} {id b : Nat} {t : Option Tx} (h : ∀ n, t = some ⟨some n⟩ → hcost n ≤ b ∧ Tidy n) : TxWork (s.setTx id t) id b := by
  intro n hn
  simp only [Sys.setTx, if_true] at hn
  exact h n hn

theorem TxWork.set {s : Sys} {id id' b : Nat} {t : Option Tx} (h : TxWork s id b) (ht : id' = id → ∀ n, t = some ⟨some n⟩ → hcost n ≤ b ∧ Tidy n) :
    TxWork (s.setTx id' t) id b := by
  by_cases e : id' = id
  · subst e; exact .set_self (ht rfl)
  · intro n hn
    simp only [Sys.setTx, if_neg (Ne.symm e)] at hn
    exact h n hn

theorem TxWork.db {s : Sys} {id b : Nat} (h : TxWork s id b) (db : Db) : TxWork { s with db := db } id b := h

theorem txCreate_work {db db' : Db} {h : Option B32} {t : Tx} (hd : SaneDb E db) (e : txCreate E db h = .ok (db', .ok t)) :
    ∀ n, t = ⟨some n⟩ → hcost n = 0 ∧ Tidy n := by
  have fin : ∀ h : B32, (do
      let (s, r) ← readHistory E db.store h
      match r with
      | some n => pure ({ db with store := s }, .ok ⟨some n⟩)
      | none => pure ({ db with store := s }, .error .ENOTFOUND) : Res (Db × Except Err Tx)) = .ok (db', .ok t) →
      ∀ n, t = ⟨some n⟩ → hcost n = 0 ∧ Tidy n := by
    intro h e n hn
    subst hn
    obtain ⟨⟨s, r⟩, e1, e⟩ := Res.bind_eq_ok.1 e
    cases r with
    | none => cases e
    | some n => cases e; exact hcost_flat (readHistory_flat e1 hd.flat)
  unfold txCreate at e
  cases h with
  | some h => exact fin h e
  | none =>
    dsimp only at e
    split at e
    · exact fin _ e
    · cases e; intro n hn; cases hn; exact hcost_flat hd.flat

theorem txInsert_work {db : Db} {t : Tx} {n' : Node} {k : B32} {v : Bytes} {r : Except Err Unit} {b : Nat}
    (ht : ∀ n, t = ⟨some n⟩ → hcost n ≤ b ∧ Tidy n) (e : txInsert E db t k v = .ok (⟨some n'⟩, r)) : hcost n' ≤ b + 257 ∧ Tidy n' := by
  have same : t = ⟨some n'⟩ → hcost n' ≤ b + 257 ∧ Tidy n' := fun h => ⟨by have := (ht n' h).1; omega, (ht n' h).2⟩
  unfold txInsert at e
  split at e
  · cases e; exact same rfl
  · obtain ⟨n, e1, e⟩ := Res.bind_eq_ok.1 e
    obtain ⟨o⟩ := t
    cases o with
    | none => cases e1
    | some m =>
      cases e1
      obtain ⟨hm, hm'⟩ := ht n rfl
      have j := treeInsert_hcost (E := E) (s := db.store) (key := k) (value := v) treeFuel n 0
      generalize treeInsert E db.store k v treeFuel n 0 = q at j e
      cases q with
      | ok x => cases e; obtain ⟨j1, j2⟩ := j n' hm' rfl; exact ⟨by omega, j2⟩
      | err er => cases er <;> (cases e; exact same rfl)
      | abort => cases e
      | ub => cases e

theorem txRemove_work {db : Db} {t : Tx} {n' : Node} {k : B32} {r : Except Err Unit} {b : Nat}
    (ht : ∀ n, t = ⟨some n⟩ → hcost n ≤ b ∧ Tidy n) (e : txRemove db t k = .ok (⟨some n'⟩, r)) : hcost n' ≤ b + 257 ∧ Tidy n' := by
  have same : t = ⟨some n'⟩ → hcost n' ≤ b + 257 ∧ Tidy n' := fun h => ⟨by have := (ht n' h).1; omega, (ht n' h).2⟩
  unfold txRemove at e
  obtain ⟨n, e1, e⟩ := Res.bind_eq_ok.1 e
  obtain ⟨o⟩ := t
  cases o with
  | none => cases e1
  | some m =>
    cases e1
    obtain ⟨hm, hm'⟩ := ht n rfl
    have j := treeRemove_hcost (s := db.store) (key := k) treeFuel n 0
    generalize treeRemove db.store k treeFuel n 0 = q at j e
    cases q with
    | ok x => cases e; obtain ⟨j1, j2⟩ := j n' hm' rfl; exact ⟨by omega, j2⟩
    | err er => cases e; exact same rfl
    | abort => cases e
    | ub => cases e

theorem txProve_work {db : Db} {t : Tx} {n' : Node} {k : B32} {r : Except Err Bytes} {b : Nat}
    (ht : ∀ n, t = ⟨some n⟩ → hcost n ≤ b ∧ Tidy n) (e : txProve E db t k = .ok (⟨some n'⟩, r)) : hcost n' ≤ b ∧ Tidy n' := by
  unfold txProve at e
  obtain ⟨o⟩ := t
  cases o with
  | none => cases e
  | some n =>
    simp only [Tx.node, Res.bind_ok] at e
    obtain ⟨⟨x, m'⟩, e2, e⟩ := Res.bind_eq_ok.1 e
    obtain ⟨h2, h3⟩ := ht n rfl
    obtain ⟨h1, h1'⟩ := treeProve_hcost _ _ _ _ _ _ h3 e2
    cases x with
    | none => cases e; exact ⟨by show hcost m' ≤ b; omega, h1'⟩
    | some pf =>
      obtain ⟨_, _, e⟩ := Res.bind_eq_ok.1 e
      obtain ⟨_, _, e⟩ := Res.bind_eq_ok.1 e
      dsimp only at e
      split at e
      · cases e
      · cases e; exact ⟨by show hcost _ ≤ b; omega, h1'⟩

theorem tx_work {s : Sys} {id b : Nat} {t : Tx} (h : TxWork s id b) (e : s.tx id = .ok t) : ∀ n, t = ⟨some n⟩ → hcost n ≤ b ∧ Tidy n := by
  intro n hn; subst hn; exact h n (Sys.tx_some e)

/-- Every change leaves at most 257 more nodes without a hash; nothing else does. -/
theorem step_work (hE : EnvOk E) {s s' : Sys} {op : Op} {r : Ret} {id b : Nat} (hs : Sane E s) (h : TxWork s id b)
    (e : step E s op = .ok (s', r)) : TxWork s' id (b + 257 * op.changes id) := by
  have z : ∀ {n : Node}, hcost n = 0 ∧ Tidy n → hcost n ≤ b ∧ Tidy n := fun hn => ⟨by omega, hn.2⟩
  cases op with
  | root => cases e; exact h
  | inject h' =>
    obtain ⟨⟨db, x⟩, e1, e⟩ := Res.bind_eq_ok.1 e
    cases e; exact h
  | create i h' =>
    obtain ⟨⟨db, x⟩, e1, e⟩ := Res.bind_eq_ok.1 e
    cases x with
    | error _ => cases e; exact h
    | ok t =>
      cases e
      refine TxWork.set (h.db db) fun _ n hn => ?_
      cases hn
      exact z (txCreate_work hs.db e1 n rfl)
  | destroy i =>
    obtain ⟨t, e1, e⟩ := Res.bind_eq_ok.1 e
    obtain ⟨_, e2, e⟩ := Res.bind_eq_ok.1 e
    cases e
    exact TxWork.set h fun _ n hn => nomatch hn
  | clear i =>
    obtain ⟨t, e1, e⟩ := Res.bind_eq_ok.1 e
    obtain ⟨t1, e2, e⟩ := Res.bind_eq_ok.1 e
    cases e
    obtain ⟨_, _, e2⟩ := Res.bind_eq_ok.1 e2
    cases e2
    refine TxWork.set h fun _ n hn => ?_
    cases hn
    exact z (hcost_flat hs.db.flat)
  | txRoot i =>
    obtain ⟨t, e1, e⟩ := Res.bind_eq_ok.1 e
    obtain ⟨⟨t1, x⟩, e2, e⟩ := Res.bind_eq_ok.1 e
    cases e
    refine TxWork.set h fun hi n hn => ?_
    subst hi
    cases hn
    obtain ⟨m, e3, e2⟩ := Res.bind_eq_ok.1 e2
    obtain ⟨⟨x', m'⟩, e4, e2⟩ := Res.bind_eq_ok.1 e2
    cases e2
    obtain ⟨o⟩ := t
    cases o with
    | none => cases e3
    | some m0 =>
      cases e3
      exact z (nodeHash_done (tx_work h e1 m rfl).2 e4)
  | txInject i h' =>
    obtain ⟨t, e1, e⟩ := Res.bind_eq_ok.1 e
    obtain ⟨⟨db, t1, x⟩, e2, e⟩ := Res.bind_eq_ok.1 e
    cases e
    obtain ⟨⟨s1, o⟩, e3, e2⟩ := Res.bind_eq_ok.1 e2
    refine TxWork.set (h.db db) fun hi n hn => ?_
    subst hi
    cases o with
    | none => cases e2; cases hn; exact tx_work h e1 n rfl
    | some m =>
      obtain ⟨_, _, e2⟩ := Res.bind_eq_ok.1 e2
      cases e2
      cases hn
      exact z (hcost_flat (readHistory_flat e3 hs.db.flat))
  | get i k =>
    obtain ⟨t, e1, e⟩ := Res.bind_eq_ok.1 e
    obtain ⟨_, _, e⟩ := Res.bind_eq_ok.1 e
    cases e; exact h
  | has i k =>
    obtain ⟨t, e1, e⟩ := Res.bind_eq_ok.1 e
    obtain ⟨_, _, e⟩ := Res.bind_eq_ok.1 e
    cases e; exact h
  | insert i k v =>
    obtain ⟨t, e1, e⟩ := Res.bind_eq_ok.1 e
    obtain ⟨⟨t1, x⟩, e2, e⟩ := Res.bind_eq_ok.1 e
    cases e
    refine TxWork.set (h.mono (Nat.le_add_right _ _)) fun hi n hn => ?_
    subst hi
    cases hn
    obtain ⟨a, c⟩ := txInsert_work (tx_work h e1) e2
    exact ⟨by simp only [Op.changes, if_true]; omega, c⟩
  | remove i k =>
    obtain ⟨t, e1, e⟩ := Res.bind_eq_ok.1 e
    obtain ⟨⟨t1, x⟩, e2, e⟩ := Res.bind_eq_ok.1 e
    cases e
    refine TxWork.set (h.mono (Nat.le_add_right _ _)) fun hi n hn => ?_
    subst hi
    cases hn
    obtain ⟨a, c⟩ := txRemove_work (tx_work h e1) e2
    exact ⟨by simp only [Op.changes, if_true]; omega, c⟩
  | prove i k =>
    obtain ⟨t, e1, e⟩ := Res.bind_eq_ok.1 e
    obtain ⟨⟨t1, x⟩, e2, e⟩ := Res.bind_eq_ok.1 e
    cases e
    refine TxWork.set h fun hi n hn => ?_
    subst hi
    cases hn
    exact txProve_work (tx_work h e1) e2
  | commit i =>
    obtain ⟨t, e1, e⟩ := Res.bind_eq_ok.1 e
    obtain ⟨⟨db, t1, x⟩, e2, e⟩ := Res.bind_eq_ok.1 e
    cases e
    refine TxWork.set (h.db db) fun hi n hn => ?_
    obtain ⟨m, hm, hf, hc, hr⟩ := hs.txs i t (Sys.tx_some e1)
    obtain ⟨o⟩ := t
    dsimp only at hm
    subst hm
    obtain ⟨_, o, h2, h3⟩ := txCommit_of hE hs.db.store hf hc hr e2
    subst h2
    cases hn
    exact z (hcost_flat h3.flat)
  | reopen rand =>
    obtain ⟨⟨d, x⟩, e1, e⟩ := Res.bind_eq_ok.1 e
    cases x with
    | error _ => cases e
    | ok db => cases e; exact fun n hn => nomatch hn
  | get1 k h' =>
    obtain ⟨⟨db, x⟩, e1, e⟩ := Res.bind_eq_ok.1 e
    cases e; exact h
  | has1 k h' =>
    obtain ⟨⟨db, x⟩, e1, e⟩ := Res.bind_eq_ok.1 e
    cases e; exact h
  | insert1 k v =>
    obtain ⟨⟨db, x⟩, e1, e⟩ := Res.bind_eq_ok.1 e
    cases e; exact h
  | remove1 k =>
    obtain ⟨⟨db, x⟩, e1, e⟩ := Res.bind_eq_ok.1 e
    cases e; exact h
  | prove1 k h' =>
    obtain ⟨⟨db, x⟩, e1, e⟩ := Res.bind_eq_ok.1 e
    cases e; exact h

theorem calls_work (hE : EnvOk E) {s s' : Sys} {ops : List Op} {id : Nat} (hr : Calls E s ops s') : ∀ {b : Nat}, FromDir E s → TxWork s id b →
    TxWork s' id (b + 257 * (ops.map (Op.changes id)).sum) := by
  induction hr with
  | nil => intro b _ h; simpa using h
  | cons e _ ih =>
    intro b ho h
    have := ih (ho.call e) (step_work hE (ho.sane hE) h e)
    simpa [Nat.add_assoc, Nat.mul_add] using this

end

/-! ### Verification -/

section
variable {H : HashFn}

theorem verifyLoop_asks {key : B32} : ∀ (ns : List PNode) (d : Nat) (h : B32), (∀ n ∈ ns, Sized n.pre) →
    Asks H ns.length 1023 (fun H' => verifyLoop H' key ns d h) := by
  intro ns
  induction ns with
  | nil => intro d h _; exact .const _
  | cons n ns ih =>
    intro d h hs
    simp only [verifyLoop]
    split
    · exact .const _
    · refine Asks.bind0 fun bit _ => ?_
      have h1 : Asks H 1 1023 (fun H' => if bit = true then hashInternal H' n.pre n.hash h else hashInternal H' n.pre h n.hash) := by
        split <;> exact (hashInternal_asks (hs n (by simp))).mono (Nat.le_refl _) (by omega)
      refine (Asks.app (m := ns.length) (g := fun H' (x : B32) => bitsHas n.pre key.bytes (d - 1 - n.pre.size) >>= fun has =>
        if (!has) = true then .err .EPATHMISMATCH else verifyLoop H' key ns (d - 1 - n.pre.size) x) h1 ?_).le (by simp only [List.length_cons]; omega)
      refine Asks.bind0 fun has _ => ?_
      split
      · exact .const _
      · exact ih _ _ fun m hm => hs m (by simp [hm])

theorem proofVerify_asks {p : Proof} {key root : B32} (hp : ProofOk p) : Asks H (2 + p.nodes.length) 1023 (fun H' => proofVerify H' p key root) := by
  unfold proofVerify
  split
  · exact .const _
  · have up : ∀ f : HashFn → B32, Asks H 2 1023 f → Asks H (2 + p.nodes.length) 1023 (fun H' => (pure (f H') : Res B32) >>= fun next => do
        let (depth, next) ← verifyLoop H' key p.nodes.reverse p.depth next
        if depth ≠ 0 then .err .ETOODEEP
        else if next ≠ root then .err .EHASHMISMATCH
        else pure ()) := by
      intro f hf
      refine Asks.bind (hf.map fun x => (pure x : Res B32)) fun next _ => ?_
      refine (Asks.bind (m := 0) (verifyLoop_asks _ _ _ fun n hn => (hp.nodes n (List.mem_reverse.1 hn)).sized) ?_).le (by simp)
      rintro ⟨_, _⟩ _
      exact .const _
    cases hb : p.body with
    | deadend => exact up _ (.const _)
    | short pre l r =>
      dsimp only
      refine Asks.bind0 fun has _ => ?_
      split
      · exact .const _
      · have hs : Sized pre := by
          have := hp.body
          rw [hb] at this
          exact this.1.sized
        exact up _ ((hashInternal_asks hs).mono (by omega) (by omega))
    | collision k h =>
      dsimp only
      split
      · exact .const _
      · exact up _ (hashLeaf_asks.mono (by omega) (by omega))
    | «exists» v =>
      have hv : v.length ≤ 1023 := by
        have := hp.body
        rw [hb] at this
        exact this
      exact up _ (hashValue_asks hv)

theorem encNode_len {ns : List PNode} : ns.length * 32 ≤ (ns.flatMap encNode).length := by
  induction ns with
  | nil => simp
  | cons n ns ih => simp only [List.flatMap_cons, List.length_append, List.length_cons, encNode, n.hash.len]; omega

theorem urkelVerify_asks {raw : Bytes} {key root : B32} : Asks H (2 + min 256 (raw.length / 32)) 1023 (fun H' => urkelVerify H' raw key root) := by
  unfold urkelVerify
  refine Asks.bind0 fun r e => ?_
  cases r with
  | none => exact .const _
  | some p =>
    obtain ⟨o, e', ho⟩ := proofRead_total raw
    rw [e] at e'
    cases e'
    obtain ⟨hok, bm, _, _, hd⟩ := ho p rfl
    have hl : p.nodes.length ≤ min 256 (raw.length / 32) := by
      have h1 := hok.count
      have h2 := encNode_len (ns := p.nodes)
      have h3 : (p.nodes.flatMap encNode).length ≤ raw.length := by
        rw [hd]
        simp only [encProofWith, List.length_append]
        omega
      omega
    obtain ⟨Q, a, b, c⟩ := proofVerify_asks (H := H) (key := key) (root := root) hok
    exact ⟨Q, by omega, b, fun H' h => by dsimp only at c ⊢; rw [c H' h]⟩

end

end Urkel
