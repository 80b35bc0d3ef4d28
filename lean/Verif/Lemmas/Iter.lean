import Verif.Spec.Iter
import Verif.Lemmas.Refine
import Verif.Lemmas.Grew
/-
The iterator visits the leaves from left to right.
-/
namespace Urkel
open PTree

/-- Stack frames used by an unloaded subtree, its own frame included. -/
def diskNeed : PTree → Nat
  | .null => 2
  | .leaf _ _ => 2
  | .node _ l r => 2 + max (diskNeed l) (diskNeed r)

/-- Stack frames used by a subtree. -/
def need : Node → PTree → Nat
  | .internal _ _ _ l r, .node _ tl tr => 1 + max (need l tl) (need r tr)
  | .hash _ _, t => diskNeed t
  | _, _ => 1

theorem diskNeed_eq (t : PTree) : diskNeed t = 2 * t.height + 2 := by
  induction t with
  | null => rfl
  | leaf => rfl
  | node pre l r hl hr => simp only [diskNeed, height, hl, hr]; omega

theorem need_le {H : HashFn} {rd : Rd} {n : Node} {t : PTree} (h : Repr H rd n t) : need n t ≤ cost n t := by
  induction n generalizing t with
  | null => have : t = .null := h; subst this; simp [need, cost, Node.isHash]
  | hash x p => simp [need, cost, Node.isHash, diskNeed_eq]
  | leaf => obtain ⟨x, rfl, _⟩ := h; simp [need, cost, Node.isHash]
  | internal x p b l r hl hr =>
    obtain ⟨pre, tl, tr, rfl, _, h1, h2, _⟩ := h
    have a := hl h1; have b := hr h2
    have c := cost_le l tl; have d := cost_le r tr
    simp only [need, cost, Node.isHash, height, Bool.false_eq_true, if_false]; omega

theorem need_pos (n : Node) (t : PTree) : 1 ≤ need n t := by
  unfold need; split
  · omega
  · rw [diskNeed_eq]; omega
  · omega

theorem WF.entries_ne {p : List Bool} {t : PTree} (h : WF p t) : t.entries ≠ [] := by
  induction t generalizing p with
  | null => exact h.elim
  | leaf => simp [entries]
  | node pre l r hl _ => simp [entries, hl h.1]

/-- The pairs still to come from the frames of a stack, and the height the stack
will reach. -/
inductive Frames (H : HashFn) (rd : Rd) : List Frame → List (B32 × Bytes) → Nat → Prop
  | nil : Frames H rd [] [] 0
  | fresh {n : Node} {t : PTree} {p : List Bool} {d : Nat} {b : Bool} {rest : List Frame} {l : List (B32 × Bytes)} {m : Nat} :
      Repr H rd n t → WF p t → Frames H rd rest l m →
      Frames H rd (⟨n, d, b, 0⟩ :: rest) (t.entries ++ l) (max m (rest.length + need n t))
  | half {h : Option B32} {q : Option Ptr} {pre : Bits} {nl nr : Node} {t : PTree} {p : List Bool} {d : Nat} {b : Bool}
      {rest : List Frame} {l : List (B32 × Bytes)} {m : Nat} :
      Repr H rd nr t → WF p t → Frames H rd rest l m →
      Frames H rd (⟨.internal h q pre nl nr, d, b, 1⟩ :: rest) (t.entries ++ l) (max m (rest.length + 1 + need nr t))
  | spent {f : Frame} {rest : List Frame} {l : List (B32 × Bytes)} {m : Nat} :
      (∃ h q pre nl nr, f.node = .internal h q pre nl nr ∧ 2 ≤ f.child) ∨ (∃ h q, f.node = .hash h q ∧ 1 ≤ f.child) →
      Frames H rd rest l m → Frames H rd (f :: rest) l m

theorem Frames.mono {H : HashFn} {rd rd' : Rd} (hle : Rd.Le rd rd') {st : List Frame} {l : List (B32 × Bytes)} {m : Nat}
    (h : Frames H rd st l m) : Frames H rd' st l m := by
  induction h with
  | nil => exact .nil
  | fresh a b _ ih => exact .fresh (a.mono hle) b ih
  | half a b _ ih => exact .half (a.mono hle) b ih
  | spent a _ ih => exact .spent a ih

/-- Pushing onto a stack. -/
theorem iterPush_eq (it : Iter) (n : Node) (d : Nat) (b : Bool) :
    iterPush it n d b = if it.stack.length < 256 then .ok { it with stack := ⟨n, d, b, 0⟩ :: it.stack } else .abort := by
  unfold iterPush
  by_cases c : it.stack.length < 256
  · rw [if_pos c]
    have : it.stack.length < keyBits := c
    simp only [this, decide_true, check_true, Res.bind_ok, Res.pure_eq]
  · rw [if_neg c]
    have : ¬ it.stack.length < keyBits := c
    simp only [this, decide_false, check_false, Res.bind_abort]

/-- What one seek finds. -/
inductive Found (H : HashFn) (s : Store) (it : Iter) (m : Nat) : Res (Iter × Except Err Unit) → List (B32 × Bytes) → Prop
  | abort {l : List (B32 × Bytes)} : 256 < m → Found H s it m .abort l
  | leaf {h : Option B32} {q : Option Ptr} {k : B32} {v : Option Bytes} {vp : Option Ptr} {x : Bytes} {st : List Frame}
      {f : Frame} {l : List (B32 × Bytes)} {m' : Nat} :
      storeRetrieve s v vp = .ok (some x) → Frames H s.rd st l m' → (m ≤ 256 ↔ m' ≤ 256) → st.length < 256 →
      Found H s it m (.ok ({ it with node := some (.leaf h q k v vp), stack := f :: st }, .ok ())) ((k, x) :: l)

theorem Found.of {H : HashFn} {s : Store} {it it' : Iter} {m m' : Nat} {r : Res (Iter × Except Err Unit)} {l : List (B32 × Bytes)}
    (h : Found H s it m r l) (e : { it with stack := it'.stack, node := it'.node } = it') (hm : m ≤ 256 ↔ m' ≤ 256) :
    Found H s it' m' r l := by
  cases h with
  | abort h => exact .abort (by omega)
  | leaf a b c d =>
    have h1 : it.root = it'.root := by rw [← e]
    have h2 : it.done = it'.done := by rw [← e]
    rw [h1, h2]
    exact .leaf a b (hm.symm.trans c) d

theorem seekLoop_ok {H : HashFn} {s : Store} (fuel : Nat) {it : Iter} {f : Frame} {rest : List Frame} {l : List (B32 × Bytes)}
    {m : Nat} (hst : it.stack = f :: rest) (hf : Frames H s.rd (f :: rest) l m) (hlen : (f :: rest).length ≤ 256)
    (hns : ¬ ((∃ h q pre nl nr, f.node = .internal h q pre nl nr ∧ 2 ≤ f.child) ∨ (∃ h q, f.node = .hash h q ∧ 1 ≤ f.child)))
    (hfuel : 257 ≤ fuel + (f :: rest).length) : Found H s it m (seekLoop s fuel it) l := by
  induction fuel generalizing it f rest l m with
  | zero => simp at hfuel hlen; omega
  | succ fuel ih =>
    obtain ⟨ro, nd, st, dn⟩ := it
    have hst : st = f :: rest := hst
    subst hst
    rw [seekLoop]
    simp only [List.length_cons] at hlen hfuel
    cases hf with
    | spent a _ => exact (hns a).elim
    | half hr hw hrest =>
      rename_i x q pre nl nr t p d b l m
      simp only [show ¬ (1 : Nat) ≥ 2 by omega, if_false, if_true, iterPush_eq, List.length_cons]
      by_cases c : rest.length + 1 < 256
      · rw [if_pos c]
        simp only [Res.bind_ok]
        have := need_pos nr t
        refine Found.of (ih (it := ⟨ro, nd, _, dn⟩) rfl
          (.fresh hr hw (.spent (Or.inl ⟨_, _, _, _, _, rfl, Nat.le_refl 2⟩) hrest)) ?_ ?_ ?_) rfl ?_
        · simp; omega
        · rintro (⟨_, _, _, _, _, _, h⟩ | ⟨_, _, _, h⟩) <;> simp at h
        · simp; omega
        · simp
      · rw [if_neg c]
        have := need_pos nr t
        exact .abort (by omega)
    | fresh hr hw hrest =>
      rename_i n t p d b l m
      cases n with
      | null => have : t = .null := hr; subst this; exact hw.elim
      | leaf x q k v vp =>
        have h0 := hr
        obtain ⟨y, rfl, _⟩ := hr
        refine Found.of (Found.leaf (f := ⟨.leaf x q k v vp, d, b, 0⟩) (storeRetrieve_ok h0) hrest ?_ (by omega)) ?_ Iff.rfl
        · simp only [need]; omega
        · rfl
      | hash x q =>
        obtain ⟨h1, rfl⟩ := hr
        obtain ⟨n', e1, r1, hh⟩ := storeResolve_ok h1
        simp only [show ¬ (0 : Nat) ≥ 1 by omega, if_false, e1, Res.bind_ok, iterPush_eq, List.length_cons]
        have hn : need n' t + 1 = diskNeed t := by
          clear ih
          cases n' with
          | null => have : t = .null := r1; subst this; exact hw.elim
          | hash => simp [Node.isHash] at hh
          | leaf => obtain ⟨y, rfl, _⟩ := r1; rfl
          | internal a b c d e =>
            rw [storeResolve, storeReadNode] at e1
            cases t with
            | null => exact hw.elim
            | leaf => obtain ⟨_, _, _, h, _⟩ := r1; cases h
            | node pre tl tr =>
              obtain ⟨hp, dd, bb, pl, pr, h3, h4, ⟨h5, _⟩, h6, h7⟩ := h1
              have hlo := hp.lo; have hhi := hp.hi
              rw [if_neg (by omega), storeReadInto_ok (by omega), Res.bind_ok] at e1
              have hrd : storeRead s q.size q.index q.pos = some dd := h3
              rw [hrd] at e1
              simp only [h5, Res.bind_ok, Res.pure_eq] at e1
              cases e1
              simp only [need, diskNeed]; omega
        have := need_pos n' t
        by_cases c : rest.length + 1 < 256
        · rw [if_pos c]
          simp only [Res.bind_ok]
          refine Found.of (ih (it := ⟨ro, nd, _, dn⟩) rfl
            (.fresh r1 hw (.spent (Or.inr ⟨_, _, rfl, Nat.le_refl 1⟩) hrest)) ?_ ?_ ?_) rfl ?_
          · simp; omega
          · rintro (⟨_, _, _, _, _, _, h⟩ | ⟨_, _, _, h⟩) <;> simp at h
          · simp; omega
          · simp only [need, List.length_cons]; omega
        · rw [if_neg c]
          exact .abort (by simp only [need]; omega)
      | internal x q pb nl nr =>
        obtain ⟨pre, tl, tr, rfl, hb, hl, hrr, _, _⟩ := hr
        simp only [show ¬ (0 : Nat) ≥ 2 by omega, show ¬ (0 + 1 : Nat) = 2 by omega, if_false, iterPush_eq, List.length_cons]
        have := need_pos nl tl
        have := need_pos nr tr
        by_cases c : rest.length + 1 < 256
        · rw [if_pos c]
          simp only [Res.bind_ok]
          rw [entries, List.append_assoc]
          refine Found.of (ih (it := ⟨ro, nd, _, dn⟩) rfl
            (.fresh hl hw.1 (.half hrr hw.2 hrest)) ?_ ?_ ?_) rfl ?_
          · simp; omega
          · rintro (⟨_, _, _, _, _, _, h⟩ | ⟨_, _, _, h⟩) <;> simp at h
          · simp; omega
          · simp only [need, List.length_cons]; omega
        · rw [if_neg c]
          exact .abort (by simp only [need]; omega)

/-- An iterator with the pairs `l` still to come; its stack will reach height `m`. -/
inductive IterAt (H : HashFn) (rd : Rd) : Iter → List (B32 × Bytes) → Nat → Prop
  | started {ro : Node} {nd : Option Node} {f : Frame} {rest : List Frame} {l : List (B32 × Bytes)} {m : Nat} :
      Frames H rd rest l m → rest.length < 256 → IterAt H rd ⟨ro, nd, f :: rest, false⟩ l m
  | new {ro : Node} {nd : Option Node} {t : PTree} : Repr H rd ro t → WF [] t → IterAt H rd ⟨ro, nd, [], false⟩ t.entries (need ro t)
  | empty {nd : Option Node} : IterAt H rd ⟨.null, nd, [], false⟩ [] 0
  | done {ro : Node} {nd : Option Node} {st : List Frame} : IterAt H rd ⟨ro, nd, st, true⟩ [] 0

theorem IterAt.mono {H : HashFn} {rd rd' : Rd} (hle : Rd.Le rd rd') {it : Iter} {l : List (B32 × Bytes)} {m : Nat}
    (h : IterAt H rd it l m) : IterAt H rd' it l m := by
  cases h with
  | started a b => exact .started (a.mono hle) b
  | new a b => exact .new (a.mono hle) b
  | empty => exact .empty
  | done => exact .done

/-- What one call returns. -/
inductive Next (H : HashFn) (rd : Rd) (m : Nat) : List (B32 × Bytes) → Res (Iter × Except Err (B32 × Bytes)) → Prop
  | abort {l : List (B32 × Bytes)} : 256 < m → Next H rd m l .abort
  | stop {it : Iter} : m ≤ 256 → IterAt H rd it [] 0 → Next H rd m [] (.ok (it, .error .EITEREND))
  | pair {it : Iter} {k : B32} {x : Bytes} {l : List (B32 × Bytes)} {m' : Nat} :
      IterAt H rd it l m' → (m ≤ 256 ↔ m' ≤ 256) → Next H rd m ((k, x) :: l) (.ok (it, .ok (k, x)))

theorem Found.next {H : HashFn} {s : Store} {ro : Node} {st : List Frame} {m : Nat} {r : Res (Iter × Except Err Unit)}
    {l : List (B32 × Bytes)} (h : Found H s ⟨ro, none, st, false⟩ m r l)
    (g : Iter × Except Err Unit → Res (Iter × Except Err (B32 × Bytes)))
    (hg : ∀ it h q k v vp x, it.node = some (.leaf h q k v vp) → storeRetrieve s v vp = .ok (some x) →
      g (it, .ok ()) = .ok (it, .ok (k, x))) : Next H s.rd m l (r >>= g) := by
  cases h with
  | abort h => exact .abort h
  | leaf a b c d =>
    rw [Res.bind_ok, hg _ _ _ _ _ _ _ rfl a]
    exact .pair (.started b d) c

theorem Frames.nil_pending {H : HashFn} {rd : Rd} {l : List (B32 × Bytes)} {m : Nat} (h : Frames H rd [] l m) : l = [] ∧ m = 0 := by
  cases h; exact ⟨rfl, rfl⟩

theorem nextLoop_ok {H : HashFn} {s : Store} (fuel : Nat) {it : Iter} {f : Frame} {rest : List Frame} {l : List (B32 × Bytes)}
    {m : Nat} (hst : it.stack = f :: rest) (hd : it.done = false) (hf : Frames H s.rd rest l m) (hlen : rest.length < 256)
    (hfuel : rest.length + 1 ≤ fuel) : Next H s.rd m l (nextLoop s fuel it) := by
  induction rest generalizing it f fuel with
  | nil =>
    obtain ⟨rfl, rfl⟩ := hf.nil_pending
    obtain ⟨fuel, rfl⟩ : ∃ n, fuel = n + 1 := ⟨fuel - 1, by simp at hfuel; omega⟩
    obtain ⟨ro, nd, st, dn⟩ := it
    cases hst; cases hd
    exact .stop (by omega) .done
  | cons g rest ih =>
    obtain ⟨fuel, rfl⟩ : ∃ n, fuel = n + 1 := ⟨fuel - 1, by simp at hfuel; omega⟩
    obtain ⟨ro, nd, st, dn⟩ := it
    cases hst; cases hd
    rw [nextLoop]
    have e0 : iterSeek s ⟨ro, nd, f :: g :: rest, false⟩ = seekLoop s iterFuel ⟨ro, none, g :: rest, false⟩ := rfl
    rw [e0]
    by_cases hns : (∃ h q pre nl nr, g.node = .internal h q pre nl nr ∧ 2 ≤ g.child) ∨ (∃ h q, g.node = .hash h q ∧ 1 ≤ g.child)
    · have hskip : ∀ n, seekLoop s (n + 1) ⟨ro, none, g :: rest, false⟩ = .ok (⟨ro, none, g :: rest, false⟩, .ok ()) := by
        intro n
        rw [seekLoop]
        rcases hns with ⟨h, q, pre, nl, nr, e, c⟩ | ⟨h, q, e, c⟩
        · simp only [e, ge_iff_le, c, if_true]
        · simp only [e, ge_iff_le, c, if_true]
      rw [show iterFuel = 599 + 1 from rfl, hskip, Res.bind_ok]
      have hrest : Frames H s.rd rest l m := by
        cases hf with
        | spent _ h => exact h
        | fresh _ _ _ => rcases hns with ⟨_, _, _, _, _, _, c⟩ | ⟨_, _, _, c⟩ <;> simp at c
        | half _ _ _ =>
          rcases hns with ⟨_, _, _, _, _, _, c⟩ | ⟨_, _, e, c⟩
          · simp at c
          · cases e
      refine ih fuel rfl rfl hrest ?_ ?_
      · simp at hlen; omega
      · simp at hfuel; omega
    · refine Found.next (seekLoop_ok iterFuel rfl hf ?_ hns ?_) _ ?_
      · simp at hlen ⊢; omega
      · simp [iterFuel]; omega
      · intro it h q k v vp x e1 e2
        simp only [e1, e2, Res.bind_ok, Res.pure_eq]

theorem iterNext_ok {H : HashFn} {db : Db} {it : Iter} {l : List (B32 × Bytes)} {m : Nat} (h : IterAt H db.store.rd it l m) :
    Next H db.store.rd m l (iterNext db it) := by
  unfold iterNext
  cases h with
  | started a b => exact nextLoop_ok _ rfl rfl a b (by simp [iterFuel]; omega)
  | done => exact .stop (by omega) .done
  | empty => exact .stop (by omega) .done
  | new hr hw =>
    rename_i ro nd t
    rw [show iterFuel = 599 + 1 from rfl, nextLoop]
    have e0 : iterSeek db.store ⟨ro, nd, [], false⟩ = seekLoop db.store iterFuel ⟨ro, none, [⟨ro, 0, false, 0⟩], false⟩ := by
      simp only [iterSeek, iterPush_eq]; rfl
    rw [e0]
    have hp := need_pos ro t
    have hf : Frames H db.store.rd [⟨ro, 0, false, 0⟩] (t.entries ++ []) (max 0 (0 + need ro t)) := .fresh hr hw .nil
    simp only [List.append_nil, Nat.zero_add, Nat.zero_max] at hf
    refine Found.next (seekLoop_ok iterFuel rfl hf ?_ ?_ ?_) _ ?_
    · simp
    · rintro (⟨_, _, _, _, _, _, h⟩ | ⟨_, _, _, h⟩) <;> simp at h
    · simp [iterFuel]
    · intro it h q k v vp x e1 e2
      simp only [e1, e2, Res.bind_ok, Res.pure_eq]

theorem listing_zero (l : List (B32 × Bytes)) : listing l 0 = [] := rfl

theorem listing_nil (n : Nat) : listing [] (n + 1) = .error .EITEREND :: listing [] n := by
  simp [listing, List.range_succ_eq_map, Function.comp_def]

theorem listing_cons (p : B32 × Bytes) (l : List (B32 × Bytes)) (n : Nat) : listing (p :: l) (n + 1) = .ok p :: listing l n := by
  simp [listing, List.range_succ_eq_map, Function.comp_def]

/-- Readable bytes stay readable when the files grow. -/
theorem Grew.rd {a b : List Bytes} (h : Grew a b) : Rd.Le (vrd a) (vrd b) := by
  intro p d hd
  unfold vrd at *
  split at hd
  · cases hd
  · next h0 =>
    rw [if_neg h0]
    cases ha : a[p.index - 1]? with
    | none => rw [ha] at hd; cases hd
    | some f =>
      obtain ⟨t, hb⟩ := h _ f ha
      rw [ha] at hd
      rw [hb]
      simp only at hd ⊢
      split at hd
      · next hz => rw [if_pos hz]; exact hd
      · next hz =>
        rw [if_neg hz]
        split at hd
        · cases hd
        · next hs =>
          rw [if_neg (by simp; omega)]
          rw [List.drop_append_of_le_length (by omega), List.take_append_of_le_length (by simp; omega)]
          exact hd

end Urkel
