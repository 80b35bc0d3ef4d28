import Verif.Lemmas.Sep
/-
What the functions of Model/Heap.lean do, for every heap.
-/
namespace Urkel

/-- The part of the heap is the tree `n`, with its root in block `a`. -/
def own : Nat → Node → SProp
  | a, .null => pts a .null
  | a, .internal h p pre l r => ex fun al => ex fun ar => pts a (.internal h p pre al ar) ∗∗ own al l ∗∗ own ar r
  | a, .leaf h p k none vp => pts a (.leaf h p k none vp)
  | a, .leaf h p k (some v) vp => ex fun x => pts a (.leaf h p k (some x) vp) ∗∗ pts x (.bytes v)
  | a, .hash h p => pts a (.hash h p)

/-- Height of the part of a tree that is in memory. -/
def Node.height : Node → Nat
  | .internal _ _ _ l r => max l.height r.height + 1
  | _ => 1

/-- A chain of blocks as long as the tree is high. -/
theorem own_chain : ∀ (n : Node) (a : Nat) (m : Nat → Option Cell), own a n m →
    ∃ L : List Nat, L.Nodup ∧ n.height = L.length ∧ ∀ x ∈ L, m x ≠ none := by
  intro n
  induction n with
  | null =>
    intro a m h
    exact ⟨[a], by simp, rfl, by intro x hx; rw [List.mem_singleton.1 hx, h a]; simp⟩
  | hash hs p =>
    intro a m h
    exact ⟨[a], by simp, rfl, by intro x hx; rw [List.mem_singleton.1 hx, h a]; simp⟩
  | leaf hs p k v vp =>
    intro a m h
    cases v with
    | none => exact ⟨[a], by simp, rfl, by intro x hx; rw [List.mem_singleton.1 hx, h a]; simp⟩
    | some v =>
      obtain ⟨y, m1, m2, hd, he, h1, h2⟩ := h
      exact ⟨[a], by simp, rfl, by intro x hx; rw [List.mem_singleton.1 hx, he, h1 a]; simp⟩
  | internal hs p pre l r ihl ihr =>
    intro a m h
    obtain ⟨al, ar, m1, m2, hd, he, h1, m3, m4, hd', he', h3, h4⟩ := h
    obtain ⟨L, hL, hl, hm⟩ := ihl al m3 h3
    obtain ⟨R, hR, hr, hmr⟩ := ihr ar m4 h4
    have ha : m2 a = none := by
      rcases hd a with h | h
      · rw [h1 a, if_pos rfl] at h; cases h
      · exact h
    have hs : ∀ (X : List Nat) (m' : Nat → Option Cell), X.Nodup → (∀ x ∈ X, m' x ≠ none) → (∀ x, m' x ≠ none → m2 x ≠ none) →
        ∃ L : List Nat, L.Nodup ∧ X.length + 1 = L.length ∧ ∀ x ∈ L, m x ≠ none := by
      intro X m' hX hX' hsub
      refine ⟨a :: X, List.nodup_cons.2 ⟨fun hmem => hsub a (hX' a hmem) ha, hX⟩, rfl, ?_⟩
      intro x hx
      rw [he]
      rcases List.mem_cons.1 hx with rfl | hx
      · rw [h1 x]; simp
      · have := hsub x (hX' x hx)
        cases m1 x with
        | none => simpa using this
        | some c => simp
    have h3' : ∀ x, m3 x ≠ none → m2 x ≠ none := by
      intro x hx; rw [he']; cases hh : m3 x with
      | none => exact absurd hh hx
      | some c => simp
    have h4' : ∀ x, m4 x ≠ none → m2 x ≠ none := by
      intro x hx; rw [he']; cases m3 x with
      | none => simpa using hx
      | some c => simp
    show ∃ L : List Nat, L.Nodup ∧ max l.height r.height + 1 = L.length ∧ _
    rcases Nat.le_total l.height r.height with hh | hh
    · rw [Nat.max_eq_right hh, hr]; exact hs R m4 hR hmr h4'
    · rw [Nat.max_eq_left hh, hl]; exact hs L m3 hL hm h3'

theorem own_height {n : Node} {a : Nat} {F : SProp} {h : Heap} (hh : (own a n ∗∗ F) (view h)) : n.height ≤ h.length := by
  obtain ⟨m1, m2, _, he, h1, _⟩ := hh
  obtain ⟨L, hL, hn, hm⟩ := own_chain n a m1 h1
  rw [hn]
  have : L ⊆ h.map Prod.fst := by
    intro x hx
    have h1 : view h x ≠ none := by
      rw [he]
      cases hc : m1 x with
      | none => exact absurd hc (hm x hx)
      | some c => simp
    have hne : h.lookup x ≠ none := h1
    by_contra hc
    exact hne (List.lookup_eq_none_iff.2 fun p hp => by
      rw [bne_iff_ne]
      exact fun hpx => hc (List.mem_map.2 ⟨p, hp, hpx.symm⟩))
  have := (hL.subperm this).length_le
  simpa using this

/-! ### nodes.c -/

theorem hFree_null {a : Nat} : Triple (pts a .null) (hFree a) (fun _ => emp) := by
  refine Triple.load (by frames) ?_
  refine Triple.last (Triple.free (by frames) ?_)
  exact Triple.ret fun _ h => h

theorem hFree_internal {a : Nat} {h : Option B32} {p : Option Ptr} {pre : Bits} {l r : Nat} :
    Triple (pts a (.internal h p pre l r)) (hFree a) (fun _ => emp) := by
  refine Triple.load (by frames) ?_
  refine Triple.last (Triple.free (by frames) ?_)
  exact Triple.ret fun _ h => h

theorem hFree_hash {a : Nat} {h : B32} {p : Ptr} : Triple (pts a (.hash h p)) (hFree a) (fun _ => emp) := by
  refine Triple.load (by frames) ?_
  refine Triple.last (Triple.free (by frames) ?_)
  exact Triple.ret fun _ h => h

theorem hFree_leaf {a : Nat} {h : Option B32} {p : Option Ptr} {k : B32} {v : Option Bytes} {vp : Option Ptr} :
    Triple (own a (.leaf h p k v vp)) (hFree a) (fun _ => emp) := by
  cases v with
  | none =>
    unfold own
    refine Triple.load (by frames) ?_
    refine Triple.last (Triple.free (by frames) ?_)
    exact Triple.ret fun _ h => h
  | some v =>
    unfold own
    refine Triple.ex_pre fun x => ?_
    refine Triple.load (by frames) ?_
    refine Triple.free (a := x) (by frames) ?_
    refine Triple.last (Triple.free (by frames) ?_)
    exact Triple.ret fun _ h => h

theorem hDestroyLoop_spec : ∀ (n : Node) (fuel a : Nat), n.height ≤ fuel → Triple (own a n) (hDestroyLoop fuel a) (fun _ => emp) := by
  intro n
  induction n with
  | null =>
    intro fuel a hf
    cases fuel with
    | zero => simp [Node.height] at hf
    | succ fuel =>
      unfold own
      refine Triple.load (by frames) ?_
      exact hFree_null
  | hash h p =>
    intro fuel a hf
    cases fuel with
    | zero => simp [Node.height] at hf
    | succ fuel =>
      unfold own
      refine Triple.load (by frames) ?_
      exact hFree_hash
  | leaf h p k v vp =>
    intro fuel a hf
    cases fuel with
    | zero => simp [Node.height] at hf
    | succ fuel =>
      have := @hFree_leaf a h p k v vp
      cases v with
      | none =>
        unfold own at this ⊢
        refine Triple.load (by frames) ?_
        exact this
      | some v =>
        unfold own at this ⊢
        refine Triple.ex_pre fun x => ?_
        refine Triple.load (by frames) ?_
        exact Triple.pre (fun m hm => ⟨x, hm⟩) this
  | internal h p pre l r ihl ihr =>
    intro fuel a hf
    cases fuel with
    | zero => simp [Node.height] at hf
    | succ fuel =>
      have hf' : max l.height r.height + 1 ≤ fuel + 1 := hf
      unfold own
      refine Triple.ex_pre fun al => Triple.ex_pre fun ar => ?_
      refine Triple.load (by frames) ?_
      refine Triple.bind (ihl fuel al (by omega)) (by frames) fun _ => ?_
      refine Triple.bind (ihr fuel ar (by omega)) (by frames) fun _ => ?_
      refine Triple.last (Triple.free (by frames) ?_)
      exact Triple.ret fun _ h => h

theorem hDestroy_spec {n : Node} {a : Nat} : Triple (own a n) (hDestroy a) (fun _ => emp) := by
  intro F h hh
  exact hDestroyLoop_spec n (h.length + 1) a (by have := own_height hh; omega) F h hh

theorem loadBytes_spec {x : Nat} {b : Bytes} {P R : SProp} {β : Type} {Q : β → SProp} {k : Bytes → HM β} (hP : P = pts x (.bytes b) ∗∗ R)
    (h : Triple P (k b) Q) : Triple P (loadBytes x >>= k) Q := by
  have : Triple P (loadBytes x) (fun r => lpure (r = b) ∗∗ P) := by
    refine Triple.load hP ?_
    exact Triple.ret fun m hm => lpure_sep.2 ⟨rfl, hm⟩
  refine Triple.bind this (R := emp) (sep_emp _).symm fun r => ?_
  rw [sep_emp]
  refine Triple.pure_pre fun e => ?_
  rw [e]; exact h

theorem hHashLoop_spec {H : HashFn} : ∀ (n : Node) (fuel a : Nat) (h : B32) (n' : Node), n.height ≤ fuel → nodeHash H n = .ok (h, n') →
    Triple (own a n) (hHashLoop H fuel a) (fun r => lpure (r = h) ∗∗ own a n') := by
  intro n
  induction n with
  | null =>
    intro fuel a h n' hf e
    cases fuel with
    | zero => simp [Node.height] at hf
    | succ fuel =>
      cases e
      unfold own
      refine Triple.load (by frames) ?_
      exact Triple.ret fun m hm => lpure_sep.2 ⟨rfl, hm⟩
  | hash hs p =>
    intro fuel a h n' hf e
    cases fuel with
    | zero => simp [Node.height] at hf
    | succ fuel =>
      cases e
      unfold own
      refine Triple.load (by frames) ?_
      exact Triple.ret fun m hm => lpure_sep.2 ⟨rfl, hm⟩
  | leaf hs p k v vp =>
    intro fuel a h n' hf e
    cases fuel with
    | zero => simp [Node.height] at hf
    | succ fuel =>
      cases hs with
      | some hs =>
        cases e
        cases v with
        | none =>
          unfold own
          refine Triple.load (by frames) ?_
          exact Triple.ret fun m hm => lpure_sep.2 ⟨rfl, hm⟩
        | some v =>
          unfold own
          refine Triple.ex_pre fun x => ?_
          refine Triple.load (by frames) ?_
          exact Triple.ret fun m hm => lpure_sep.2 ⟨rfl, x, hm⟩
      | none =>
        cases v with
        | none => cases e
        | some v =>
          cases e
          unfold own
          refine Triple.ex_pre fun x => ?_
          refine Triple.load (by frames) ?_
          refine loadBytes_spec (by frames) ?_
          refine Triple.update (by frames) ?_
          exact Triple.ret fun m hm => lpure_sep.2 ⟨rfl, x, hm⟩
  | internal hs p pre l r ihl ihr =>
    intro fuel a h n' hf e
    cases fuel with
    | zero => simp [Node.height] at hf
    | succ fuel =>
      have hf' : max l.height r.height + 1 ≤ fuel + 1 := hf
      unfold own
      refine Triple.ex_pre fun al => Triple.ex_pre fun ar => ?_
      cases hs with
      | some hs =>
        cases e
        refine Triple.load (by frames) ?_
        exact Triple.ret fun m hm => lpure_sep.2 ⟨rfl, al, ar, hm⟩
      | none =>
        unfold nodeHash at e
        obtain ⟨⟨hl, l'⟩, e1, e⟩ := Res.bind_eq_ok.1 e
        obtain ⟨⟨hr, r'⟩, e2, e⟩ := Res.bind_eq_ok.1 e
        cases e
        refine Triple.load (by frames) ?_
        refine Triple.bind (ihl fuel al _ _ (by omega) e1) (by frames) fun x => ?_
        rw [sep_assoc]
        refine Triple.pure_pre fun hx => ?_
        refine Triple.bind (ihr fuel ar _ _ (by omega) e2) (by frames) fun y => ?_
        rw [sep_assoc]
        refine Triple.pure_pre fun hy => ?_
        subst hx hy
        refine Triple.update (by frames) ?_
        refine Triple.ret fun m hm => lpure_sep.2 ⟨rfl, al, ar, ?_⟩
        perm hm

theorem hHash_spec {H : HashFn} {n n' : Node} {a : Nat} {h : B32} (e : nodeHash H n = .ok (h, n')) :
    Triple (own a n) (hHash H a) (fun r => lpure (r = h) ∗∗ own a n') := by
  intro F x hh
  exact hHashLoop_spec n (x.length + 1) a h n' (by have := own_height hh; omega) e F x hh

/-- A call whose result is known. -/
theorem Triple.call {α β : Type} {P P0 P1 R : SProp} {Q : β → SProp} {m : HM α} {k : α → HM β} {x : α}
    (hm : Triple P0 m (fun r => lpure (r = x) ∗∗ P1)) (hP : P = P0 ∗∗ R) (hk : Triple (P1 ∗∗ R) (k x) Q) : Triple P (m >>= k) Q := by
  refine Triple.bind hm hP fun r => ?_
  rw [sep_assoc]
  exact Triple.pure_pre fun e => by rw [e]; exact hk

/-- A call that returns an address. -/
theorem Triple.fresh {β : Type} {P P0 R : SProp} {Q : β → SProp} {m : HM Nat} {k : Nat → HM β} {P1 : Nat → SProp}
    (hm : Triple P0 m P1) (hP : P = P0 ∗∗ R) (hk : ∀ a, Triple (P1 a ∗∗ R) (k a) Q) : Triple P (m >>= k) Q := Triple.bind hm hP hk

theorem hCreateLeaf_spec {A : Alloc} {H : HashFn} {k : B32} {v : Bytes} {β : Type} {P : SProp} {Q : β → SProp} {f : Nat → HM β}
    (h : ∀ a, Triple (own a (createLeaf H k v) ∗∗ P) (f a) Q) : Triple P (hCreateLeaf A H k v >>= f) Q := by
  have : Triple emp (hCreateLeaf A H k v) (fun a => own a (createLeaf H k v)) := by
    refine Triple.malloc fun a => Triple.malloc fun x => ?_
    refine Triple.update (by frames) ?_
    have hh : nodeHash H (.leaf none none k (some v) none) = .ok (hashValue H k v, createLeaf H k v) := rfl
    refine Triple.call (R := emp)
      (Triple.pre (P := pts a (.leaf none none k (some x) none) ∗∗ pts x (.bytes v)) (fun m hm => ⟨x, hm⟩) (hHash_spec (a := a) hh))
      (sep_emp _).symm ?_
    exact Triple.ret fun m hm => by rwa [sep_emp] at hm
  refine Triple.bind this (R := P) (emp_sep _).symm h

theorem hCreateInternal_spec {A : Alloc} {pre : Bits} {x y : Nat} {bit : Bool} {β : Type} {P : SProp} {Q : β → SProp} {f : Nat → HM β}
    (h : ∀ a, Triple (pts a (if bit then .internal none none pre y x else .internal none none pre x y) ∗∗ P) (f a) Q) :
    Triple P (hCreateInternal A pre x y bit >>= f) Q := Triple.malloc h

/-- A branch and its children. -/
theorem own_create {a x y : Nat} {pre : Bits} {nx ny : Node} {bit : Bool} {m : Nat → Option Cell}
    (h : (pts a (if bit then .internal none none pre y x else .internal none none pre x y) ∗∗ own x nx ∗∗ own y ny) m) :
    own a (createInternal pre nx ny bit) m := by
  unfold createInternal
  cases bit with
  | true =>
    refine ⟨y, x, ?_⟩
    perm h
  | false => exact ⟨x, y, h⟩

/-- A branch, split by the side of a bit. -/
theorem own_side {a al ar : Nat} {h : Option B32} {p : Option Ptr} {pre : Bits} {l r : Node} (bit : Bool) :
    pts a (.internal h p pre al ar) ∗∗ own al l ∗∗ own ar r =
      pts a (.internal h p pre al ar) ∗∗ own (if bit then ar else al) (side l r bit) ∗∗ own (if bit then al else ar) (side l r (!bit)) := by
  cases bit with
  | false => rfl
  | true => simp only [side]; exact congrArg _ (sep_comm _ _)

end Urkel
