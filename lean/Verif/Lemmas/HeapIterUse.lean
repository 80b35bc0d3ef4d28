import Verif.Lemmas.HeapIter
import Verif.Spec.HeapIter
/-
An iterator from its creation to its end.
-/
namespace Urkel

/-- At most one memory satisfies `P`. -/
def Exact (P : SProp) : Prop := ∀ m1 m2, P m1 → P m2 → m1 = m2

theorem Exact.sep {P Q : SProp} (hp : Exact P) (hq : Exact Q) : Exact (P ∗∗ Q) := by
  rintro m1 m2 ⟨a, b, _, he, h1, h2⟩ ⟨a', b', _, he', h1', h2'⟩
  have := hp _ _ h1 h1'; subst this
  have := hq _ _ h2 h2'; subst this
  funext x
  rw [he, he']

theorem Exact.pts {a : Nat} {c : Cell} : Exact (pts a c) := fun m1 m2 h1 h2 => funext fun x => by rw [h1 x, h2 x]

theorem exact_ownA : ∀ t : ANode, Exact (ownA t)
  | .null _ => Exact.pts
  | .hash _ _ _ => Exact.pts
  | .leaf _ _ _ _ none _ => Exact.pts
  | .leaf _ _ _ _ (some (_, _)) _ => Exact.pts.sep Exact.pts
  | .internal _ _ _ _ l r => Exact.pts.sep ((exact_ownA l).sep (exact_ownA r))

/-- All addresses in use are in a list of the given length. -/
def Within (P : SProp) (n : Nat) : Prop := ∀ m, P m → ∃ L : List Nat, L.length ≤ n ∧ ∀ a, m a ≠ none → a ∈ L

theorem Within.sep {P Q : SProp} {n k : Nat} (hp : Within P n) (hq : Within Q k) : Within (P ∗∗ Q) (n + k) := by
  rintro m ⟨a, b, _, he, h1, h2⟩
  obtain ⟨L1, l1, e1⟩ := hp _ h1
  obtain ⟨L2, l2, e2⟩ := hq _ h2
  refine ⟨L1 ++ L2, by rw [List.length_append]; omega, fun x hx => ?_⟩
  rw [he] at hx
  rw [List.mem_append]
  cases ha : a x with
  | some c => exact Or.inl (e1 x (by rw [ha]; simp))
  | none => rw [ha] at hx; exact Or.inr (e2 x (by simpa using hx))

theorem Within.pts {a : Nat} {c : Cell} : Within (pts a c) 1 := fun m h => ⟨[a], Nat.le_refl _, fun x hx => by
  rw [h x] at hx
  by_cases he : x = a
  · simp [he]
  · rw [if_neg he] at hx; exact (hx rfl).elim⟩

theorem Within.le {P : SProp} {n k : Nat} (h : Within P n) (hl : n ≤ k) : Within P k := fun m hm => by
  obtain ⟨L, a, b⟩ := h m hm
  exact ⟨L, Nat.le_trans a hl, b⟩

theorem within_ownA : ∀ t : ANode, Within (ownA t) t.node.blocks
  | .null _ => Within.pts
  | .hash _ _ _ => Within.pts
  | .leaf _ _ _ _ none _ => Within.pts
  | .leaf _ _ _ _ (some (_, _)) _ => Within.pts.sep Within.pts
  | .internal _ _ _ _ l r => (Within.pts.sep ((within_ownA l).sep (within_ownA r))).le (by show 1 + (l.node.blocks + r.node.blocks) ≤ 1 + l.node.blocks + r.node.blocks; omega)

/-- What an iterator holds besides the tree. -/
def extraOf : List GFrame → SProp
  | [] => emp
  | g :: gs => if g.resolved then ownA g.t ∗∗ extraOf gs else extraOf gs

theorem heapOf_eq (root : ANode) : ∀ gs : List GFrame, heapOf root gs = ownA root ∗∗ extraOf gs
  | [] => (sep_emp _).symm
  | g :: gs => by
    unfold heapOf extraOf
    rw [heapOf_eq root gs]
    split
    · exact sep_left_comm _ _ _
    · rfl

theorem within_extra {root : ANode} : ∀ {gs : List GFrame}, GOk root gs → Within (extraOf gs) (3 * gs.length)
  | [], _ => fun m hm => ⟨[], Nat.le_refl _, fun a ha => (ha (hm a)).elim⟩
  | g :: gs, h => by
    unfold extraOf
    have ih := within_extra h.1
    split
    · next hr => exact ((within_ownA g.t).sep ih).le (by have := h.2.2.1 hr; simp only [List.length_cons]; omega)
    · exact ih.le (by simp only [List.length_cons]; omega)

theorem GOk.length {root : ANode} {gs : List GFrame} (h : GOk root gs) : gs.length ≤ 256 := by
  cases gs with
  | nil => exact Nat.zero_le _
  | cons g gs => exact h.2.1

/-! ### Creation and destruction -/

theorem hIterCreate_spec {A : Alloc} {t lock : Nat} {root : ANode} : Triple (pts t (.tx root.addr lock)) (hIterCreate A t)
    (fun hit => ex fun c : GConst => lpure (hit = (⟨root, [], false, false⟩ : GIter).h c ∧ c.tx = t ∧ c.transient = false) ∗∗ (ownIter c ∗∗ pts t (.tx root.addr lock))) := by
  unfold hIterCreate
  refine Triple.malloc fun obj => Triple.malloc fun lk => ?_
  refine loadTx_spec (t := t) (root := root.addr) (lock := lock) (R := pts lk .raw ∗∗ pts obj .raw) (by ac_rfl) ?_
  refine Triple.ret fun m hm => ⟨⟨obj, lk, t, false⟩, lpure_sep.2 ⟨⟨rfl, rfl, rfl⟩, ?_⟩⟩
  unfold ownIter
  perm hm

theorem hIterDestroy_spec {c : GConst} {g : GIter} {lock : Nat} (ht : c.transient = false) :
    Triple (g.heap ∗∗ ownIter c ∗∗ pts c.tx (.tx g.root.addr lock)) (hIterDestroy (g.h c)) (fun _ => ownA g.root ∗∗ pts c.tx (.tx g.root.addr lock)) := by
  unfold hIterDestroy ownIter
  refine Triple.load (a := c.obj) (c := .raw) (R := g.heap ∗∗ pts c.lock .raw ∗∗ pts c.tx (.tx g.root.addr lock)) (by ac_rfl) ?_
  refine Triple.load (a := c.lock) (c := .raw) (R := g.heap ∗∗ pts c.obj .raw ∗∗ pts c.tx (.tx g.root.addr lock)) (by ac_rfl) ?_
  refine Triple.bind (hIterFrames_spec g.gs) (R := pts c.obj .raw ∗∗ pts c.lock .raw ∗∗ pts c.tx (.tx g.root.addr lock)) (by unfold GIter.heap; ac_rfl) fun _ => ?_
  refine loadTx_spec (t := c.tx) (root := g.root.addr) (lock := lock) (R := ownA g.root ∗∗ pts c.obj .raw ∗∗ pts c.lock .raw) (by ac_rfl) ?_
  have : (g.h c).transient = false := ht
  rw [this]
  show Triple _ (free c.lock >>= fun _ => free c.obj) _
  refine Triple.free (a := c.lock) (c := .raw) (R := ownA g.root ∗∗ pts c.obj .raw ∗∗ pts c.tx (.tx g.root.addr lock)) (by ac_rfl) ?_
  refine Triple.last (Triple.free (a := c.obj) (c := .raw) (R := ownA g.root ∗∗ pts c.tx (.tx g.root.addr lock)) (by ac_rfl) ?_)
  exact Triple.ret fun m hm => hm

/-- Destroying a transient iterator, its transaction included. -/
theorem hIterDestroy_transient {c : GConst} {g : GIter} {lock : Nat} (ht : c.transient = true) :
    Triple (g.heap ∗∗ ownIter c ∗∗ pts c.tx (.tx g.root.addr lock) ∗∗ pts lock .raw) (hIterDestroy (g.h c)) (fun _ => emp) := by
  unfold hIterDestroy ownIter
  refine Triple.load (a := c.obj) (c := .raw) (R := g.heap ∗∗ pts c.lock .raw ∗∗ pts c.tx (.tx g.root.addr lock) ∗∗ pts lock .raw) (by ac_rfl) ?_
  refine Triple.load (a := c.lock) (c := .raw) (R := g.heap ∗∗ pts c.obj .raw ∗∗ pts c.tx (.tx g.root.addr lock) ∗∗ pts lock .raw) (by ac_rfl) ?_
  refine Triple.bind (hIterFrames_spec g.gs) (R := pts c.obj .raw ∗∗ pts c.lock .raw ∗∗ pts c.tx (.tx g.root.addr lock) ∗∗ pts lock .raw) (by unfold GIter.heap; ac_rfl) fun _ => ?_
  refine loadTx_spec (t := c.tx) (root := g.root.addr) (lock := lock) (R := ownA g.root ∗∗ pts c.obj .raw ∗∗ pts c.lock .raw ∗∗ pts lock .raw) (by ac_rfl) ?_
  have : (g.h c).transient = true := ht
  rw [this]
  show Triple _ (hTxDestroy c.tx >>= fun _ => free c.lock >>= fun _ => free c.obj) _
  refine Triple.pre (P' := ownTx c.tx ⟨some g.root.node⟩ ∗∗ pts c.obj .raw ∗∗ pts c.lock .raw) ?_ ?_
  · intro m hm
    refine sep_mono (P := pts c.tx (.tx g.root.addr lock) ∗∗ pts lock .raw ∗∗ ownA g.root) ?_ ?_
    · intro m hm
      refine ownTx_intro (root := g.root.addr) (lock := lock) ?_
      exact sep_both (fun _ h => h) (fun m => sep_both (fun _ h => h) (ownA_own g.root)) hm
    · perm hm
  refine Triple.bind (hTxDestroy_spec rfl) rfl fun _ => ?_
  rw [emp_sep]
  refine Triple.free (a := c.lock) (c := .raw) (R := pts c.obj .raw) (by ac_rfl) ?_
  refine Triple.last (Triple.free (a := c.obj) (c := .raw) (R := emp) (sep_emp _).symm ?_)
  exact Triple.ret fun m hm => hm

/-! ### From creation to destruction -/

/-- The parts of the memory that an iterator does not change. -/
def fixed (root : ANode) (t lock : Nat) (m0 : Nat → Option Cell) : SProp := ownA root ∗∗ pts t (.tx root.addr lock) ∗∗ (fun m => m = m0)

theorem fixed_exact {root : ANode} {t lock : Nat} {m0 : Nat → Option Cell} : Exact (fixed root t lock m0) :=
  (exact_ownA root).sep (Exact.pts.sep fun _ _ h1 h2 => h1.trans h2.symm)

theorem fixed_of {t : Nat} {n : Node} {F : SProp} {heap : Heap} (h : (ownTx t ⟨some n⟩ ∗∗ F) (view heap)) :
    ∃ root lock m0, root.node = n ∧ fixed root t lock m0 (view heap) ∧ (pts lock .raw ∗∗ F) m0 := by
  have h1 : (ex fun r => ex fun lock => pts t (.tx r lock) ∗∗ pts lock .raw ∗∗ own r n ∗∗ F) (view heap) := by
    unfold ownTx at h
    rw [ex_sep] at h
    obtain ⟨r, h⟩ := h
    rw [ex_sep] at h
    obtain ⟨lock, h⟩ := h
    refine ⟨r, lock, ?_⟩
    have h : ((pts t (.tx r lock) ∗∗ pts lock .raw ∗∗ own r n) ∗∗ F) (view heap) := h
    perm h
  obtain ⟨r, lock, h1⟩ := h1
  have h2 : (own r n ∗∗ pts t (.tx r lock) ∗∗ (pts lock .raw ∗∗ F)) (view heap) := by perm h1
  obtain ⟨m1, m2, hd, he, a, m3, m4, hd', he', b, d⟩ := h2
  obtain ⟨root, rfl, rfl, a'⟩ := own_ownA n r m1 a
  exact ⟨root, lock, m4, rfl, ⟨m1, m2, hd, he, a', m3, m4, hd', he', b, rfl⟩, d⟩

theorem iter_memory {A : Alloc} {t : Nat} {x : Tx} {F : SProp} {heap : Heap} (h : (ownTx t x ∗∗ F) (view heap)) {it : Iter}
    (hi : iterCreate x = .ok it) {dbs : List Db} {rs : List (Except Err (B32 × Bytes))} (hc : iterCalls it dbs = .ok rs) : IterRun A t dbs rs heap := by
  unfold iterCreate at hi
  obtain ⟨n, e1, e2⟩ := Res.bind_eq_ok.1 hi
  cases Tx.node_ok e1
  cases e2
  obtain ⟨root, lock, m0, rfl, hf, _⟩ := fixed_of h
  have h1 : (pts t (.tx root.addr lock) ∗∗ (ownA root ∗∗ fun m => m = m0)) (view heap) := by unfold fixed at hf; perm hf
  obtain ⟨hit, heap1, c1, p1⟩ := hIterCreate_spec (A := A) _ _ h1
  rw [ex_sep] at p1
  obtain ⟨c, p1⟩ := p1
  rw [sep_assoc] at p1
  obtain ⟨⟨rfl, rfl, hct⟩, p1b⟩ := lpure_sep.1 p1
  have p1' : (((⟨root, [], false, false⟩ : GIter).heap ∗∗ ownIter c) ∗∗ (pts c.tx (.tx root.addr lock) ∗∗ fun m => m = m0)) (view heap1) := by
    show ((ownA root ∗∗ ownIter c) ∗∗ (pts c.tx (.tx root.addr lock) ∗∗ fun m => m = m0)) (view heap1)
    perm p1b
  obtain ⟨x2, heap2, c2, p2⟩ := hIterCalls_spec (A := A) (c := c) dbs (g := ⟨root, [], false, false⟩) trivial hc _ _ p1'
  rw [ex_sep] at p2
  obtain ⟨g, p2⟩ := p2
  rw [sep_assoc] at p2
  obtain ⟨⟨rfl, hg, hr⟩, p2b⟩ := lpure_sep.1 p2
  have hr' : g.root = root := hr
  subst hr'
  have p3 : ((g.heap ∗∗ ownIter c ∗∗ pts c.tx (.tx g.root.addr lock)) ∗∗ (fun m => m = m0)) (view heap2) := by perm p2b
  obtain ⟨u, heap3, c3, p4⟩ := hIterDestroy_spec (g := g) hct _ _ p3
  have p5 : fixed g.root c.tx lock m0 (view heap3) := by unfold fixed; perm p4
  have p6 : (fixed g.root c.tx lock m0 ∗∗ (extraOf g.gs ∗∗ ownIter c)) (view heap2) := by
    unfold fixed
    unfold GIter.heap at p2b
    rw [heapOf_eq] at p2b
    perm p2b
  obtain ⟨ma, mb, hd, he, q1, q2⟩ := p6
  have qa := fixed_exact _ _ q1 hf
  have hw : Within (extraOf g.gs ∗∗ ownIter c) 770 := ((within_extra hg).sep (Within.pts.sep Within.pts)).le (by have := hg.length; omega)
  obtain ⟨L, hl, hL⟩ := hw _ q2
  refine ⟨_, heap1, _, heap2, heap3, c1, c2, ?_, ⟨L, hl, ?_⟩, c3, ?_⟩
  · intro a cc hcc
    show view heap2 a = some cc
    have : view heap a = some cc := hcc
    rw [he, qa, this]; rfl
  · intro a ha
    have ha' : view heap2 a ≠ none := ha
    rw [he, qa] at ha'
    cases hh : view heap a with
    | some cc => left; show view heap a ≠ none; rw [hh]; simp
    | none => rw [hh] at ha'; exact Or.inr (hL a (by simpa using ha'))
  · intro a
    exact congrFun (fixed_exact _ _ p5 hf) a

/-! ### `urkel_iterate` -/

theorem txCreate_tx {E : Env} {db db' : Db} {h : Option B32} {tx : Tx} (hs : Flat db.store.state.rootNode) (e : txCreate E db h = .ok (db', .ok tx)) :
    ∃ n, tx = ⟨some n⟩ ∧ Flat n := by
  have hist : ∀ h : B32, (do
      let (s, r) ← readHistory E db.store h
      match r with
      | some n => pure ({ db with store := s }, .ok ⟨some n⟩)
      | none => pure ({ db with store := s }, .error .ENOTFOUND) : Res (Db × Except Err Tx)) = .ok (db', .ok tx) → ∃ n, tx = ⟨some n⟩ ∧ Flat n := by
    intro h e
    obtain ⟨⟨s, r⟩, e1, e2⟩ := Res.bind_eq_ok.1 e
    cases r with
    | none => cases e2
    | some n => cases e2; exact ⟨n, rfl, readHistory_flat e1 hs⟩
  unfold txCreate at e
  cases h with
  | some h => exact hist h e
  | none =>
    dsimp only at e
    split at e
    · exact hist _ e
    · cases e; exact ⟨_, rfl, hs⟩

theorem blocks_flat {n : Node} (h : Flat n) : n.blocks = 1 := by
  cases n with
  | null => rfl
  | hash _ _ => rfl
  | leaf _ _ _ _ _ => exact h.elim
  | internal _ _ _ _ _ => exact h.elim

theorem hIterate_spec {A : Alloc} {E : Env} {db db' : Db} {h : Option B32} {n : Node} (hs : Flat db.store.state.rootNode)
    (e : txCreate E db h = .ok (db', .ok ⟨some n⟩)) : Triple emp (hIterate A E db h) (fun x => ex fun c : GConst => ex fun root => ex fun lock =>
      lpure (x = (db', .ok ((⟨root, [], false, false⟩ : GIter).h c)) ∧ c.transient = true ∧ root.node = n) ∗∗
        (ownA root ∗∗ ownIter c ∗∗ pts c.tx (.tx root.addr lock) ∗∗ pts lock .raw)) := by
  unfold hIterate
  refine Triple.bind (hTxCreate_spec (A := A) hs e) (R := emp) (sep_emp _).symm fun x => ?_
  rw [sep_emp]
  refine Triple.ex_pre fun t => ?_
  refine Triple.pure_pre fun hx => ?_
  subst hx
  refine Triple.pre (P' := ex fun r : { r : ANode // r.node = n } => ex fun lock => pts t (.tx r.1.addr lock) ∗∗ pts lock .raw ∗∗ ownA r.1) ?_ ?_
  · rintro m ⟨r, lock, m1, m2, hd, hj, h1, m3, m4, hd', hj', h3, h4⟩
    obtain ⟨root, rfl, hn, h4'⟩ := own_ownA n r m4 h4
    exact ⟨⟨root, hn⟩, lock, m1, m2, hd, hj, h1, m3, m4, hd', hj', h3, h4'⟩
  refine Triple.ex_pre fun r => Triple.ex_pre fun lock => ?_
  refine Triple.bind (hIterCreate_spec (A := A) (t := t) (lock := lock) (root := r.1)) (R := pts lock .raw ∗∗ ownA r.1) rfl fun hit => ?_
  rw [ex_sep]
  refine Triple.ex_pre fun c => ?_
  rw [sep_assoc]
  refine Triple.pure_pre fun hx => ?_
  obtain ⟨rfl, rfl, _⟩ := hx
  refine Triple.ret fun m hm => ⟨{ c with transient := true }, r.1, lock, lpure_sep.2 ⟨⟨rfl, rfl, r.2⟩, ?_⟩⟩
  have hm : ((ownIter c ∗∗ pts c.tx (.tx r.1.addr lock)) ∗∗ pts lock .raw ∗∗ ownA r.1) m := hm
  show (ownA r.1 ∗∗ ownIter c ∗∗ pts c.tx (.tx r.1.addr lock) ∗∗ pts lock .raw) m
  perm hm

theorem iterate_memory {A : Alloc} {E : Env} {db db' : Db} {h : Option B32} {it : Iter} (hs : Flat db.store.state.rootNode)
    (hi : urkelIterate E db h = .ok (db', .ok it)) {dbs : List Db} {rs : List (Except Err (B32 × Bytes))} (hc : iterCalls it dbs = .ok rs) (heap : Heap) :
    IterateRun A E db db' h dbs rs heap := by
  unfold urkelIterate at hi
  obtain ⟨⟨db1, r⟩, e1, e2⟩ := Res.bind_eq_ok.1 hi
  cases r with
  | error _ => cases e2
  | ok tx =>
  obtain ⟨it', e3, e4⟩ := Res.bind_eq_ok.1 e2
  cases e4
  obtain ⟨n, rfl, hfl⟩ := txCreate_tx hs e1
  unfold iterCreate at e3
  obtain ⟨n', e5, e6⟩ := Res.bind_eq_ok.1 e3
  cases Tx.node_ok e5
  cases e6
  have h1 : (emp ∗∗ fun m => m = view heap) (view heap) := by rw [emp_sep]
  obtain ⟨x, heap1, c1, p1⟩ := hIterate_spec (A := A) hs e1 _ _ h1
  rw [ex_sep] at p1
  obtain ⟨c, p1⟩ := p1
  rw [ex_sep] at p1
  obtain ⟨root, p1⟩ := p1
  rw [ex_sep] at p1
  obtain ⟨lock, p1⟩ := p1
  rw [sep_assoc] at p1
  obtain ⟨⟨rfl, hct, rfl⟩, p1b⟩ := lpure_sep.1 p1
  have p1' : (((⟨root, [], false, false⟩ : GIter).heap ∗∗ ownIter c) ∗∗ (pts c.tx (.tx root.addr lock) ∗∗ pts lock .raw ∗∗ fun m => m = view heap)) (view heap1) := by
    show ((ownA root ∗∗ ownIter c) ∗∗ (pts c.tx (.tx root.addr lock) ∗∗ pts lock .raw ∗∗ fun m => m = view heap)) (view heap1)
    perm p1b
  obtain ⟨x2, heap2, c2, p2⟩ := hIterCalls_spec (A := A) (c := c) dbs (g := ⟨root, [], false, false⟩) trivial hc _ _ p1'
  rw [ex_sep] at p2
  obtain ⟨g, p2⟩ := p2
  rw [sep_assoc] at p2
  obtain ⟨⟨rfl, hg, hr⟩, p2b⟩ := lpure_sep.1 p2
  have hr' : g.root = root := hr
  subst hr'
  have p3 : ((g.heap ∗∗ ownIter c ∗∗ pts c.tx (.tx g.root.addr lock) ∗∗ pts lock .raw) ∗∗ (fun m => m = view heap)) (view heap2) := by perm p2b
  obtain ⟨u, heap3, c3, p4⟩ := hIterDestroy_transient (g := g) hct _ _ p3
  rw [emp_sep] at p4
  have p6 : ((fun m => m = view heap) ∗∗ (extraOf g.gs ∗∗ ownIter c ∗∗ pts c.tx (.tx g.root.addr lock) ∗∗ pts lock .raw ∗∗ ownA g.root)) (view heap2) := by
    unfold GIter.heap at p2b
    rw [heapOf_eq] at p2b
    perm p2b
  obtain ⟨ma, mb, hd, he, qa, q2⟩ := p6
  have qa : ma = view heap := qa
  have hw : Within (extraOf g.gs ∗∗ ownIter c ∗∗ pts c.tx (.tx g.root.addr lock) ∗∗ pts lock .raw ∗∗ ownA g.root) 773 :=
    ((within_extra hg).sep ((Within.pts.sep Within.pts).sep (Within.pts.sep (Within.pts.sep (within_ownA g.root))))).le (by
      rw [blocks_flat hfl]; have := hg.length; omega)
  obtain ⟨L, hl, hL⟩ := hw _ q2
  refine ⟨_, heap1, _, heap2, heap3, c1, c2, ?_, ⟨L, hl, ?_⟩, c3, ?_⟩
  · intro a cc hcc
    show view heap2 a = some cc
    have : view heap a = some cc := hcc
    rw [he, qa, this]; rfl
  · intro a ha
    have ha' : view heap2 a ≠ none := ha
    rw [he, qa] at ha'
    cases hh : view heap a with
    | some cc => left; show view heap a ≠ none; rw [hh]; simp
    | none => rw [hh] at ha'; exact Or.inr (hL a (by simpa using ha'))
  · intro a
    exact congrFun p4 a

/-- When there is no such tree, nothing stays allocated. -/
theorem iterate_error {A : Alloc} {E : Env} {db db' : Db} {h : Option B32} {er : Err} (hs : Flat db.store.state.rootNode)
    (hi : urkelIterate E db h = .ok (db', .error er)) (heap : Heap) :
    ∃ heap1, hIterate A E db h heap = .ok ((db', .error er), heap1) ∧ ∀ a, heap1.lookup a = heap.lookup a := by
  unfold urkelIterate at hi
  obtain ⟨⟨db1, r⟩, e1, e2⟩ := Res.bind_eq_ok.1 hi
  cases r with
  | ok tx =>
    obtain ⟨it', e3, e4⟩ := Res.bind_eq_ok.1 e2
    cases e4
  | error _ =>
    cases e2
    have key : Triple emp (hIterate A E db h) (fun x => lpure (x = (db', .error er)) ∗∗ emp) := by
      unfold hIterate
      refine Triple.bind (hTxCreate_spec (A := A) hs e1) (R := emp) (sep_emp _).symm fun x => ?_
      rw [sep_emp]
      refine Triple.pure_pre fun hx => ?_
      subst hx
      exact Triple.ret fun m hm => lpure_sep.2 ⟨rfl, hm⟩
    have h1 : (emp ∗∗ fun m => m = view heap) (view heap) := by rw [emp_sep]
    obtain ⟨x, heap1, c1, p1⟩ := key _ _ h1
    rw [sep_assoc, emp_sep] at p1
    obtain ⟨rfl, p2⟩ := lpure_sep.1 p1
    exact ⟨heap1, c1, fun a => congrFun p2 a⟩

end Urkel
