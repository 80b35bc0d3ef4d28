import Verif.Spec.Local
import Verif.Lemmas.Damage
/-
How much of the data files a call depends on.
-/
namespace Urkel

/-- `F` depends on the files only at `N` node records and `V` values. -/
def Loc {α : Type} (F : Store → Res α) (s : Store) (N V : Nat) : Prop :=
  ∃ ps vs : List Ptr, ps.length ≤ N ∧ vs.length ≤ V ∧ (∀ p ∈ ps, p.size ≤ 113) ∧ (∀ p ∈ vs, p.size ≤ 1023) ∧
    ∀ s', (∀ p, p ∈ ps ∨ p ∈ vs → s'.rd p = s.rd p) → F s' = F s

section
variable {α β : Type} {F F' : Store → Res α} {G : α → Store → Res β} {s : Store} {N V N' V' : Nat}

theorem Loc.const (x : Res α) : Loc (fun _ => x) s 0 0 := ⟨[], [], Nat.le_refl _, Nat.le_refl _, by simp, by simp, fun _ _ => rfl⟩

theorem Loc.mono (h : Loc F s N V) (h1 : N ≤ N') (h2 : V ≤ V') : Loc F s N' V' := by
  obtain ⟨ps, vs, a, b, c⟩ := h
  exact ⟨ps, vs, by omega, by omega, c⟩

theorem Loc.bind (h : Loc F s N V) (hg : ∀ a, F s = .ok a → Loc (G a) s N' V') : Loc (fun s => F s >>= fun a => G a s) s (N + N') (V + V') := by
  obtain ⟨ps, vs, a, b, c1, c2, d⟩ := h
  by_cases hx : ∃ x, F s = .ok x
  · obtain ⟨x, hx⟩ := hx
    obtain ⟨qs, ws, a', b', c1', c2', d'⟩ := hg x hx
    refine ⟨ps ++ qs, vs ++ ws, by rw [List.length_append]; omega, by rw [List.length_append]; omega, ?_, ?_, fun s' hs => ?_⟩
    · intro p hp
      rcases List.mem_append.1 hp with hp | hp
      · exact c1 p hp
      · exact c1' p hp
    · intro p hp
      rcases List.mem_append.1 hp with hp | hp
      · exact c2 p hp
      · exact c2' p hp
    · have e1 := d s' fun p hp => hs p (by rw [List.mem_append, List.mem_append]; tauto)
      have e2 := d' s' fun p hp => hs p (by rw [List.mem_append, List.mem_append]; tauto)
      simp only [e1, hx, Res.bind_ok, e2]
  · refine ⟨ps, vs, by omega, by omega, c1, c2, fun s' hs => ?_⟩
    have e1 := d s' hs
    dsimp only
    rw [e1]
    cases hf : F s with
    | ok x => exact (hx ⟨x, hf⟩).elim
    | err _ => rfl
    | abort => rfl
    | ub => rfl

/-- The first part does not read. -/
theorem Loc.pure_bind {x : Res α} (hg : ∀ a, x = .ok a → Loc (G a) s N V) : Loc (fun s => x >>= fun a => G a s) s N V := by
  have := Loc.bind (F := fun _ => x) (G := G) (.const x) hg
  simpa using this

theorem Loc.comp (h : Loc F s N V) (g : Res α → Res β) : Loc (fun s => g (F s)) s N V := by
  obtain ⟨ps, vs, a, b, c1, c2, d⟩ := h
  exact ⟨ps, vs, a, b, c1, c2, fun s' hs => by dsimp only; rw [d s' hs]⟩

/-- The second part does not read. -/
theorem Loc.bind_pure (h : Loc F s N V) (g : α → Res β) : Loc (fun s => F s >>= g) s N V :=
  Loc.bind (G := fun a _ => g a) h fun a _ => Loc.const (g a)

end

theorem loc_readNode {s : Store} (p : Ptr) : Loc (fun s => storeReadNode s p) s 1 0 := by
  unfold storeReadNode
  by_cases h : p.size = 0 ∨ p.size > 113
  · simp only [if_pos h]
    exact (Loc.const _).mono (by omega) (by omega)
  · simp only [if_neg h]
    refine ⟨[p], [], by simp, by simp, by simp; omega, by simp, fun s' hs => ?_⟩
    have := hs p (by simp)
    have h2 : ¬ p.size > 113 := by omega
    simp only [storeReadInto_ok h2]
    show (Res.ok (s'.rd p) >>= _) = (Res.ok (s.rd p) >>= _)
    rw [this]

theorem loc_resolve {s : Store} (h : B32) (p : Ptr) : Loc (fun s => storeResolve s h p) s 1 0 := by
  unfold storeResolve
  exact (loc_readNode p).bind_pure _

theorem loc_retrieve {s : Store} (v : Option Bytes) (vp : Option Ptr) : Loc (fun s => storeRetrieve s v vp) s 0 1 := by
  cases v with
  | some v =>
    simp only [storeRetrieve]
    exact (Loc.const _).mono (by omega) (by omega)
  | none =>
    cases vp with
    | none => simp only [storeRetrieve]; exact (Loc.const _).mono (by omega) (by omega)
    | some p =>
      simp only [storeRetrieve]
      by_cases h : p.size > valueSize
      · simp only [if_pos h]; exact (Loc.const _).mono (by omega) (by omega)
      · simp only [if_neg h, storeReadInto_ok h]
        refine ⟨[], [p], by simp, by simp, by simp, by simp [valueSize] at h ⊢; omega, fun s' hs => ?_⟩
        have := hs p (by simp)
        show Res.ok (s'.rd p) = Res.ok (s.rd p)
        rw [this]

/-- Node records that can be read from here on down. -/
def below (n : Node) (d : Nat) : Nat := match n with
  | .hash _ _ => 257 - d
  | _ => 256 - d

theorem below_le (n : Node) (d : Nat) : below n d ≤ 257 - d := by
  cases n <;> simp only [below] <;> omega

theorem resolve_below {s : Store} {h : B32} {p : Ptr} {n : Node} (e : storeResolve s h p = .ok (some n)) (d : Nat) : below n d = 256 - d := by
  rcases storeResolve_shape e with ⟨_, _, _, _, _, _, rfl⟩ | ⟨_, _, _, rfl⟩ <;> rfl

theorem getBit_ok_lt {k : B32} {d : Nat} {b : Bool} (e : getBit k.bytes d = .ok b) : d < 256 := by
  by_cases h : d < 256
  · exact h
  · have hl := k.len
    rw [getBit_eq, List.getElem?_eq_none (by simp; omega)] at e
    cases e

theorem loc_get {key : B32} {want : Bool} {s : Store} : ∀ (fuel : Nat) (n : Node) (d : Nat), d ≤ 256 →
    Loc (fun s => treeGet s key want fuel n d) s (below n d) (if want then 1 else 0) := by
  intro fuel
  induction fuel with
  | zero => intro n d _; simp only [treeGet]; exact (Loc.const _).mono (by omega) (by omega)
  | succ f ih =>
    intro n d hd
    cases n with
    | null => simp only [treeGet]; exact (Loc.const _).mono (by omega) (by omega)
    | hash h p =>
      simp only [treeGet]
      have : below (.hash h p) d = 1 + (256 - d) := by simp only [below]; omega
      rw [this]
      refine Loc.mono (V := 0 + if want then 1 else 0) (Loc.bind (G := fun r s => match r with
        | none => .err .ECORRUPTION
        | some rn => treeGet s key want f rn d) (loc_resolve h p) fun r hr => ?_) (Nat.le_refl _) (by omega)
      cases r with
      | none => exact (Loc.const _).mono (by omega) (by omega)
      | some m => rw [← resolve_below hr]; exact ih m d hd
    | leaf h p k v vp =>
      simp only [treeGet]
      by_cases c : k ≠ key
      · simp only [if_pos c]; exact (Loc.const _).mono (by omega) (by omega)
      · simp only [if_neg c]
        cases want with
        | false => simp only [Bool.false_eq_true, if_false]; exact (Loc.const _).mono (by omega) (by omega)
        | true =>
          simp only [if_true]
          exact ((loc_retrieve v vp).bind_pure _).mono (by omega) (Nat.le_refl _)
    | internal h p pre l r =>
      simp only [treeGet]
      refine Loc.pure_bind (G := fun has s => if (!has) = true then .err .ENOTFOUND else
        getBit key.bytes (d + pre.size) >>= fun bit => treeGet s key want f (side l r bit) (d + pre.size + 1)) fun has _ => ?_
      cases has with
      | false => exact (Loc.const _).mono (by omega) (by omega)
      | true =>
        refine Loc.pure_bind (G := fun bit s => treeGet s key want f (side l r bit) (d + pre.size + 1)) fun bit hb => ?_
        have := getBit_ok_lt hb
        refine (ih _ _ (by omega)).mono ?_ (Nat.le_refl _)
        have := below_le (side l r bit) (d + pre.size + 1)
        simp only [below] at *; omega

theorem loc_insert {E : Env} {key : B32} {value : Bytes} {s : Store} : ∀ (fuel : Nat) (n : Node) (d : Nat), d ≤ 256 →
    Loc (fun s => treeInsert E s key value fuel n d) s (below n d) 0 := by
  intro fuel
  induction fuel with
  | zero => intro n d _; simp only [treeInsert]; exact (Loc.const _).mono (by omega) (by omega)
  | succ f ih =>
    intro n d hd
    cases n with
    | null => simp only [treeInsert]; exact (Loc.const _).mono (by omega) (by omega)
    | hash h p =>
      simp only [treeInsert]
      have : below (.hash h p) d = 1 + (256 - d) := by simp only [below]; omega
      rw [this, ← Nat.zero_add 0]
      refine Loc.bind (G := fun r s => match r with
        | none => .err .ECORRUPTION
        | some rn => treeInsert E s key value f rn d) (loc_resolve h p) fun r hr => ?_
      cases r with
      | none => exact (Loc.const _).mono (by omega) (by omega)
      | some m => rw [← resolve_below hr]; exact ih m d hd
    | leaf h p k v vp =>
      simp only [treeInsert]
      exact (Loc.const _).mono (by omega) (by omega)
    | internal h p pre l r =>
      simp only [treeInsert]
      refine Loc.pure_bind (G := fun bits s => getBit key.bytes (d + bits) >>= fun bit =>
        if bits ≠ pre.size then do
          let (front, back) ← bitsSplit pre bits
          pure (createInternal front (createLeaf E.H key value) (createInternal back l r false) bit)
        else do
          let z ← treeInsert E s key value f (side l r bit) (d + bits + 1)
          pure (createInternal pre z (side l r (!bit)) bit)) fun bits _ => ?_
      refine Loc.pure_bind (G := fun bit s => if bits ≠ pre.size then do
          let (front, back) ← bitsSplit pre bits
          pure (createInternal front (createLeaf E.H key value) (createInternal back l r false) bit)
        else do
          let z ← treeInsert E s key value f (side l r bit) (d + bits + 1)
          pure (createInternal pre z (side l r (!bit)) bit)) fun bit hb => ?_
      have := getBit_ok_lt hb
      by_cases c : bits ≠ pre.size
      · simp only [if_pos c]; exact (Loc.const _).mono (by omega) (by omega)
      · simp only [if_neg c]
        refine ((ih _ _ (by omega)).mono ?_ (Nat.le_refl _)).bind_pure _
        have := below_le (side l r bit) (d + bits + 1)
        simp only [below] at *; omega

theorem loc_prove {E : Env} {key : B32} {s : Store} : ∀ (fuel : Nat) (n : Node) (d m : Nat), d ≤ 256 →
    Loc (fun s => treeProve E s key fuel n d m) s (below n d) 1 := by
  intro fuel
  induction fuel with
  | zero => intro n d m _; simp only [treeProve]; exact (Loc.const _).mono (by omega) (by omega)
  | succ f ih =>
    intro n d m hd
    cases n with
    | null => simp only [treeProve]; exact (Loc.const _).mono (by omega) (by omega)
    | hash h p =>
      simp only [treeProve]
      have : below (.hash h p) d = 1 + (256 - d) := by simp only [below]; omega
      rw [this]
      refine Loc.mono (V := 0 + 1) (Loc.bind (G := fun r s => match r with
        | none => pure (none, Node.hash h p)
        | some rn => do
          let (pf, _) ← treeProve E s key f rn d m
          pure (pf, Node.hash h p)) (loc_resolve h p) fun r hr => ?_) (Nat.le_refl _) (Nat.le_refl _)
      cases r with
      | none => exact (Loc.const _).mono (by omega) (by omega)
      | some x => rw [← resolve_below hr]; exact (ih x d m hd).bind_pure _
    | leaf h p k v vp =>
      simp only [treeProve]
      exact ((loc_retrieve v vp).bind_pure _).mono (by omega) (by omega)
    | internal h p pre l r =>
      simp only [treeProve]
      refine Loc.pure_bind (G := fun has s => if (!has) = true then do
          let (hl, l) ← nodeHash E.H l
          let (hr, r) ← nodeHash E.H r
          pure (some ⟨d, [], .short pre hl hr⟩, Node.internal h p pre l r)
        else do
          let bit ← getBit key.bytes (d + pre.size)
          let (hy, y) ← nodeHash E.H (side l r (!bit))
          check (m < keyBits)
          let (pf, x) ← treeProve E s key f (side l r bit) (d + pre.size + 1) (m + 1)
          pure (pf.map fun pf => { pf with nodes := ⟨pre, hy⟩ :: pf.nodes },
            if bit then Node.internal h p pre y x else Node.internal h p pre x y)) fun has _ => ?_
      cases has with
      | false => exact (Loc.const _).mono (by omega) (by omega)
      | true =>
        refine Loc.pure_bind (G := fun bit s => do
          let (hy, y) ← nodeHash E.H (side l r (!bit))
          check (m < keyBits)
          let (pf, x) ← treeProve E s key f (side l r bit) (d + pre.size + 1) (m + 1)
          pure (pf.map fun pf => { pf with nodes := ⟨pre, hy⟩ :: pf.nodes },
            if bit then Node.internal h p pre y x else Node.internal h p pre x y)) fun bit hb => ?_
        have := getBit_ok_lt hb
        refine Loc.pure_bind (G := fun (a : B32 × Node) s => do
          check (m < keyBits)
          let (pf, x) ← treeProve E s key f (side l r bit) (d + pre.size + 1) (m + 1)
          pure (pf.map fun pf => { pf with nodes := ⟨pre, a.1⟩ :: pf.nodes },
            if bit then Node.internal h p pre a.2 x else Node.internal h p pre x a.2)) fun a _ => ?_
        refine Loc.pure_bind (G := fun _ s => do
          let (pf, x) ← treeProve E s key f (side l r bit) (d + pre.size + 1) (m + 1)
          pure (pf.map fun pf => { pf with nodes := ⟨pre, a.1⟩ :: pf.nodes },
            if bit then Node.internal h p pre a.2 x else Node.internal h p pre x a.2)) fun _ _ => ?_
        refine ((ih _ _ _ (by omega)).mono ?_ (Nat.le_refl _)).bind_pure _
        have := below_le (side l r bit) (d + pre.size + 1)
        simp only [below] at *; omega

/-- The rest of a removal, with the result of the removal further down. -/
def removeRest (pre : Bits) (y z : Node) (bit : Bool) (s : Store) : Res Node :=
  match z with
  | .null => match y with
    | .hash h p => storeResolve s h p >>= fun r => match r with
      | none => .abort
      | some n => removeSide pre n bit
    | y => removeSide pre y bit
  | z => pure (createInternal pre z y bit)

theorem createInternal_ne {pre : Bits} {x y : Node} {b : Bool} : createInternal pre x y b ≠ .null := by
  unfold createInternal; cases b <;> simp

theorem removeSide_null {pre : Bits} {n : Node} {b : Bool} (e : removeSide pre n b = .ok .null) : n = .null := by
  cases n with
  | null => rfl
  | hash _ _ => cases e
  | leaf _ _ _ _ _ => cases e
  | internal _ _ _ _ _ =>
    obtain ⟨j, _, e⟩ := Res.bind_eq_ok.1 e
    exact (createInternal_ne (by injection e)).elim

theorem loc_rest {pre : Bits} {y z : Node} {b : Bool} {s : Store} : Loc (removeRest pre y z b) s 1 0 ∧
    (z ≠ .null → Loc (removeRest pre y z b) s 0 0) ∧ (removeRest pre y z b s = .ok .null → z = .null ∧ y = .null) ∧
    (y = .null → Loc (removeRest pre y z b) s 0 0) := by
  cases z with
  | hash _ _ => exact ⟨(Loc.const _).mono (by omega) (by omega), fun _ => Loc.const _, fun e => (createInternal_ne (by injection e)).elim, fun _ => Loc.const _⟩
  | leaf _ _ _ _ _ => exact ⟨(Loc.const _).mono (by omega) (by omega), fun _ => Loc.const _, fun e => (createInternal_ne (by injection e)).elim, fun _ => Loc.const _⟩
  | internal _ _ _ _ _ => exact ⟨(Loc.const _).mono (by omega) (by omega), fun _ => Loc.const _, fun e => (createInternal_ne (by injection e)).elim, fun _ => Loc.const _⟩
  | null =>
    cases y with
    | null => exact ⟨(Loc.const _).mono (by omega) (by omega), fun h => (h rfl).elim, fun _ => ⟨rfl, rfl⟩, fun _ => Loc.const _⟩
    | leaf _ _ _ _ _ => exact ⟨(Loc.const _).mono (by omega) (by omega), fun h => (h rfl).elim, fun e => (nomatch e), (fun h => nomatch h)⟩
    | internal yh yp yb yl yr =>
      exact ⟨(Loc.const _).mono (by omega) (by omega), fun h => (h rfl).elim, fun e => (nomatch removeSide_null (pre := pre) (b := b) (n := .internal yh yp yb yl yr) e), (fun h => nomatch h)⟩
    | hash h p =>
      refine ⟨?_, fun h => (h rfl).elim, fun e => ?_, (fun h => nomatch h)⟩
      · exact (loc_resolve h p).bind_pure _
      · obtain ⟨r, e2, e⟩ := Res.bind_eq_ok.1 e
        cases r with
        | none => cases e
        | some m =>
          rw [removeSide_null e] at e2
          rcases storeResolve_shape e2 with ⟨_, _, _, _, _, _, h⟩ | ⟨_, _, _, h⟩ <;> cases h

theorem loc_remove {key : B32} {s : Store} : ∀ (fuel : Nat) (n : Node) (d : Nat), d ≤ 256 →
    Loc (fun s => treeRemove s key fuel n d) s (below n d + 1) 0 ∧
    (treeRemove s key fuel n d = .ok .null → Loc (fun s => treeRemove s key fuel n d) s (below n d) 0) := by
  intro fuel
  induction fuel with
  | zero => intro n d _; simp only [treeRemove]; exact ⟨(Loc.const _).mono (by omega) (by omega), fun e => nomatch e⟩
  | succ f ih =>
    intro n d hd
    cases n with
    | null => simp only [treeRemove]; exact ⟨(Loc.const _).mono (by omega) (by omega), fun e => nomatch e⟩
    | hash h p =>
      have hb : below (.hash h p) d = 1 + (256 - d) := by simp only [below]; omega
      simp only [treeRemove]
      have G : ∀ N, (∀ m, storeResolve s h p = .ok (some m) → Loc (fun s => treeRemove s key f m d) s N 0) →
          Loc (fun s => do
            let r ← storeResolve s h p
            match r with
            | none => .err .ECORRUPTION
            | some rn => treeRemove s key f rn d) s (1 + N) 0 := by
        intro N hN
        refine Loc.mono (V := 0 + 0) (Loc.bind (G := fun r s => match r with
          | none => .err .ECORRUPTION
          | some rn => treeRemove s key f rn d) (loc_resolve h p) fun r hr => ?_) (Nat.le_refl _) (Nat.le_refl _)
        cases r with
        | none => exact (Loc.const _).mono (by omega) (by omega)
        | some m => exact hN m hr
      refine ⟨(G (256 - d + 1) fun m hm => ?_).mono (by omega) (by omega), fun e => (G (256 - d) fun m hm => ?_).mono (by omega) (by omega)⟩
      · rw [← resolve_below hm]; exact (ih m d hd).1
      · rw [← resolve_below hm]
        rw [hm] at e
        exact (ih m d hd).2 e
    | leaf h p k v vp =>
      simp only [treeRemove]
      exact ⟨(Loc.const _).mono (by omega) (by omega), fun _ => (Loc.const _).mono (by omega) (by omega)⟩
    | internal h p pre l r =>
      have eq : ∀ s : Store, treeRemove s key (f + 1) (.internal h p pre l r) d = (do
          let has ← bitsHas pre key.bytes d
          if (!has) = true then .err .ENOTFOUND else do
            let bit ← getBit key.bytes (d + pre.size)
            let z ← treeRemove s key f (side l r bit) (d + pre.size + 1)
            removeRest pre (side l r (!bit)) z bit s) := fun s => by
        rw [treeRemove]
        refine congrArg (bitsHas pre key.bytes d >>= ·) (funext fun has => ?_)
        split
        · rfl
        · rfl
      simp only [eq]
      have key2 : ∀ bit : Bool, d + pre.size + 1 ≤ 256 →
          Loc (fun s => do
            let z ← treeRemove s key f (side l r bit) (d + pre.size + 1)
            removeRest pre (side l r (!bit)) z bit s) s (below (.internal h p pre l r) d + 1) 0 ∧
          ((do
            let z ← treeRemove s key f (side l r bit) (d + pre.size + 1)
            removeRest pre (side l r (!bit)) z bit s) = .ok .null → Loc (fun s => do
            let z ← treeRemove s key f (side l r bit) (d + pre.size + 1)
            removeRest pre (side l r (!bit)) z bit s) s (below (.internal h p pre l r) d) 0) := by
        intro bit hlt
        obtain ⟨a, b⟩ := ih (side l r bit) _ hlt
        have hB := below_le (side l r bit) (d + pre.size + 1)
        have hB' : below (.internal h p pre l r) d = 256 - d := rfl
        refine ⟨?_, fun e => ?_⟩
        · by_cases c : treeRemove s key f (side l r bit) (d + pre.size + 1) = .ok .null
          · exact (Loc.bind (V' := 0) (G := fun z s => removeRest pre (side l r (!bit)) z bit s) (b c) fun z _ => loc_rest.1).mono (by omega) (by omega)
          · refine (Loc.bind (N' := 0) (V' := 0) (G := fun z s => removeRest pre (side l r (!bit)) z bit s) a fun z hz => ?_).mono (by omega) (by omega)
            exact loc_rest.2.1 fun h0 => c (by rw [hz, h0])
        · obtain ⟨z, e1, e⟩ := Res.bind_eq_ok.1 e
          obtain ⟨rfl, hy⟩ := loc_rest.2.2.1 e
          exact (Loc.bind (N' := 0) (V' := 0) (G := fun z s => removeRest pre (side l r (!bit)) z bit s) (b e1) fun z _ => loc_rest.2.2.2 hy).mono (by omega) (by omega)
      refine ⟨?_, fun e => ?_⟩
      · refine Loc.pure_bind (G := fun has s => if (!has) = true then .err .ENOTFOUND else do
            let bit ← getBit key.bytes (d + pre.size)
            let z ← treeRemove s key f (side l r bit) (d + pre.size + 1)
            removeRest pre (side l r (!bit)) z bit s) fun has _ => ?_
        cases has with
        | false => exact (Loc.const _).mono (by omega) (by omega)
        | true =>
          refine Loc.pure_bind (G := fun bit s => do
            let z ← treeRemove s key f (side l r bit) (d + pre.size + 1)
            removeRest pre (side l r (!bit)) z bit s) fun bit hb => ?_
          exact (key2 bit (getBit_ok_lt hb)).1
      · obtain ⟨has, e0, e⟩ := Res.bind_eq_ok.1 e
        refine Loc.pure_bind (G := fun has s => if (!has) = true then .err .ENOTFOUND else do
            let bit ← getBit key.bytes (d + pre.size)
            let z ← treeRemove s key f (side l r bit) (d + pre.size + 1)
            removeRest pre (side l r (!bit)) z bit s) fun has' h' => ?_
        rw [e0] at h'
        cases h'
        cases has with
        | false => exact (Loc.const _).mono (by omega) (by omega)
        | true =>
          obtain ⟨bit, e1, e⟩ := Res.bind_eq_ok.1 e
          refine Loc.pure_bind (G := fun bit s => do
            let z ← treeRemove s key f (side l r bit) (d + pre.size + 1)
            removeRest pre (side l r (!bit)) z bit s) fun bit' hb => ?_
          rw [e1] at hb
          cases hb
          exact (key2 bit (getBit_ok_lt e1)).2 e

end Urkel
