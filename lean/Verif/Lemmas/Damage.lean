import Verif.Props.Codec
import Verif.Lemmas.NoErr
import Verif.Lemmas.ProofCodec
import Verif.Lemmas.HeapIterUse
/-
Calls on damaged data files: exactly when they abort or read out of bounds.
-/
namespace Urkel

/-- What nodes in memory always are, whatever the files contain. -/
def Fit : Node → Prop
  | .null => True
  | .hash _ _ => True
  | .leaf h _ _ v vp => h.isSome = true ∧ ((∃ x, v = some x ∧ x.length ≤ 1023) ∨ (v = none ∧ vp.isSome = true))
  | .internal _ _ pre l r => Sized pre ∧ l ≠ .null ∧ r ≠ .null ∧ Fit l ∧ Fit r

/-! ### Records -/

theorem bitsInit_data {n : Nat} {b : Bits} (e : bitsInit n = .ok b) : n ≤ 256 ∧ b = ⟨n, List.replicate 32 0⟩ := by
  unfold bitsInit at e
  by_cases h : n ≤ keyBits
  · simp only [h, decide_true, check_true, Res.bind_ok, Res.pure_eq] at e
    cases e; exact ⟨h, rfl⟩
  · simp only [h, decide_false] at e
    cases e

theorem takeN_len {n : Nat} {d x y : Bytes} (e : takeN n d = .ok (x, y)) : x.length = n := by
  unfold takeN at e
  split at e
  · cases e
  · next h => cases e; simp only [List.length_take]; omega

theorem nodeRead_sized {d : Bytes} {h : Option B32} {p : Option Ptr} {pre : Bits} {l r : Node} (e : nodeRead d = .ok (some (.internal h p pre l r))) : Sized pre := by
  have hc : ∀ pre' d, nodeReadChildren pre' d = .ok (some (.internal h p pre l r)) → pre = pre' := by
    intro pre' d e
    unfold nodeReadChildren at e
    split at e
    · cases e
    · obtain ⟨⟨_, _⟩, _, e⟩ := Res.bind_eq_ok.1 e
      obtain ⟨⟨_, _⟩, _, e⟩ := Res.bind_eq_ok.1 e
      obtain ⟨⟨_, _⟩, _, e⟩ := Res.bind_eq_ok.1 e
      obtain ⟨⟨_, _⟩, _, e⟩ := Res.bind_eq_ok.1 e
      cases e; rfl
  have hs : ∀ (n : Nat) (b : Bits) (x : Bytes), bitsInit n = .ok b → x.length = (n + 7) / 8 →
      Sized { b with data := x ++ b.data.drop ((n + 7) / 8) } := by
    intro n b x e1 e2
    obtain ⟨h1, rfl⟩ := bitsInit_data e1
    exact ⟨h1, by simp [e2]; omega⟩
  unfold nodeRead at e
  split at e
  · cases e
  · obtain ⟨⟨t, d1⟩, _, e⟩ := Res.bind_eq_ok.1 e
    dsimp only at e
    split at e
    · split at e
      · split at e
        · cases e
        · split at e
          · obtain ⟨⟨x, d2⟩, _, e⟩ := Res.bind_eq_ok.1 e
            dsimp only at e
            split at e
            · cases e
            · split at e
              · cases e
              · obtain ⟨b, e1, e⟩ := Res.bind_eq_ok.1 e
                obtain ⟨⟨y, d3⟩, e2, e⟩ := Res.bind_eq_ok.1 e
                rw [hc _ _ e]
                exact hs _ b y e1 (takeN_len e2)
          · obtain ⟨⟨x, d2⟩, _, e⟩ := Res.bind_eq_ok.1 e
            dsimp only at e
            split at e
            · cases e
            · split at e
              · cases e
              · obtain ⟨b, e1, e⟩ := Res.bind_eq_ok.1 e
                obtain ⟨⟨y, d3⟩, e2, e⟩ := Res.bind_eq_ok.1 e
                rw [hc _ _ e]
                exact hs _ b y e1 (takeN_len e2)
      · obtain ⟨b, e1, e⟩ := Res.bind_eq_ok.1 e
        rw [hc _ _ e]
        obtain ⟨_, rfl⟩ := bitsInit_data e1
        exact ⟨by simp, by simp⟩
    · split at e
      · split at e
        · cases e
        · obtain ⟨⟨vp, d2⟩, _, e⟩ := Res.bind_eq_ok.1 e
          obtain ⟨⟨k, d3⟩, _, e⟩ := Res.bind_eq_ok.1 e
          cases e
      · cases e

theorem Res.Safe.ok {α : Type} {r : Res α} (h : r.Safe) (hn : NoErr r) : ∃ x, r = .ok x := by
  cases r with
  | ok x => exact ⟨x, rfl⟩
  | err e => exact absurd rfl (hn e)
  | abort => exact h.elim
  | ub => exact h.elim

/-- Is it a node that the tree functions look into? -/
def Node.loaded : Node → Prop
  | .internal .. => True
  | .leaf .. => True
  | _ => False

/-- Reading a record: it fails the check on long paths, or the result is good. -/
theorem storeResolve_cases (s : Store) (h : B32) (p : Ptr) :
    (storeResolve s h p = .abort ∧ LongRecord s p) ∨
    (¬ LongRecord s p ∧ (storeResolve s h p = .ok none ∨ ∃ n, storeResolve s h p = .ok (some n) ∧ Fit n ∧ n.loaded)) := by
  unfold storeResolve storeReadNode
  by_cases hs : p.size = 0 ∨ p.size > 113
  · rw [if_pos hs]
    refine .inr ⟨fun hl => by have := hl.1; have := hl.2.1; omega, .inl rfl⟩
  · rw [if_neg hs, storeReadInto_ok (by omega), Res.bind_ok]
    cases hd : storeRead s p.size p.index p.pos with
    | none => exact .inr ⟨(fun ⟨_, _, d, hd', _⟩ => (by rw [hd] at hd'; cases hd')), .inl rfl⟩
    | some d =>
      have hl : LongRecord s p ↔ LongPath d := by
        constructor
        · rintro ⟨_, _, d', hd', hl⟩
          rw [hd] at hd'; cases hd'; exact hl
        · exact fun hl => ⟨by omega, by omega, d, hd, hl⟩
      rcases C35_node_read_partial d with ⟨h1, h2⟩ | ⟨h1, h2⟩
      · refine .inr ⟨fun h => h2 (hl.1 h), ?_⟩
        obtain ⟨x, hx⟩ := h1.ok (nodeRead_ne d)
        dsimp only
        rw [hx, Res.bind_ok]
        cases x with
        | none => exact .inl rfl
        | some n =>
          right
          rcases nodeRead_shape hx with ⟨pre, hl, pl, hr, pr, rfl⟩ | ⟨k, vp, rfl⟩
          · exact ⟨_, rfl, ⟨nodeRead_sized hx, (nomatch ·), (nomatch ·), trivial, trivial⟩, trivial⟩
          · exact ⟨_, rfl, ⟨rfl, .inr ⟨rfl, rfl⟩⟩, trivial⟩
      · refine .inl ⟨?_, hl.2 h2⟩
        dsimp only
        rw [h1]; rfl

theorem storeRetrieve_safe {s : Store} {v : Option Bytes} {vp : Option Ptr}
    (h : (∃ x, v = some x ∧ x.length ≤ 1023) ∨ (v = none ∧ vp.isSome = true)) : ∃ r, storeRetrieve s v vp = .ok r := by
  rcases h with ⟨x, rfl, hx⟩ | ⟨rfl, hv⟩
  · refine ⟨some x, ?_⟩
    have c : x.length ≤ valueSize := hx
    simp only [storeRetrieve, c, decide_true, check_true, Res.bind_ok, Res.pure_eq]
  · obtain ⟨p, rfl⟩ := Option.isSome_iff_exists.1 hv
    by_cases c : p.size > valueSize
    · exact ⟨none, by simp only [storeRetrieve, if_pos c]⟩
    · exact ⟨_, by simp only [storeRetrieve, if_neg c, storeReadInto_ok c]; rfl⟩

/-! ### Bits -/

theorem Sized.has {b : Bits} (h : Sized b) : HasBits b b.path := hasBits_of h.le h.len

theorem Sized.length {b : Bits} (h : Sized b) : b.path.length = b.size := h.has.size.symm

theorem key_length (k : B32) : k.bits.length = 256 := by simp

theorem full_length {pre : Bits} (h : Sized pre) {k : B32} {d : Nat} (hd : d ≤ 256) (hp : pre.path <+: k.bits.drop d) :
    d + pre.size ≤ 256 ∧ (pre.path = k.bits.drop d ↔ d + pre.size = 256) := by
  have h1 := hp.length_le
  have hl := h.length
  simp at h1
  refine ⟨by omega, fun e => ?_, fun e => ?_⟩
  · have := congrArg List.length e
    simp at this; omega
  · exact hp.eq_of_length (by simp; omega)

theorem getBit_end (k : B32) {d : Nat} (h : d = 256) : getBit k.bytes d = .ub := by
  subst h
  rw [getBit_eq]
  have : k.bits[256]? = none := List.getElem?_eq_none (by simp)
  have e : (bitsOf k.bytes)[256]? = none := this
  rw [e]

/-- The side that is taken. -/
theorem getBit_some {k : B32} {d : Nat} {b : Bool} (h : k.bits[d]? = some b) : getBit k.bytes d = .ok b := by
  rw [getBit_eq]
  have e : (bitsOf k.bytes)[d]? = some b := h
  rw [e]

theorem bit_some {k : B32} {d : Nat} (h : d < 256) : ∃ b, k.bits[d]? = some b :=
  ⟨_, List.getElem?_eq_getElem (by simpa using h)⟩

/-! ### The way -/

theorem Way.fit {s : Store} {key : B32} {n n' : Node} {d d' : Nat} (w : Way s key n d n' d') : Fit n → d ≤ 256 → Fit n' ∧ d' ≤ 256 := by
  induction w with
  | here => exact fun h hd => ⟨h, hd⟩
  | @down _ _ pre l r _ d _ b _ hb _ ih =>
    intro h hd
    refine ih ?_ ?_
    · cases b
      · exact h.2.2.2.1
      · exact h.2.2.2.2
    · have := (List.getElem?_eq_some_iff.1 hb).1
      simp at this; omega
  | @load h p n _ _ _ e _ ih =>
    intro _ hd
    rcases storeResolve_cases s h p with ⟨e', _⟩ | ⟨_, e' | ⟨n0, e', hf, _⟩⟩
    · rw [e'] at e; cases e
    · rw [e'] at e; cases e
    · rw [e'] at e; cases e; exact ih hf hd

theorem Way.trans {s : Store} {key : B32} {n n1 n2 : Node} {d d1 d2 : Nat} (w : Way s key n d n1 d1) : Way s key n1 d1 n2 d2 → Way s key n d n2 d2 := by
  induction w with
  | here => exact id
  | down h1 h2 _ ih => exact fun h => .down h1 h2 (ih h)
  | load h1 _ ih => exact fun h => .load h1 (ih h)

/-- Recursion needed below a node. -/
def room (n : Node) (d : Nat) : Nat := 2 * (256 - d) + (if n.isHash then 2 else 1)

theorem room_pos (n : Node) (d : Nat) : 1 ≤ room n d := by unfold room; split <;> omega

theorem room_down {n n' : Node} {d d' : Nat} (hn : n.isHash = false) (h : d < d') (hd : d' ≤ 256) : room n' d' + 1 ≤ room n d := by
  unfold room; rw [hn]; simp only [Bool.false_eq_true, if_false]; split <;> omega

theorem room_load {h : B32} {p : Ptr} {n : Node} {d : Nat} (hn : n.loaded) : room n d + 1 ≤ room (.hash h p) d := by
  have : n.isHash = false := by cases n <;> first | rfl | exact hn.elim
  unfold room; rw [this]; simp [Node.isHash]

/-! ### Reading -/

section
variable {s : Store} {key : B32}

theorem side_eq (l r : Node) (b : Bool) : side l r b = if b then r else l := rfl

theorem treeGet_way {want : Bool} {n n' : Node} {d d' : Nat} (w : Way s key n d n' d') : ∀ {fuel : Nat}, Fit n → d ≤ 256 → room n d ≤ fuel →
    ∃ fuel', room n' d' ≤ fuel' ∧ treeGet s key want fuel n d = treeGet s key want fuel' n' d' := by
  induction w with
  | here => exact fun _ _ hf => ⟨_, hf, rfl⟩
  | @down h p pre l r n d d' b h1 h2 w ih =>
    intro fuel hf hd hr
    have hlt : d + pre.size < 256 := by have := (List.getElem?_eq_some_iff.1 h2).1; simpa using this
    obtain ⟨f, rfl⟩ : ∃ f, fuel = f + 1 := ⟨fuel - 1, by have := room_pos (.internal h p pre l r) d; omega⟩
    have hfit : Fit (if b then r else l) := by
      cases b
      · exact hf.2.2.2.1
      · exact hf.2.2.2.2
    have := room_down (n := .internal h p pre l r) (n' := if b then r else l) (d := d) (d' := d + pre.size + 1) rfl (by omega) (by omega)
    obtain ⟨fuel', h3, h4⟩ := ih (fuel := f) hfit (by omega) (by omega)
    refine ⟨fuel', h3, ?_⟩
    rw [← h4, treeGet, bitsHas_ok hf.1.has key hd, List.isPrefixOf_iff_prefix.2 h1]
    simp only [Res.bind_ok, Bool.not_true, Bool.false_eq_true, if_false, getBit_some h2, side_eq]
  | @load h p n n' d d' e w ih =>
    intro fuel hf hd hr
    obtain ⟨f, rfl⟩ : ∃ f, fuel = f + 1 := ⟨fuel - 1, by have := room_pos (.hash h p) d; omega⟩
    rcases storeResolve_cases s h p with ⟨e', _⟩ | ⟨_, e' | ⟨n0, e', hfit, hl⟩⟩
    · rw [e'] at e; cases e
    · rw [e'] at e; cases e
    · rw [e'] at e; cases e
      have := room_load (h := h) (p := p) (d := d) hl
      obtain ⟨fuel', h3, h4⟩ := ih (fuel := f) hfit hd (by omega)
      refine ⟨fuel', h3, ?_⟩
      rw [← h4, treeGet, e']
      simp only [Res.bind_ok]

theorem treeGet_fails {want : Bool} : ∀ (fuel : Nat) (n : Node) (d : Nat), Fit n → d ≤ 256 → room n d ≤ fuel →
    (treeGet s key want fuel n d = .abort → MeetsLong s key n d) ∧ (treeGet s key want fuel n d = .ub → MeetsFull s key n d) := by
  intro fuel
  induction fuel with
  | zero => intro n d _ _ h; have := room_pos n d; omega
  | succ f ih =>
    intro n d hf hd hr
    cases n with
    | null => exact ⟨fun e => (by cases e), fun e => (by cases e)⟩
    | leaf h p k v vp =>
      rw [treeGet]
      split
      · exact ⟨fun e => (by cases e), fun e => (by cases e)⟩
      · split
        · obtain ⟨r, e⟩ := storeRetrieve_safe (s := s) hf.2
          rw [e, Res.bind_ok]
          cases r <;> exact ⟨fun e => (by cases e), fun e => (by cases e)⟩
        · exact ⟨fun e => (by cases e), fun e => (by cases e)⟩
    | hash h p =>
      rw [treeGet]
      rcases storeResolve_cases s h p with ⟨e', hl⟩ | ⟨_, e' | ⟨n0, e', hfit, hl⟩⟩
      · exact ⟨fun _ => ⟨h, p, d, .here _ _, hl⟩, fun e => by rw [e'] at e; cases e⟩
      · rw [e', Res.bind_ok]; exact ⟨fun e => (by cases e), fun e => (by cases e)⟩
      · rw [e', Res.bind_ok]
        have := room_load (h := h) (p := p) (d := d) hl
        obtain ⟨i1, i2⟩ := ih n0 d hfit hd (by omega)
        refine ⟨fun e => ?_, fun e => ?_⟩
        · obtain ⟨a, b, c, w, hw⟩ := i1 e; exact ⟨a, b, c, .load e' w, hw⟩
        · obtain ⟨a, b, c, x, y, z, w, hw⟩ := i2 e; exact ⟨a, b, c, x, y, z, .load e' w, hw⟩
    | internal h p pre l r =>
      rw [treeGet, bitsHas_ok hf.1.has key hd, Res.bind_ok]
      by_cases hp : pre.path <+: key.bits.drop d
      · rw [List.isPrefixOf_iff_prefix.2 hp]
        simp only [Bool.not_true, Bool.false_eq_true, if_false]
        obtain ⟨hle, hfull⟩ := full_length hf.1 hd hp
        by_cases hlt : d + pre.size < 256
        · obtain ⟨b, hb⟩ := bit_some (k := key) hlt
          rw [getBit_some hb, Res.bind_ok, side_eq]
          have hfit : Fit (if b then r else l) := by
            cases b
            · exact hf.2.2.2.1
            · exact hf.2.2.2.2
          have := room_down (n := .internal h p pre l r) (n' := if b then r else l) (d := d) (d' := d + pre.size + 1) rfl (by omega) (by omega)
          obtain ⟨i1, i2⟩ := ih _ (d + pre.size + 1) hfit (by omega) (by omega)
          refine ⟨fun e => ?_, fun e => ?_⟩
          · obtain ⟨a, b', c, w, hw⟩ := i1 e; exact ⟨a, b', c, .down hp hb w, hw⟩
          · obtain ⟨a, b', c, x, y, z, w, hw⟩ := i2 e; exact ⟨a, b', c, x, y, z, .down hp hb w, hw⟩
        · have h256 : d + pre.size = 256 := by omega
          rw [getBit_end key h256]
          exact ⟨fun e => (by cases e), fun _ => ⟨h, p, pre, l, r, d, .here _ _, hfull.2 h256⟩⟩
      · have : pre.path.isPrefixOf (key.bits.drop d) = false := by
          rw [Bool.eq_false_iff]; intro hc; exact hp (List.isPrefixOf_iff_prefix.1 hc)
        rw [this]
        exact ⟨fun e => (by cases e), fun e => (by cases e)⟩

/-- Exactly when reading aborts or reads out of bounds. -/
theorem treeGet_iff {want : Bool} {n : Node} (hf : Fit n) :
    (treeGet s key want treeFuel n 0 = .abort ↔ MeetsLong s key n 0) ∧ (treeGet s key want treeFuel n 0 = .ub ↔ MeetsFull s key n 0) := by
  have hr : room n 0 ≤ treeFuel := by unfold room treeFuel; split <;> omega
  obtain ⟨h1, h2⟩ := treeGet_fails (s := s) (key := key) (want := want) treeFuel n 0 hf (by omega) hr
  refine ⟨⟨h1, ?_⟩, ⟨h2, ?_⟩⟩
  · rintro ⟨h, p, d', w, hl⟩
    obtain ⟨fuel', h3, h4⟩ := treeGet_way (want := want) w hf (by omega) hr
    rw [h4]
    obtain ⟨f, rfl⟩ : ∃ f, fuel' = f + 1 := ⟨fuel' - 1, by have := room_pos (.hash h p) d'; omega⟩
    rcases storeResolve_cases s h p with ⟨e', _⟩ | ⟨hn, _⟩
    · rw [treeGet, e']; rfl
    · exact absurd hl hn
  · rintro ⟨h, p, pre, l, r, d', w, hp⟩
    obtain ⟨fuel', h3, h4⟩ := treeGet_way (want := want) w hf (by omega) hr
    obtain ⟨hf', hd'⟩ := w.fit hf (by omega)
    rw [h4]
    obtain ⟨f, rfl⟩ : ∃ f, fuel' = f + 1 := ⟨fuel' - 1, by have := room_pos (.internal h p pre l r) d'; omega⟩
    have hpre : pre.path <+: key.bits.drop d' := hp ▸ List.prefix_refl _
    rw [treeGet, bitsHas_ok hf'.1.has key hd', List.isPrefixOf_iff_prefix.2 hpre, Res.bind_ok]
    simp only [Bool.not_true, Bool.false_eq_true, if_false]
    rw [getBit_end key ((full_length hf'.1 hd' hpre).2.1 hp)]
    rfl

end


/-! ### Paths -/

theorem setBit_len {d : Bytes} {i : Nat} (v : Bool) (h : i < 8 * d.length) : ∃ d', setBit d i v = .ok d' ∧ d'.length = d.length := by
  have hi : i / 8 < d.length := by omega
  unfold setBit
  rw [List.getElem?_eq_getElem hi]
  exact ⟨_, rfl, by simp⟩

theorem bitsSet_len {b : Bits} {i : Nat} (v : Bool) (hb : b.data.length = 32) (hi : i < 256) :
    ∃ b', bitsSet b i v = .ok b' ∧ b'.data.length = 32 ∧ b'.size = b.size := by
  obtain ⟨d, h1, h2⟩ := setBit_len v (d := b.data) (i := i) (by omega)
  have c : i < keyBits := hi
  exact ⟨{ b with data := d }, by simp only [bitsSet, c, decide_true, check_true, Res.bind_ok, h1]; rfl, by simp [h2, hb], rfl⟩

theorem bitsCopy_len {src : Bits} (hs : src.data.length = 32) : ∀ (n i j : Nat) (out : Bits), out.data.length = 32 → i + n ≤ 256 → j + n ≤ 256 →
    ∃ o, bitsCopyLoop src n i j out = .ok o ∧ o.data.length = 32 ∧ o.size = out.size := by
  intro n
  induction n with
  | zero => exact fun i j out ho _ _ => ⟨out, rfl, ho, rfl⟩
  | succ n ih =>
    intro i j out ho hi hj
    have c : j < keyBits := by unfold keyBits; omega
    have e : bitsGet src j = .ok ((bitsOf src.data)[j]'(by simp [hs]; omega)) := by
      simp only [bitsGet, c, decide_true, check_true, Res.bind_ok]
      exact getBit_ok (by omega)
    obtain ⟨o1, h1, h2, h3⟩ := bitsSet_len (b := out) (i := i) ((bitsOf src.data)[j]'(by simp [hs]; omega)) ho (by omega)
    obtain ⟨o2, h4, h5, h6⟩ := ih (i + 1) (j + 1) o1 h2 (by omega) (by omega)
    exact ⟨o2, by rw [bitsCopyLoop, e, Res.bind_ok, h1, Res.bind_ok, h4], h5, by rw [h6, h3]⟩

theorem bitsSlice_sized {b : Bits} (hb : b.data.length = 32) {i j : Nat} (hij : i ≤ j) (hj : j ≤ 256) :
    ∃ o, bitsSlice b i j = .ok o ∧ Sized o ∧ o.size = j - i := by
  obtain ⟨o, h1, h2, h3⟩ := bitsCopy_len hb (j - i) 0 i ⟨j - i, List.replicate 32 0⟩ (by simp) (by omega) (by omega)
  refine ⟨o, ?_, ⟨by rw [h3]; dsimp only; omega, h2⟩, h3⟩
  unfold bitsSlice
  rw [bitsInit_ok (by omega)]
  simp only [hij, decide_true, check_true, Res.bind_ok, h1]

theorem bitsSplit_sized {b : Bits} (hb : Sized b) {i : Nat} (hi : i < b.size) : ∃ f k, bitsSplit b i = .ok (f, k) ∧ Sized f ∧ Sized k := by
  have := hb.le
  obtain ⟨f, h1, h2, _⟩ := bitsSlice_sized hb.len (Nat.zero_le i) (by omega)
  obtain ⟨k, h3, h4, _⟩ := bitsSlice_sized hb.len (i := i + 1) (j := b.size) (by omega) (by omega)
  exact ⟨f, k, by simp only [bitsSplit, h1, h3, Res.bind_ok]; rfl, h2, h4⟩

theorem bitsCollide_sized (k key : B32) {d : Nat} (hd : d ≤ 256) :
    ∃ o, bitsCollide ⟨256, k.bytes⟩ key.bytes d = .ok o ∧ Sized o ∧ o.size = lcp (k.bits.drop d) (key.bits.drop d) := by
  have hb : HasBits ⟨256, k.bytes⟩ k.bits := ⟨by simp, by simp, k.len, List.prefix_refl _⟩
  have hle := lcp_le_left (k.bits.drop d) (key.bits.drop d)
  simp at hle
  obtain ⟨o, h1, h2, h3⟩ := bitsSlice_sized (b := ⟨256, k.bytes⟩) k.len (i := d) (j := d + lcp (k.bits.drop d) (key.bits.drop d)) (by omega) (by omega)
  refine ⟨o, ?_, h2, by omega⟩
  unfold bitsCollide
  rw [bitsCountAt_ok hb key (by simpa using hd) hd, Res.bind_ok, h1]

theorem bitsJoin_cases {a b : Bits} (ha : Sized a) (hb : Sized b) (v : Bool) :
    (256 < a.size + 1 + b.size ∧ bitsJoin a b v = .abort) ∨ (a.size + 1 + b.size ≤ 256 ∧ ∃ o, bitsJoin a b v = .ok o ∧ Sized o) := by
  by_cases h : a.size + 1 + b.size ≤ 256
  · refine .inr ⟨h, ?_⟩
    have la := ha.len
    simp only [bitsJoin, bitsInit_ok (show a.size + b.size + 1 ≤ 256 by omega), Res.bind_ok]
    have hlen : (a.data.take ((a.size + 7) / 8) ++ (List.replicate 32 (0:UInt8)).drop ((a.size + 7) / 8)).length = 32 := by
      simp [la]; omega
    obtain ⟨o1, h1, h2, h3⟩ := bitsSet_len (b := ⟨a.size + b.size + 1, a.data.take ((a.size + 7) / 8) ++ (List.replicate 32 (0:UInt8)).drop ((a.size + 7) / 8)⟩)
      (i := a.size) v hlen (by omega)
    obtain ⟨o2, h4, h5, h6⟩ := bitsCopy_len hb.len b.size (a.size + 1) 0 o1 h2 (by omega) (by omega)
    refine ⟨o2, by rw [h1, Res.bind_ok, h4], by rw [h6, h3]; dsimp only; omega, h5⟩
  · refine .inl ⟨by omega, ?_⟩
    unfold bitsJoin bitsInit
    have c : ¬ a.size + b.size + 1 ≤ keyBits := by unfold keyBits; omega
    simp only [c, decide_false]
    rfl

/-! ### Outcomes -/

/-- `A`: the call aborts, `U`: it reads out of bounds, otherwise results are `G`. -/
def Outcome {α : Type} (r : Res α) (A U : Prop) (G : α → Prop) : Prop :=
  match r with
  | .ok x => ¬ A ∧ ¬ U ∧ G x
  | .err _ => ¬ A ∧ ¬ U
  | .abort => A ∧ ¬ U
  | .ub => ¬ A ∧ U

theorem Outcome.abort_iff {α : Type} {r : Res α} {A U : Prop} {G : α → Prop} (h : Outcome r A U G) : r = .abort ↔ A := by
  cases r <;> simp_all [Outcome]

theorem Outcome.ub_iff {α : Type} {r : Res α} {A U : Prop} {G : α → Prop} (h : Outcome r A U G) : r = .ub ↔ U := by
  cases r <;> simp_all [Outcome]

theorem Outcome.good {α : Type} {r : Res α} {A U : Prop} {G : α → Prop} (h : Outcome r A U G) {x : α} (e : r = .ok x) : G x := by
  subst e; exact h.2.2

theorem Outcome.ok {α : Type} {x : α} {A U : Prop} {G : α → Prop} (h1 : ¬ A) (h2 : ¬ U) (h3 : G x) : Outcome (.ok x) A U G := ⟨h1, h2, h3⟩

theorem Outcome.map {α β : Type} {r : Res α} {f : α → β} {A U A' U' : Prop} {G : α → Prop} {G' : β → Prop} (h : Outcome r A U G)
    (hA : A' ↔ A) (hU : U' ↔ U) (hG : ∀ x, G x → G' (f x)) : Outcome (r >>= fun x => pure (f x)) A' U' G' := by
  cases r <;> simp_all [Outcome, Res.bind_ok]
  all_goals first | exact h | skip

theorem Outcome.congr {α : Type} {r : Res α} {A U A' U' : Prop} {G : α → Prop} (h : Outcome r A U G) (hA : A' ↔ A) (hU : U' ↔ U) : Outcome r A' U' G := by
  rw [propext hA, propext hU]; exact h

/-- Some node on the way of the key. -/
def Meets (s : Store) (key : B32) (P : Node → Nat → Prop) (n : Node) (d : Nat) : Prop := ∃ n' d', Way s key n d n' d' ∧ P n' d'

section
variable {s : Store} {key : B32} {P : Node → Nat → Prop} {d : Nat}

theorem meets_null : Meets s key P .null d ↔ P .null d :=
  ⟨fun ⟨_, _, w, h⟩ => (by cases w; exact h), fun h => ⟨_, _, .here _ _, h⟩⟩

theorem meets_leaf {h : Option B32} {p : Option Ptr} {k : B32} {v : Option Bytes} {vp : Option Ptr} :
    Meets s key P (.leaf h p k v vp) d ↔ P (.leaf h p k v vp) d :=
  ⟨fun ⟨_, _, w, h⟩ => (by cases w; exact h), fun h => ⟨_, _, .here _ _, h⟩⟩

theorem meets_hash {h : B32} {p : Ptr} : Meets s key P (.hash h p) d ↔ P (.hash h p) d ∨ ∃ n, storeResolve s h p = .ok (some n) ∧ Meets s key P n d := by
  constructor
  · rintro ⟨n', d', w, hp⟩
    cases w with
    | here => exact .inl hp
    | load e w => exact .inr ⟨_, e, _, _, w, hp⟩
  · rintro (h | ⟨n, e, n', d', w, hp⟩)
    · exact ⟨_, _, .here _ _, h⟩
    · exact ⟨_, _, .load e w, hp⟩

theorem meets_internal {h : Option B32} {p : Option Ptr} {pre : Bits} {l r : Node} :
    Meets s key P (.internal h p pre l r) d ↔ P (.internal h p pre l r) d ∨
      ∃ b, pre.path <+: key.bits.drop d ∧ key.bits[d + pre.size]? = some b ∧ Meets s key P (side l r b) (d + pre.size + 1) := by
  constructor
  · rintro ⟨n', d', w, hp⟩
    cases w with
    | here => exact .inl hp
    | down h1 h2 w => exact .inr ⟨_, h1, h2, _, _, w, hp⟩
  · rintro (h | ⟨b, h1, h2, n', d', w, hp⟩)
    · exact ⟨_, _, .here _ _, h⟩
    · exact ⟨_, _, .down h1 h2 w, hp⟩

/-- The way goes on below a branch. -/
theorem meets_down {h : Option B32} {p : Option Ptr} {pre : Bits} {l r : Node} {b : Bool} (h1 : pre.path <+: key.bits.drop d) (h2 : key.bits[d + pre.size]? = some b)
    (hP : ¬ P (.internal h p pre l r) d) : Meets s key P (.internal h p pre l r) d ↔ Meets s key P (side l r b) (d + pre.size + 1) := by
  rw [meets_internal]
  constructor
  · rintro (h | ⟨b', _, e, m⟩)
    · exact absurd h hP
    · rw [h2] at e; cases e; exact m
  · exact fun m => .inr ⟨b, h1, h2, m⟩

/-- The way ends at a branch. -/
theorem meets_stop {h : Option B32} {p : Option Ptr} {pre : Bits} {l r : Node}
    (hn : ¬ (pre.path <+: key.bits.drop d ∧ d + pre.size < 256)) : Meets s key P (.internal h p pre l r) d ↔ P (.internal h p pre l r) d := by
  rw [meets_internal]
  constructor
  · rintro (h | ⟨b', h1, e, m⟩)
    · exact h
    · exact absurd ⟨h1, by have := (List.getElem?_eq_some_iff.1 e).1; simpa using this⟩ hn
  · exact .inl

theorem meets_load {h : B32} {p : Ptr} {n : Node} (e : storeResolve s h p = .ok (some n)) (hP : ¬ P (.hash h p) d) :
    Meets s key P (.hash h p) d ↔ Meets s key P n d := by
  rw [meets_hash]
  constructor
  · rintro (h | ⟨n', e', m⟩)
    · exact absurd h hP
    · rw [e] at e'; cases e'; exact m
  · exact fun m => .inr ⟨n, e, m⟩

theorem meets_lost {h : B32} {p : Ptr} (e : ∀ n, storeResolve s h p ≠ .ok (some n)) : Meets s key P (.hash h p) d ↔ P (.hash h p) d := by
  rw [meets_hash]
  exact ⟨fun h => h.elim id (fun ⟨n, e', _⟩ => absurd e' (e n)), .inl⟩

end

def PLong (s : Store) (n : Node) (_ : Nat) : Prop := ∃ h p, n = .hash h p ∧ LongRecord s p
def PFull (key : B32) (n : Node) (d : Nat) : Prop := ∃ h p pre l r, n = .internal h p pre l r ∧ pre.path = key.bits.drop d
def POver (key : B32) (n : Node) (d : Nat) : Prop := ∃ h p pre l r, n = .internal h p pre l r ∧ key.bits.drop d <+: pre.path
def PTwin (key : B32) (n : Node) (d : Nat) : Prop := ∃ h p k v vp, n = .leaf h p k v vp ∧ k ≠ key ∧ k.bits.drop d = key.bits.drop d

section
variable {s : Store} {key : B32} {n : Node} {d : Nat}

theorem meetsLong_iff : MeetsLong s key n d ↔ Meets s key (PLong s) n d :=
  ⟨fun ⟨h, p, d', w, hl⟩ => ⟨_, d', w, h, p, rfl, hl⟩, fun ⟨_, d', w, h, p, e, hl⟩ => ⟨h, p, d', e ▸ w, hl⟩⟩

theorem meetsFull_iff : MeetsFull s key n d ↔ Meets s key (PFull key) n d :=
  ⟨fun ⟨h, p, pre, l, r, d', w, hl⟩ => ⟨_, d', w, h, p, pre, l, r, rfl, hl⟩, fun ⟨_, d', w, h, p, pre, l, r, e, hl⟩ => ⟨h, p, pre, l, r, d', e ▸ w, hl⟩⟩

theorem meetsOver_iff : MeetsOver s key n d ↔ Meets s key (POver key) n d :=
  ⟨fun ⟨h, p, pre, l, r, d', w, hl⟩ => ⟨_, d', w, h, p, pre, l, r, rfl, hl⟩, fun ⟨_, d', w, h, p, pre, l, r, e, hl⟩ => ⟨h, p, pre, l, r, d', e ▸ w, hl⟩⟩

theorem meetsTwin_iff : MeetsTwin s key n d ↔ Meets s key (PTwin key) n d :=
  ⟨fun ⟨h, p, k, v, vp, d', w, hl⟩ => ⟨_, d', w, h, p, k, v, vp, rfl, hl⟩, fun ⟨_, d', w, h, p, k, v, vp, e, hl⟩ => ⟨h, p, k, v, vp, d', e ▸ w, hl⟩⟩

end

theorem no_long_internal {s : Store} {h : Option B32} {p : Option Ptr} {pre : Bits} {l r : Node} {d : Nat} : ¬ PLong s (.internal h p pre l r) d := by
  rintro ⟨_, _, e, _⟩; cases e

theorem no_long_leaf {s : Store} {h : Option B32} {p : Option Ptr} {k : B32} {v : Option Bytes} {vp : Option Ptr} {d : Nat} : ¬ PLong s (.leaf h p k v vp) d := by
  rintro ⟨_, _, e, _⟩; cases e

theorem no_long_null {s : Store} {d : Nat} : ¬ PLong s .null d := by rintro ⟨_, _, e, _⟩; cases e
theorem no_full_hash {key h : B32} {p : Ptr} {d : Nat} : ¬ PFull key (.hash h p) d := by rintro ⟨_, _, _, _, _, e, _⟩; cases e
theorem no_full_null {key : B32} {d : Nat} : ¬ PFull key .null d := by rintro ⟨_, _, _, _, _, e, _⟩; cases e
theorem no_full_leaf {key : B32} {h : Option B32} {p : Option Ptr} {k : B32} {v : Option Bytes} {vp : Option Ptr} {d : Nat} : ¬ PFull key (.leaf h p k v vp) d := by
  rintro ⟨_, _, _, _, _, e, _⟩; cases e
theorem no_over_hash {key h : B32} {p : Ptr} {d : Nat} : ¬ POver key (.hash h p) d := by rintro ⟨_, _, _, _, _, e, _⟩; cases e
theorem no_over_null {key : B32} {d : Nat} : ¬ POver key .null d := by rintro ⟨_, _, _, _, _, e, _⟩; cases e
theorem no_over_leaf {key : B32} {h : Option B32} {p : Option Ptr} {k : B32} {v : Option Bytes} {vp : Option Ptr} {d : Nat} : ¬ POver key (.leaf h p k v vp) d := by
  rintro ⟨_, _, _, _, _, e, _⟩; cases e
theorem no_twin_hash {key h : B32} {p : Ptr} {d : Nat} : ¬ PTwin key (.hash h p) d := by rintro ⟨_, _, _, _, _, e, _⟩; cases e
theorem no_twin_null {key : B32} {d : Nat} : ¬ PTwin key .null d := by rintro ⟨_, _, _, _, _, e, _⟩; cases e
theorem no_twin_internal {key : B32} {h : Option B32} {p : Option Ptr} {pre : Bits} {l r : Node} {d : Nat} : ¬ PTwin key (.internal h p pre l r) d := by
  rintro ⟨_, _, _, _, _, e, _⟩; cases e

theorem long_hash {s : Store} {h : B32} {p : Ptr} {d : Nat} : PLong s (.hash h p) d ↔ LongRecord s p :=
  ⟨fun ⟨_, _, e, hl⟩ => (by cases e; exact hl), fun hl => ⟨h, p, rfl, hl⟩⟩

theorem full_internal {key : B32} {h : Option B32} {p : Option Ptr} {pre : Bits} {l r : Node} {d : Nat} :
    PFull key (.internal h p pre l r) d ↔ pre.path = key.bits.drop d :=
  ⟨fun ⟨_, _, _, _, _, e, hl⟩ => (by cases e; exact hl), fun hl => ⟨h, p, pre, l, r, rfl, hl⟩⟩

theorem over_internal {key : B32} {h : Option B32} {p : Option Ptr} {pre : Bits} {l r : Node} {d : Nat} :
    POver key (.internal h p pre l r) d ↔ key.bits.drop d <+: pre.path :=
  ⟨fun ⟨_, _, _, _, _, e, hl⟩ => (by cases e; exact hl), fun hl => ⟨h, p, pre, l, r, rfl, hl⟩⟩

theorem twin_leaf {key : B32} {h : Option B32} {p : Option Ptr} {k : B32} {v : Option Bytes} {vp : Option Ptr} {d : Nat} :
    PTwin key (.leaf h p k v vp) d ↔ k ≠ key ∧ k.bits.drop d = key.bits.drop d :=
  ⟨fun ⟨_, _, _, _, _, e, hl⟩ => (by cases e; exact hl), fun hl => ⟨h, p, k, v, vp, rfl, hl⟩⟩


/-! ### Inserting -/

theorem lcp_comm : ∀ (l m : List Bool), lcp l m = lcp m l
  | [], m => by simp
  | _ :: _, [] => by simp
  | a :: l, b :: m => by
    rw [lcp_cons, lcp_cons, lcp_comm l m]
    by_cases h : a = b
    · subst h; rfl
    · rw [if_neg h, if_neg (fun e => h e.symm)]

theorem lcp_eq_right_iff {l m : List Bool} : lcp l m = m.length ↔ m <+: l := by rw [lcp_comm, lcp_eq_left_iff]

theorem fit_internal {pre : Bits} {x y : Node} {b : Bool} (hp : Sized pre) (hx : Fit x) (hx' : x ≠ .null) (hy : Fit y) (hy' : y ≠ .null) :
    Fit (createInternal pre x y b) := by
  cases b
  · exact ⟨hp, hx', hy', hx, hy⟩
  · exact ⟨hp, hy', hx', hy, hx⟩

theorem createInternal_null {pre : Bits} {x y : Node} {b : Bool} : createInternal pre x y b ≠ .null := by
  cases b <;> exact (nomatch ·)

theorem fit_side {h : Option B32} {p : Option Ptr} {pre : Bits} {l r : Node} (hf : Fit (.internal h p pre l r)) (b : Bool) :
    Fit (side l r b) ∧ side l r b ≠ .null := by
  cases b
  · exact ⟨hf.2.2.2.1, hf.2.1⟩
  · exact ⟨hf.2.2.2.2, hf.2.2.1⟩

theorem resolve_ne_abort {s : Store} {h : B32} {p : Ptr} {r : Option Node} (e : storeResolve s h p = .ok r) : ¬ LongRecord s p := by
  rcases storeResolve_cases s h p with ⟨e', _⟩ | ⟨h, _⟩
  · rw [e'] at e; cases e
  · exact h

theorem treeInsert_outcome {E : Env} {s : Store} {key : B32} {value : Bytes} (hv : value.length ≤ 1023) :
    ∀ (fuel : Nat) (n : Node) (d : Nat), Fit n → d ≤ 256 → room n d ≤ fuel →
    Outcome (treeInsert E s key value fuel n d) (Meets s key (PLong s) n d) (Meets s key (POver key) n d ∨ Meets s key (PTwin key) n d)
      (fun n' => Fit n' ∧ n' ≠ .null) := by
  have hleaf : Fit (createLeaf E.H key value) ∧ createLeaf E.H key value ≠ .null := ⟨⟨rfl, .inl ⟨_, rfl, hv⟩⟩, (nomatch ·)⟩
  intro fuel
  induction fuel with
  | zero => intro n d _ _ h; have := room_pos n d; omega
  | succ f ih =>
    intro n d hf hd hr
    cases n with
    | null =>
      rw [treeInsert]
      exact .ok (by rw [meets_null]; exact no_long_null)
        (by rw [meets_null, meets_null]; exact fun h => h.elim no_over_null no_twin_null) hleaf
    | leaf h p k v vp =>
      rw [treeInsert, meets_leaf, meets_leaf, meets_leaf, twin_leaf]
      by_cases hk : k = key
      · have hu : ¬ (POver key (.leaf h p k v vp) d ∨ k ≠ key ∧ k.bits.drop d = key.bits.drop d) :=
          fun h => h.elim no_over_leaf (fun h => h.1 hk)
        rw [if_pos hk]
        split
        · exact ⟨no_long_leaf, hu⟩
        · exact .ok no_long_leaf hu hleaf
      · rw [if_neg hk]
        obtain ⟨o, h1, h2, h3⟩ := bitsCollide_sized k key hd
        rw [h1, Res.bind_ok]
        have hle := lcp_le_left (k.bits.drop d) (key.bits.drop d)
        simp at hle
        by_cases hlt : d + o.size < 256
        · obtain ⟨b, hb⟩ := bit_some (k := key) hlt
          dsimp only
          rw [getBit_some hb, Res.bind_ok]
          refine .ok no_long_leaf (fun h => h.elim no_over_leaf fun h => ?_) ⟨fit_internal h2 hleaf.1 hleaf.2 hf (nomatch ·), createInternal_null⟩
          have := congrArg List.length h.2
          rw [h.2, lcp_eq_left_iff.2 (List.prefix_refl _)] at h3
          simp at h3; omega
        · dsimp only
          rw [getBit_end key (by omega)]
          refine ⟨no_long_leaf, .inr ⟨hk, ?_⟩⟩
          have e1 : lcp (k.bits.drop d) (key.bits.drop d) = (k.bits.drop d).length := by simp; omega
          exact (lcp_eq_left_iff.1 e1).eq_of_length (by simp)
    | hash h p =>
      rw [treeInsert]
      rcases storeResolve_cases s h p with ⟨e', hl⟩ | ⟨hl, e' | ⟨n0, e', hfit, hn⟩⟩
      · rw [e']
        have hno : ∀ n, storeResolve s h p ≠ .ok (some n) := fun n e => by rw [e'] at e; cases e
        rw [meets_lost hno, meets_lost hno, meets_lost hno, long_hash]
        exact ⟨hl, fun h => h.elim no_over_hash no_twin_hash⟩
      · rw [e', Res.bind_ok]
        have hno : ∀ n, storeResolve s h p ≠ .ok (some n) := fun n e => by rw [e'] at e; cases e
        rw [meets_lost hno, meets_lost hno, meets_lost hno, long_hash]
        exact ⟨hl, fun h => h.elim no_over_hash no_twin_hash⟩
      · rw [e', Res.bind_ok, meets_load e' (by rw [long_hash]; exact hl), meets_load e' no_over_hash, meets_load e' no_twin_hash]
        have := room_load (h := h) (p := p) (d := d) hn
        exact ih n0 d hfit hd (by omega)
    | internal h p pre l r =>
      rw [treeInsert, bitsCount_ok hf.1.has key hd, Res.bind_ok]
      dsimp only
      have h1 := lcp_le_left pre.path (key.bits.drop d)
      have h2 := lcp_le_right pre.path (key.bits.drop d)
      have hsz := hf.1.length
      simp at h2
      by_cases hlt : d + lcp pre.path (key.bits.drop d) < 256
      · obtain ⟨b, hb⟩ := bit_some (k := key) hlt
        rw [getBit_some hb, Res.bind_ok]
        have hno : ¬ POver key (.internal h p pre l r) d := by
          rw [over_internal, ← lcp_eq_right_iff]; simp; omega
        split
        · next hne =>
          obtain ⟨f1, k1, e, s1, s2⟩ := bitsSplit_sized hf.1 (i := lcp pre.path (key.bits.drop d)) (by omega)
          rw [e, Res.bind_ok]
          have hst : ¬ (pre.path <+: key.bits.drop d ∧ d + pre.size < 256) := by
            rintro ⟨hp, _⟩; rw [← lcp_eq_left_iff] at hp; omega
          rw [meets_stop hst, meets_stop hst, meets_stop hst]
          exact .ok no_long_internal (fun h => h.elim hno no_twin_internal)
            ⟨fit_internal s1 hleaf.1 hleaf.2 (fit_internal (b := false) s2 hf.2.2.2.1 hf.2.1 hf.2.2.2.2 hf.2.2.1) createInternal_null, createInternal_null⟩
        · next heq =>
          have heq : lcp pre.path (key.bits.drop d) = pre.size := by simpa using heq
          have hp : pre.path <+: key.bits.drop d := lcp_eq_left_iff.1 (by omega)
          rw [heq] at hb hlt ⊢
          rw [meets_down hp hb no_long_internal, meets_down hp hb hno, meets_down hp hb no_twin_internal]
          have := room_down (n := .internal h p pre l r) (n' := side l r b) (d := d) (d' := d + pre.size + 1) rfl (by omega) (by omega)
          exact (ih (side l r b) (d + pre.size + 1) (fit_side hf b).1 (by omega) (by omega)).map Iff.rfl Iff.rfl
            fun z hz => ⟨fit_internal hf.1 hz.1 hz.2 (fit_side hf _).1 (fit_side hf _).2, createInternal_null⟩
      · rw [getBit_end key (by omega)]
        have hst : ¬ (pre.path <+: key.bits.drop d ∧ d + pre.size < 256) := by
          rintro ⟨hp, _⟩; rw [← lcp_eq_left_iff] at hp; omega
        rw [meets_stop hst, meets_stop hst, meets_stop hst]
        refine ⟨no_long_internal, .inl (over_internal.2 (lcp_eq_right_iff.1 ?_))⟩
        simp; omega

/-! ### Removing -/

/-- The node is the leaf of the key, perhaps after loading it. -/
def AtLeaf (s : Store) (key : B32) (n : Node) (d : Nat) : Prop := ∃ h p v vp, Way s key n d (.leaf h p key v vp) d

theorem Way.grows {s : Store} {key : B32} {n n' : Node} {d d' : Nat} (w : Way s key n d n' d') : d ≤ d' := by
  induction w with
  | here => exact Nat.le_refl _
  | down _ _ _ ih => omega
  | load _ _ ih => exact ih

def PLost (s : Store) (key : B32) (n : Node) (d : Nat) : Prop :=
  ∃ h p pre l r b, n = .internal h p pre l r ∧ pre.path <+: key.bits.drop d ∧ key.bits[d + pre.size]? = some b ∧ AtLeaf s key (side l r b) (d + pre.size + 1) ∧
    ∃ hy py, side l r (!b) = .hash hy py ∧ (storeResolve s hy py = .ok none ∨ LongRecord s py)

def PJoin (s : Store) (key : B32) (n : Node) (d : Nat) : Prop :=
  ∃ h p pre l r b, n = .internal h p pre l r ∧ pre.path <+: key.bits.drop d ∧ key.bits[d + pre.size]? = some b ∧ AtLeaf s key (side l r b) (d + pre.size + 1) ∧
    ∃ h p pre' l' r', Way s key (side l r (!b)) (d + pre.size + 1) (.internal h p pre' l' r') (d + pre.size + 1) ∧ 256 < pre.size + 1 + pre'.size

theorem other_side (l r : Node) (b : Bool) : (if b then l else r) = side l r (!b) := by cases b <;> rfl

theorem lostSibling_iff {s : Store} {key : B32} {n : Node} {d : Nat} : LostSibling s key n d ↔ Meets s key (PLost s key) n d := by
  constructor
  · rintro ⟨pre, hy, py, d', ⟨h, p, l, r, d0, b, w, h1, h2, rfl, h3, h4⟩, h5⟩
    rw [other_side] at h3
    exact ⟨_, d0, w, h, p, pre, l, r, b, rfl, h1, h2, h4, hy, py, h3.symm, h5⟩
  · rintro ⟨_, d0, w, h, p, pre, l, r, b, rfl, h1, h2, h4, hy, py, h3, h5⟩
    exact ⟨pre, hy, py, _, ⟨h, p, l, r, d0, b, w, h1, h2, rfl, by rw [other_side]; exact h3.symm, h4⟩, h5⟩

theorem longSibling_iff {s : Store} {key : B32} {n : Node} {d : Nat} : LongSibling s key n d ↔ Meets s key (PJoin s key) n d := by
  constructor
  · rintro ⟨pre, y, d', hy, py, pre', l', r', ⟨h, p, l, r, d0, b, w, h1, h2, rfl, rfl, h4⟩, h5⟩
    rw [other_side] at h5
    exact ⟨_, d0, w, h, p, pre, l, r, b, rfl, h1, h2, h4, hy, py, pre', l', r', h5⟩
  · rintro ⟨_, d0, w, h, p, pre, l, r, b, rfl, h1, h2, h4, hy, py, pre', l', r', h5⟩
    exact ⟨pre, _, _, hy, py, pre', l', r', ⟨h, p, l, r, d0, b, w, h1, h2, rfl, rfl, h4⟩, by rw [other_side]; exact h5⟩


theorem atLeaf_cases {s : Store} {key : B32} {n : Node} {d : Nat} (h : AtLeaf s key n d) :
    (∃ h p v vp, n = .leaf h p key v vp) ∨ (∃ h p, n = .hash h p ∧ ∃ h' p' v vp, storeResolve s h p = .ok (some (.leaf h' p' key v vp))) := by
  obtain ⟨h, p, v, vp, w⟩ := h
  generalize hn : Node.leaf h p key v vp = n' at w
  generalize hd : d = d' at w
  cases w with
  | here => exact .inl ⟨_, _, _, _, hn.symm⟩
  | down _ _ w => have := w.grows; omega
  | @load h0 p0 n0 _ _ _ e w =>
    refine .inr ⟨_, _, rfl, ?_⟩
    rcases storeResolve_cases s h0 p0 with ⟨e', _⟩ | ⟨_, e' | ⟨n1, e', _, hl⟩⟩
    · rw [e'] at e; cases e
    · rw [e'] at e; cases e
    · rw [e'] at e; cases e
      cases w with
      | here => subst hn; exact ⟨_, _, _, _, e'⟩
      | down _ _ w => have := w.grows; omega
      | load => exact hl.elim

theorem treeRemove_leaf {s : Store} {key : B32} {n : Node} {d fuel : Nat} (h : AtLeaf s key n d) (hr : room n d ≤ fuel) : treeRemove s key fuel n d = .ok .null := by
  obtain ⟨f, rfl⟩ : ∃ f, fuel = f + 1 := ⟨fuel - 1, by have := room_pos n d; omega⟩
  rcases atLeaf_cases h with ⟨h, p, v, vp, rfl⟩ | ⟨h, p, rfl, h', p', v, vp, e⟩
  · simp [treeRemove]
  · obtain ⟨f, rfl⟩ : ∃ f', f = f' + 1 := ⟨f - 1, by unfold room at hr; simp [Node.isHash] at hr; omega⟩
    rw [treeRemove, e, Res.bind_ok]
    simp [treeRemove]

theorem no_lost_hash {s : Store} {key h : B32} {p : Ptr} {d : Nat} : ¬ PLost s key (.hash h p) d := by rintro ⟨_, _, _, _, _, _, e, _⟩; cases e
theorem no_lost_null {s : Store} {key : B32} {d : Nat} : ¬ PLost s key .null d := by rintro ⟨_, _, _, _, _, _, e, _⟩; cases e
theorem no_lost_leaf {s : Store} {key : B32} {h : Option B32} {p : Option Ptr} {k : B32} {v : Option Bytes} {vp : Option Ptr} {d : Nat} : ¬ PLost s key (.leaf h p k v vp) d := by
  rintro ⟨_, _, _, _, _, _, e, _⟩; cases e
theorem no_join_hash {s : Store} {key h : B32} {p : Ptr} {d : Nat} : ¬ PJoin s key (.hash h p) d := by rintro ⟨_, _, _, _, _, _, e, _⟩; cases e
theorem no_join_null {s : Store} {key : B32} {d : Nat} : ¬ PJoin s key .null d := by rintro ⟨_, _, _, _, _, _, e, _⟩; cases e
theorem no_join_leaf {s : Store} {key : B32} {h : Option B32} {p : Option Ptr} {k : B32} {v : Option Bytes} {vp : Option Ptr} {d : Nat} : ¬ PJoin s key (.leaf h p k v vp) d := by
  rintro ⟨_, _, _, _, _, _, e, _⟩; cases e

/-- A branch that the way follows. -/
theorem lost_here {s : Store} {key : B32} {h : Option B32} {p : Option Ptr} {pre : Bits} {l r : Node} {d : Nat} {b : Bool}
    (h1 : pre.path <+: key.bits.drop d) (h2 : key.bits[d + pre.size]? = some b) :
    PLost s key (.internal h p pre l r) d ↔ AtLeaf s key (side l r b) (d + pre.size + 1) ∧
      ∃ hy py, side l r (!b) = .hash hy py ∧ (storeResolve s hy py = .ok none ∨ LongRecord s py) := by
  constructor
  · rintro ⟨_, _, _, _, _, b', e, _, h3, h4⟩
    cases e; rw [h2] at h3; cases h3; exact h4
  · exact fun h4 => ⟨h, p, pre, l, r, b, rfl, h1, h2, h4⟩

theorem join_here {s : Store} {key : B32} {h : Option B32} {p : Option Ptr} {pre : Bits} {l r : Node} {d : Nat} {b : Bool}
    (h1 : pre.path <+: key.bits.drop d) (h2 : key.bits[d + pre.size]? = some b) :
    PJoin s key (.internal h p pre l r) d ↔ AtLeaf s key (side l r b) (d + pre.size + 1) ∧
      ∃ h p pre' l' r', Way s key (side l r (!b)) (d + pre.size + 1) (.internal h p pre' l' r') (d + pre.size + 1) ∧ 256 < pre.size + 1 + pre'.size := by
  constructor
  · rintro ⟨_, _, _, _, _, b', e, _, h3, h4⟩
    cases e; rw [h2] at h3; cases h3; exact h4
  · exact fun h4 => ⟨h, p, pre, l, r, b, rfl, h1, h2, h4⟩

theorem lost_stop {s : Store} {key : B32} {h : Option B32} {p : Option Ptr} {pre : Bits} {l r : Node} {d : Nat}
    (hn : ¬ (pre.path <+: key.bits.drop d ∧ d + pre.size < 256)) : ¬ PLost s key (.internal h p pre l r) d := by
  rintro ⟨_, _, _, _, _, b', e, h1, h3, _⟩
  cases e
  exact hn ⟨h1, by have := (List.getElem?_eq_some_iff.1 h3).1; simpa using this⟩

theorem join_stop {s : Store} {key : B32} {h : Option B32} {p : Option Ptr} {pre : Bits} {l r : Node} {d : Nat}
    (hn : ¬ (pre.path <+: key.bits.drop d ∧ d + pre.size < 256)) : ¬ PJoin s key (.internal h p pre l r) d := by
  rintro ⟨_, _, _, _, _, b', e, h1, h3, _⟩
  cases e
  exact hn ⟨h1, by have := (List.getElem?_eq_some_iff.1 h3).1; simpa using this⟩

/-- What is done with the other side of the last branch. -/
def removeJoin (s : Store) (pre : Bits) (y : Node) (bit : Bool) : Res Node := do
  let sd ← match y with
    | .hash h p => do
      let r ← storeResolve s h p
      match r with
      | none => .abort
      | some n => pure n
    | y => pure y
  match sd with
  | .internal _ _ spre sl sr => do
    let j ← bitsJoin pre spre (!bit)
    pure (createInternal j sl sr false)
  | sd => pure sd

def removeSide (pre : Bits) (n : Node) (bit : Bool) : Res Node :=
  match n with
  | .internal _ _ spre sl sr => do
    let j ← bitsJoin pre spre (!bit)
    pure (createInternal j sl sr false)
  | sd => pure sd

theorem removeSide_outcome {pre : Bits} {n : Node} {bit : Bool} (hp : Sized pre) (hn : Fit n) (hl : n ≠ .null) :
    Outcome (removeSide pre n bit) (∃ h p pre' l' r', n = .internal h p pre' l' r' ∧ 256 < pre.size + 1 + pre'.size) False
      (fun n' => Fit n' ∧ n' ≠ .null) := by
  cases n with
  | null => exact absurd rfl hl
  | hash h p => exact .ok (by rintro ⟨_, _, _, _, _, e, _⟩; cases e) id ⟨hn, hl⟩
  | leaf h p k v vp => exact .ok (by rintro ⟨_, _, _, _, _, e, _⟩; cases e) id ⟨hn, hl⟩
  | internal h p pre' l' r' =>
    dsimp only [removeSide]
    rcases bitsJoin_cases hp hn.1 (!bit) with ⟨h1, e⟩ | ⟨h1, o, e, ho⟩
    · rw [e]; exact ⟨⟨h, p, pre', l', r', rfl, h1⟩, id⟩
    · rw [e, Res.bind_ok]
      refine .ok ?_ id ⟨fit_internal ho hn.2.2.2.1 hn.2.1 hn.2.2.2.2 hn.2.2.1, createInternal_null⟩
      rintro ⟨_, _, _, _, _, e', h2⟩
      cases e'; omega

theorem way_internal_same {s : Store} {key : B32} {n : Node} {d : Nat} {Q : Bits → Prop} (hn : ∀ h p, n ≠ .hash h p) :
    (∃ h p pre' l' r', Way s key n d (.internal h p pre' l' r') d ∧ Q pre') ↔ ∃ h p pre' l' r', n = .internal h p pre' l' r' ∧ Q pre' := by
  constructor
  · rintro ⟨h, p, pre', l', r', w, hq⟩
    generalize hm : Node.internal h p pre' l' r' = n' at w
    generalize hd : d = d' at w
    cases w with
    | here => exact ⟨_, _, _, _, _, hm.symm, hq⟩
    | down _ _ w => have := w.grows; omega
    | load => exact absurd rfl (hn _ _)
  · rintro ⟨h, p, pre', l', r', rfl, hq⟩
    exact ⟨_, _, _, _, _, .here _ _, hq⟩

theorem way_internal_load {s : Store} {key h : B32} {p : Ptr} {n : Node} {d : Nat} {Q : Bits → Prop} (e : storeResolve s h p = .ok (some n)) :
    (∃ h' p' pre' l' r', Way s key (.hash h p) d (.internal h' p' pre' l' r') d ∧ Q pre') ↔ ∃ h p pre' l' r', Way s key n d (.internal h p pre' l' r') d ∧ Q pre' := by
  constructor
  · rintro ⟨h, p, pre', l', r', w, hq⟩
    cases w with
    | load e' w => rw [e] at e'; cases e'; exact ⟨_, _, _, _, _, w, hq⟩
  · rintro ⟨h, p, pre', l', r', w, hq⟩
    exact ⟨_, _, _, _, _, .load e w, hq⟩

theorem removeJoin_outcome {s : Store} {key : B32} {pre : Bits} {y : Node} {bit : Bool} {d : Nat} (hp : Sized pre) (hy : Fit y) (hy' : y ≠ .null) :
    Outcome (removeJoin s pre y bit)
      ((∃ hy py, y = .hash hy py ∧ (storeResolve s hy py = .ok none ∨ LongRecord s py)) ∨
        ∃ h p pre' l' r', Way s key y d (.internal h p pre' l' r') d ∧ 256 < pre.size + 1 + pre'.size) False
      (fun n' => Fit n' ∧ n' ≠ .null) := by
  by_cases hh : ∃ h p, y = .hash h p
  · obtain ⟨h, p, rfl⟩ := hh
    unfold removeJoin
    dsimp only
    rcases storeResolve_cases s h p with ⟨e', hl⟩ | ⟨hl, e' | ⟨n0, e', hfit, hn⟩⟩
    · rw [e']
      exact ⟨.inl ⟨h, p, rfl, .inr hl⟩, id⟩
    · rw [e', Res.bind_ok]
      exact ⟨.inl ⟨h, p, rfl, .inl e'⟩, id⟩
    · rw [e', Res.bind_ok, way_internal_load e']
      have hq : ¬ ∃ hy py, Node.hash h p = .hash hy py ∧ (storeResolve s hy py = .ok none ∨ LongRecord s py) := by
        rintro ⟨_, _, e, h1 | h1⟩
        · cases e; rw [e'] at h1; cases h1
        · cases e; exact hl h1
      have hnn : n0 ≠ .null := by rintro rfl; exact hn.elim
      show Outcome (removeSide pre n0 bit) _ _ _
      refine (removeSide_outcome (bit := bit) hp hfit hnn).congr ?_ Iff.rfl
      rw [way_internal_same (Q := fun pre' => 256 < pre.size + 1 + pre'.size) (by rintro h p rfl; exact hn.elim)]
      exact ⟨fun h => h.elim (fun h => absurd h hq) id, .inr⟩
  · have hh' : ∀ h p, y ≠ .hash h p := fun h p e => hh ⟨h, p, e⟩
    have e : removeJoin s pre y bit = removeSide pre y bit := by
      unfold removeJoin
      cases y <;> first | rfl | exact absurd rfl (hh' _ _)
    rw [e]
    refine (removeSide_outcome (bit := bit) hp hy hy').congr ?_ Iff.rfl
    rw [way_internal_same (Q := fun pre' => 256 < pre.size + 1 + pre'.size) hh']
    exact ⟨fun h => h.elim (fun ⟨_, _, e, _⟩ => absurd e (hh' _ _)) id, .inr⟩

theorem treeRemove_outcome {s : Store} {key : B32} :
    ∀ (fuel : Nat) (n : Node) (d : Nat), Fit n → d ≤ 256 → room n d ≤ fuel →
    Outcome (treeRemove s key fuel n d) (Meets s key (PLong s) n d ∨ Meets s key (PLost s key) n d ∨ Meets s key (PJoin s key) n d)
      (Meets s key (PFull key) n d) (fun n' => Fit n' ∧ (¬ AtLeaf s key n d → n' ≠ .null)) := by
  intro fuel
  induction fuel with
  | zero => intro n d _ _ h; have := room_pos n d; omega
  | succ f ih =>
    intro n d hf hd hr
    cases n with
    | null =>
      rw [treeRemove, meets_null, meets_null, meets_null, meets_null]
      exact ⟨fun h => h.elim no_long_null fun h => h.elim no_lost_null no_join_null, no_full_null⟩
    | leaf h p k v vp =>
      rw [treeRemove, meets_leaf, meets_leaf, meets_leaf, meets_leaf]
      have hA : ¬ (PLong s (.leaf h p k v vp) d ∨ PLost s key (.leaf h p k v vp) d ∨ PJoin s key (.leaf h p k v vp) d) :=
        fun h => h.elim no_long_leaf fun h => h.elim no_lost_leaf no_join_leaf
      split
      · exact ⟨hA, no_full_leaf⟩
      · next hk =>
        have hk : k = key := by simpa using hk
        subst hk
        exact .ok hA no_full_leaf ⟨trivial, fun hn => absurd ⟨_, _, _, _, .here _ _⟩ hn⟩
    | hash h p =>
      rw [treeRemove]
      have hA : (PLong s (.hash h p) d ∨ PLost s key (.hash h p) d ∨ PJoin s key (.hash h p) d) ↔ LongRecord s p := by
        rw [long_hash]
        exact ⟨fun h => h.elim id fun h => (h.elim no_lost_hash no_join_hash).elim, .inl⟩
      rcases storeResolve_cases s h p with ⟨e', hl⟩ | ⟨hl, e' | ⟨n0, e', hfit, hn⟩⟩
      · rw [e']
        have hno : ∀ n, storeResolve s h p ≠ .ok (some n) := fun n e => by rw [e'] at e; cases e
        rw [meets_lost hno, meets_lost hno, meets_lost hno, meets_lost hno, hA]
        exact ⟨hl, no_full_hash⟩
      · rw [e', Res.bind_ok]
        have hno : ∀ n, storeResolve s h p ≠ .ok (some n) := fun n e => by rw [e'] at e; cases e
        rw [meets_lost hno, meets_lost hno, meets_lost hno, meets_lost hno, hA]
        exact ⟨hl, no_full_hash⟩
      · rw [e', Res.bind_ok, meets_load e' (by rw [long_hash]; exact hl), meets_load e' no_full_hash, meets_load e' no_lost_hash, meets_load e' no_join_hash]
        have := room_load (h := h) (p := p) (d := d) hn
        have i := ih n0 d hfit hd (by omega)
        have hat : ¬ AtLeaf s key (.hash h p) d → ¬ AtLeaf s key n0 d := by
          rintro h1 ⟨_, _, _, _, w⟩; exact h1 ⟨_, _, _, _, .load e' w⟩
        dsimp only
        generalize treeRemove s key f n0 d = r at i
        cases r with
        | ok x => exact .ok i.1 i.2.1 ⟨i.2.2.1, fun h => i.2.2.2 (hat h)⟩
        | err _ => exact i
        | abort => exact i
        | ub => exact i
    | internal h p pre l r =>
      rw [treeRemove, bitsHas_ok hf.1.has key hd, Res.bind_ok]
      by_cases hp : pre.path <+: key.bits.drop d
      · rw [List.isPrefixOf_iff_prefix.2 hp]
        simp only [Bool.not_true, Bool.false_eq_true, if_false]
        obtain ⟨hle, hfull⟩ := full_length hf.1 hd hp
        by_cases hlt : d + pre.size < 256
        · obtain ⟨b, hb⟩ := bit_some (k := key) hlt
          rw [getBit_some hb, Res.bind_ok]
          have hnf : ¬ PFull key (.internal h p pre l r) d := by rw [full_internal, hfull]; omega
          have := room_down (n := .internal h p pre l r) (n' := side l r b) (d := d) (d' := d + pre.size + 1) rfl (by omega) (by omega)
          have i := ih (side l r b) (d + pre.size + 1) (fit_side hf b).1 (by omega) (by omega)
          have hnl : ¬ AtLeaf s key (.internal h p pre l r) d := by
            intro ha
            rcases atLeaf_cases ha with ⟨_, _, _, _, e⟩ | ⟨_, _, e, _⟩ <;> cases e
          rw [meets_down hp hb no_long_internal, meets_down hp hb hnf]
          by_cases hat : AtLeaf s key (side l r b) (d + pre.size + 1)
          · have e := treeRemove_leaf (fuel := f) hat (by omega)
            rw [e] at i ⊢
            rw [Res.bind_ok]
            obtain ⟨iA, iU, _⟩ := i
            obtain ⟨i1, i23⟩ := not_or.1 iA
            obtain ⟨i2, i3⟩ := not_or.1 i23
            have j := removeJoin_outcome (s := s) (key := key) (bit := b) (d := d + pre.size + 1) hf.1 (fit_side hf (!b)).1 (fit_side hf (!b)).2
            have hA : (Meets s key (PLong s) (side l r b) (d + pre.size + 1) ∨ Meets s key (PLost s key) (.internal h p pre l r) d ∨ Meets s key (PJoin s key) (.internal h p pre l r) d) ↔
                ((∃ hy py, side l r (!b) = .hash hy py ∧ (storeResolve s hy py = .ok none ∨ LongRecord s py)) ∨
                  ∃ h p pre' l' r', Way s key (side l r (!b)) (d + pre.size + 1) (.internal h p pre' l' r') (d + pre.size + 1) ∧ 256 < pre.size + 1 + pre'.size) := by
              have m2 : Meets s key (PLost s key) (.internal h p pre l r) d ↔ PLost s key (.internal h p pre l r) d := by
                by_cases hq : PLost s key (.internal h p pre l r) d
                · exact ⟨fun _ => hq, fun _ => ⟨_, _, .here _ _, hq⟩⟩
                · rw [meets_down hp hb hq]; exact ⟨fun h => absurd h i2, fun h => absurd h hq⟩
              have m3 : Meets s key (PJoin s key) (.internal h p pre l r) d ↔ PJoin s key (.internal h p pre l r) d := by
                by_cases hq : PJoin s key (.internal h p pre l r) d
                · exact ⟨fun _ => hq, fun _ => ⟨_, _, .here _ _, hq⟩⟩
                · rw [meets_down hp hb hq]; exact ⟨fun h => absurd h i3, fun h => absurd h hq⟩
              rw [m2, m3, lost_here hp hb, join_here hp hb]
              constructor
              · rintro (h | ⟨_, h⟩ | ⟨_, h⟩)
                · exact absurd h i1
                · exact .inl h
                · exact .inr h
              · rintro (h | h)
                · exact .inr (.inl ⟨hat, h⟩)
                · exact .inr (.inr ⟨hat, h⟩)
            have k := j.congr hA (U' := Meets s key (PFull key) (side l r b) (d + pre.size + 1)) ⟨fun h => absurd h iU, False.elim⟩
            show Outcome (removeJoin s pre (side l r (!b)) b) _ _ _
            generalize removeJoin s pre (side l r (!b)) b = q at k
            cases q with
            | ok x => exact .ok k.1 k.2.1 ⟨k.2.2.1, fun _ => k.2.2.2⟩
            | err _ => exact k
            | abort => exact k
            | ub => exact k
          · rw [meets_down hp hb (by rw [lost_here hp hb]; exact fun h => hat h.1), meets_down hp hb (by rw [join_here hp hb]; exact fun h => hat h.1)]
            generalize treeRemove s key f (side l r b) (d + pre.size + 1) = q at i
            cases q with
            | ok x =>
              rw [Res.bind_ok]
              obtain ⟨i1, i2, i3, i4⟩ := i
              have hx := i4 hat
              have hg := fit_internal (b := b) hf.1 i3 hx (fit_side hf (!b)).1 (fit_side hf (!b)).2
              cases x with
              | null => exact absurd rfl hx
              | hash h p => exact .ok i1 i2 ⟨hg, fun _ => createInternal_null⟩
              | leaf h p k v vp => exact .ok i1 i2 ⟨hg, fun _ => createInternal_null⟩
              | internal h p pre l r => exact .ok i1 i2 ⟨hg, fun _ => createInternal_null⟩
            | err _ => exact i
            | abort => exact i
            | ub => exact i
        · have h256 : d + pre.size = 256 := by omega
          have hst : ¬ (pre.path <+: key.bits.drop d ∧ d + pre.size < 256) := fun h => hlt h.2
          rw [getBit_end key h256, meets_stop hst, meets_stop hst, meets_stop hst, meets_stop hst]
          exact ⟨fun h => h.elim no_long_internal fun h => h.elim (lost_stop hst) (join_stop hst), full_internal.2 (hfull.2 h256)⟩
      · have : pre.path.isPrefixOf (key.bits.drop d) = false := by
          rw [Bool.eq_false_iff]; intro hc; exact hp (List.isPrefixOf_iff_prefix.1 hc)
        have hst : ¬ (pre.path <+: key.bits.drop d ∧ d + pre.size < 256) := fun h => hp h.1
        rw [this, meets_stop hst, meets_stop hst, meets_stop hst, meets_stop hst]
        exact ⟨fun h => h.elim no_long_internal fun h => h.elim (lost_stop hst) (join_stop hst),
          fun h => hp (by rw [full_internal.1 h]; exact List.prefix_refl _)⟩


/-! ### Proving -/

theorem nodeHash_fit (H : HashFn) : ∀ n : Node, Fit n → ∃ h n', nodeHash H n = .ok (h, n') ∧ Fit n' ∧ (n' = .null ↔ n = .null)
  | .null, _ => ⟨_, _, rfl, trivial, Iff.rfl⟩
  | .hash h p, _ => ⟨_, _, rfl, trivial, Iff.rfl⟩
  | .leaf (some h) p k v vp, hf => ⟨_, _, rfl, hf, Iff.rfl⟩
  | .leaf none p k v vp, hf => absurd hf.1 (by simp)
  | .internal (some h) p pre l r, hf => ⟨_, _, rfl, hf, Iff.rfl⟩
  | .internal none p pre l r, hf => by
    obtain ⟨hl, l', e1, f1, n1⟩ := nodeHash_fit H l hf.2.2.2.1
    obtain ⟨hr, r', e2, f2, n2⟩ := nodeHash_fit H r hf.2.2.2.2
    refine ⟨hashInternal H pre hl hr, .internal (some (hashInternal H pre hl hr)) p pre l' r', by rw [nodeHash, e1, Res.bind_ok]; dsimp only; rw [e2, Res.bind_ok]; rfl, ?_, ⟨(nomatch ·), (nomatch ·)⟩⟩
    exact ⟨hf.1, fun e => hf.2.1 (n1.1 e), fun e => hf.2.2.1 (n2.1 e), f1, f2⟩

theorem treeProve_outcome {E : Env} {s : Store} {key : B32} :
    ∀ (fuel : Nat) (n : Node) (d pushed : Nat), Fit n → d ≤ 256 → pushed ≤ d → room n d ≤ fuel →
    Outcome (treeProve E s key fuel n d pushed) (Meets s key (PLong s) n d) (Meets s key (PFull key) n d)
      (fun x => (∀ pf, x.1 = some pf → pf.nodes.length ≤ 256 - d ∧ (∀ m ∈ pf.nodes, Sized m.pre) ∧ (∀ pre l r, pf.body = .short pre l r → Sized pre)) ∧
        Fit x.2 ∧ (x.2 = .null ↔ n = .null)) := by
  intro fuel
  induction fuel with
  | zero => intro n d _ _ _ _ h; have := room_pos n d; omega
  | succ f ih =>
    intro n d pushed hf hd hpd hr
    cases n with
    | null =>
      rw [treeProve, meets_null, meets_null]
      exact .ok no_long_null no_full_null ⟨fun pf e => (by cases e; exact ⟨by simp, by simp, fun _ _ _ e => (nomatch e)⟩), trivial, Iff.rfl⟩
    | leaf h p k v vp =>
      rw [treeProve, meets_leaf, meets_leaf]
      obtain ⟨r, e⟩ := storeRetrieve_safe (s := s) hf.2
      rw [e, Res.bind_ok]
      cases r with
      | none => exact .ok no_long_leaf no_full_leaf ⟨fun pf e => (nomatch e), hf, Iff.rfl⟩
      | some x =>
        dsimp only
        split
        · exact .ok no_long_leaf no_full_leaf ⟨fun pf e => (by cases e; exact ⟨by simp, by simp, fun _ _ _ e => (nomatch e)⟩), hf, Iff.rfl⟩
        · exact .ok no_long_leaf no_full_leaf ⟨fun pf e => (by cases e; exact ⟨by simp, by simp, fun _ _ _ e => (nomatch e)⟩), hf, Iff.rfl⟩
    | hash h p =>
      rw [treeProve]
      rcases storeResolve_cases s h p with ⟨e', hl⟩ | ⟨hl, e' | ⟨n0, e', hfit, hn⟩⟩
      · rw [e']
        have hno : ∀ n, storeResolve s h p ≠ .ok (some n) := fun n e => by rw [e'] at e; cases e
        rw [meets_lost hno, meets_lost hno, long_hash]
        exact ⟨hl, no_full_hash⟩
      · rw [e', Res.bind_ok]
        have hno : ∀ n, storeResolve s h p ≠ .ok (some n) := fun n e => by rw [e'] at e; cases e
        rw [meets_lost hno, meets_lost hno, long_hash]
        exact ⟨hl, no_full_hash, (fun pf e => (nomatch e)), trivial, ⟨(nomatch ·), (nomatch ·)⟩⟩
      · rw [e', Res.bind_ok, meets_load e' (by rw [long_hash]; exact hl), meets_load e' no_full_hash]
        have := room_load (h := h) (p := p) (d := d) hn
        exact (ih n0 d pushed hfit hd hpd (by omega)).map Iff.rfl Iff.rfl
          (f := fun x : Option Proof × Node => ((x.1, Node.hash h p) : Option Proof × Node)) fun x hx => ⟨hx.1, trivial, ⟨(nomatch ·), (nomatch ·)⟩⟩
    | internal h p pre l r =>
      rw [treeProve, bitsHas_ok hf.1.has key hd, Res.bind_ok]
      by_cases hp : pre.path <+: key.bits.drop d
      · rw [List.isPrefixOf_iff_prefix.2 hp]
        simp only [Bool.not_true, Bool.false_eq_true, if_false]
        obtain ⟨hle, hfull⟩ := full_length hf.1 hd hp
        by_cases hlt : d + pre.size < 256
        · obtain ⟨b, hb⟩ := bit_some (k := key) hlt
          rw [getBit_some hb, Res.bind_ok]
          have hnf : ¬ PFull key (.internal h p pre l r) d := by rw [full_internal, hfull]; omega
          have := room_down (n := .internal h p pre l r) (n' := side l r b) (d := d) (d' := d + pre.size + 1) rfl (by omega) (by omega)
          obtain ⟨hy, y', ey, fy, ny⟩ := nodeHash_fit E.H (side l r (!b)) (fit_side hf (!b)).1
          have c : pushed < keyBits := by unfold keyBits; omega
          rw [ey, Res.bind_ok]
          simp only [c, decide_true, check_true, Res.bind_ok]
          rw [meets_down hp hb no_long_internal, meets_down hp hb hnf]
          have hyn : y' ≠ .null := fun e => (fit_side hf (!b)).2 (ny.1 e)
          refine (ih (side l r b) (d + pre.size + 1) (pushed + 1) (fit_side hf b).1 (by omega) (by omega) (by omega)).map Iff.rfl Iff.rfl
            (f := fun x : Option Proof × Node => ((x.1.map fun pf => { pf with nodes := ⟨pre, hy⟩ :: pf.nodes }, if b then .internal h p pre y' x.2 else .internal h p pre x.2 y') : Option Proof × Node)) fun x hx => ?_
          obtain ⟨h1, h4, h5⟩ := hx
          have hxn : x.2 ≠ .null := fun e => (fit_side hf b).2 (h5.1 e)
          refine ⟨?_, ?_, ?_⟩
          · intro pf' hpf
            obtain ⟨pf, hx1, rfl⟩ := Option.map_eq_some_iff.1 hpf
            obtain ⟨h1, h2, h3⟩ := h1 pf hx1
            refine ⟨by simp; omega, ?_, h3⟩
            intro m hm
            rcases List.mem_cons.1 hm with rfl | hm
            · exact hf.1
            · exact h2 m hm
          · cases b
            · exact ⟨hf.1, hxn, hyn, h4, fy⟩
            · exact ⟨hf.1, hyn, hxn, fy, h4⟩
          · cases b <;> exact ⟨(nomatch ·), (nomatch ·)⟩
        · have h256 : d + pre.size = 256 := by omega
          have hst : ¬ (pre.path <+: key.bits.drop d ∧ d + pre.size < 256) := fun h => hlt h.2
          rw [getBit_end key h256, meets_stop hst, meets_stop hst]
          exact ⟨no_long_internal, full_internal.2 (hfull.2 h256)⟩
      · have : pre.path.isPrefixOf (key.bits.drop d) = false := by
          rw [Bool.eq_false_iff]; intro hc; exact hp (List.isPrefixOf_iff_prefix.1 hc)
        have hst : ¬ (pre.path <+: key.bits.drop d ∧ d + pre.size < 256) := fun h => hp h.1
        obtain ⟨hl, l', e1, f1, n1⟩ := nodeHash_fit E.H l hf.2.2.2.1
        obtain ⟨hr', r', e2, f2, n2⟩ := nodeHash_fit E.H r hf.2.2.2.2
        rw [this, meets_stop hst, meets_stop hst, e1, Res.bind_ok]
        dsimp only
        rw [e2, Res.bind_ok]
        refine .ok no_long_internal (fun h => hp (by rw [full_internal.1 h]; exact List.prefix_refl _)) ⟨?_, ?_, ⟨(nomatch ·), (nomatch ·)⟩⟩
        · intro pf e; cases e
          refine ⟨by simp, by simp, ?_⟩
          intro _ _ _ e; cases e; exact hf.1
        · exact ⟨hf.1, fun e => hf.2.1 (n1.1 e), fun e => hf.2.2.1 (n2.1 e), f1, f2⟩

/-! ### Calls -/

theorem room_top (n : Node) : room n 0 ≤ treeFuel := by unfold room treeFuel; split <;> omega

theorem txProve_outcome {E : Env} {db : Db} {n : Node} {key : B32} (hf : Fit n) :
    Outcome (txProve E db ⟨some n⟩ key) (Meets db.store key (PLong db.store) n 0) (Meets db.store key (PFull key) n 0)
      (fun x => ∃ n', x.1 = ⟨some n'⟩ ∧ Fit n') := by
  have i := treeProve_outcome (E := E) (s := db.store) (key := key) treeFuel n 0 0 hf (by omega) (by omega) (room_top n)
  unfold txProve
  show Outcome (treeProve E db.store key treeFuel n 0 0 >>= _) _ _ _
  generalize treeProve E db.store key treeFuel n 0 0 = q at i
  cases q with
  | ok x =>
    obtain ⟨o, n'⟩ := x
    obtain ⟨h1, h2, h, h6, _⟩ := i
    cases o with
    | none => exact .ok h1 h2 ⟨n', rfl, h6⟩
    | some pf =>
    obtain ⟨h3, h4, h5⟩ := h pf rfl
    have hp : ProofFit pf := ⟨by simpa using h3, h4, h5⟩
    rw [Res.bind_ok]
    dsimp only
    rw [hp.size, Res.bind_ok, hp.write, Res.bind_ok, if_neg (fun h => h rfl)]
    exact .ok h1 h2 ⟨n', rfl, h6⟩
  | err _ => exact i
  | abort => exact i
  | ub => exact i

theorem txInsert_outcome {E : Env} {db : Db} {n : Node} {key : B32} {v : Bytes} (hf : Fit n) (hv : v.length ≤ 1023) :
    Outcome (txInsert E db ⟨some n⟩ key v) (Meets db.store key (PLong db.store) n 0)
      (Meets db.store key (POver key) n 0 ∨ Meets db.store key (PTwin key) n 0) (fun x => ∃ n', x.1 = ⟨some n'⟩ ∧ Fit n') := by
  have i := treeInsert_outcome (E := E) (s := db.store) (key := key) hv treeFuel n 0 hf (by omega) (room_top n)
  unfold txInsert
  rw [if_neg (by unfold valueSize; omega)]
  show Outcome (match treeInsert E db.store key v treeFuel n 0 with
    | .ok n' => pure (⟨some n'⟩, .ok ())
    | .err .ENOUPDATE => pure (⟨some n⟩, .ok ())
    | .err e => pure (⟨some n⟩, .error e)
    | .abort => .abort
    | .ub => .ub : Res (Tx × Except Err Unit)) _ _ _
  generalize treeInsert E db.store key v treeFuel n 0 = q at i
  cases q with
  | ok x => exact .ok i.1 i.2.1 ⟨x, rfl, i.2.2.1⟩
  | err e => cases e <;> exact .ok i.1 i.2 ⟨n, rfl, hf⟩
  | abort => exact i
  | ub => exact i

theorem txRemove_outcome {db : Db} {n : Node} {key : B32} (hf : Fit n) :
    Outcome (txRemove db ⟨some n⟩ key) (Meets db.store key (PLong db.store) n 0 ∨ Meets db.store key (PLost db.store key) n 0 ∨ Meets db.store key (PJoin db.store key) n 0)
      (Meets db.store key (PFull key) n 0) (fun x => ∃ n', x.1 = ⟨some n'⟩ ∧ Fit n') := by
  have i := treeRemove_outcome (s := db.store) (key := key) treeFuel n 0 hf (by omega) (room_top n)
  unfold txRemove
  show Outcome (match treeRemove db.store key treeFuel n 0 with
    | .ok n' => pure (⟨some n'⟩, .ok ())
    | .err e => pure (⟨some n⟩, .error e)
    | .abort => .abort
    | .ub => .ub : Res (Tx × Except Err Unit)) _ _ _
  generalize treeRemove db.store key treeFuel n 0 = q at i
  cases q with
  | ok x => exact .ok i.1 i.2.1 ⟨x, rfl, i.2.2.1⟩
  | err e => exact .ok i.1 i.2 ⟨n, rfl, hf⟩
  | abort => exact i
  | ub => exact i

/-! ### All programs -/

theorem Flat.fit {n : Node} (h : Flat n) : Fit n := by cases n <;> first | trivial | exact h.elim

/-- What holds in every program, whatever the files contain. -/
structure Held (s : Sys) : Prop where
  root : Flat s.db.store.state.rootNode
  txs : ∀ id t, s.txs id = some t → ∀ n, t.root = some n → Fit n

theorem Held.set {s : Sys} (h : Held s) {id : Nat} {t : Option Tx} (ht : ∀ t', t = some t' → ∀ n, t'.root = some n → Fit n) : Held (s.setTx id t) := by
  refine ⟨h.root, fun i x hx => ?_⟩
  unfold Sys.setTx at hx
  dsimp only at hx
  split at hx
  · exact ht x hx
  · exact h.txs i x hx

theorem Held.db {s : Sys} (h : Held s) {db : Db} (hr : Flat db.store.state.rootNode) : Held { s with db := db } := ⟨hr, h.txs⟩

theorem treeWrite_some {E : Env} {n n' : Node} {s s' : Store} (e : treeWrite E n s = .ok (s', some n')) : Flat n' := by
  cases n with
  | null => cases e; trivial
  | hash h p => cases e; trivial
  | leaf h p k v vp =>
    unfold treeWrite at e
    cases p with
    | some p => exact flushAndHash_flat e
    | none =>
      obtain ⟨⟨s1, n1⟩, _, e⟩ := Res.bind_eq_ok.1 e
      obtain ⟨⟨s2, n2⟩, _, e⟩ := Res.bind_eq_ok.1 e
      exact flushAndHash_flat e
  | internal h p pre l r =>
    unfold treeWrite at e
    obtain ⟨⟨s1, l1⟩, _, e⟩ := Res.bind_eq_ok.1 e
    cases l1 with
    | none => cases e
    | some l1 =>
      obtain ⟨⟨s2, r1⟩, _, e⟩ := Res.bind_eq_ok.1 e
      cases r1 with
      | none => cases e
      | some r1 =>
        cases p with
        | some p => exact flushAndHash_flat e
        | none =>
          obtain ⟨⟨s1, n1⟩, _, e⟩ := Res.bind_eq_ok.1 e
          exact flushAndHash_flat e

theorem txCommit_root {E : Env} {db db' : Db} {t t' : Tx} {r : Except Err Unit} (e : txCommit E db t = .ok (db', t', r)) : ∀ n, t'.root = some n → Flat n := by
  obtain ⟨n, e1, e⟩ := Res.bind_eq_ok.1 e
  obtain ⟨⟨s1, o⟩, e2, e⟩ := Res.bind_eq_ok.1 e
  cases o with
  | none => cases e; exact fun n hn => (nomatch hn)
  | some n' =>
    obtain ⟨⟨s2, ok⟩, e3, e⟩ := Res.bind_eq_ok.1 e
    cases ok with
    | false => cases e; exact fun n hn => (nomatch hn)
    | true => cases e; intro n hn; cases hn; exact treeWrite_some e2

theorem Sys.tx_some {s : Sys} {id : Nat} {t : Tx} (e : s.tx id = .ok t) : s.txs id = some t := by
  unfold Sys.tx at e
  split at e
  · next h => cases e; exact h
  · cases e

theorem step_held {E : Env} {s s' : Sys} {op : Op} {r : Ret} (h : Held s) (e : step E s op = .ok (s', r)) : Held s' := by
  have created : ∀ {h' : Option B32} {db : Db} {x : Except Err Tx}, txCreate E s.db h' = .ok (db, x) → Flat db.store.state.rootNode :=
    fun e => txCreate_flat h.root e
  cases op with
  | root => cases e; exact h
  | inject h' =>
    obtain ⟨⟨db, x⟩, e1, e⟩ := Res.bind_eq_ok.1 e
    cases e
    refine h.db ?_
    obtain ⟨⟨s1, ok⟩, e2, e1⟩ := Res.bind_eq_ok.1 e1
    have : s1.state = s.db.store.state := by
      obtain ⟨⟨s2, o⟩, e3, e2⟩ := Res.bind_eq_ok.1 e2
      have := readHistory_state e3
      cases o with
      | none => cases e2
      | some _ => cases e2; exact this
    cases ok <;> (cases e1; show Flat s1.state.rootNode; rw [this]; exact h.root)
  | create id h' =>
    obtain ⟨⟨db, x⟩, e1, e⟩ := Res.bind_eq_ok.1 e
    have hd := created e1
    cases x with
    | error _ => cases e; exact h.db hd
    | ok t =>
      cases e
      refine (h.db hd).set fun t' ht n hn => ?_
      cases ht
      obtain ⟨m, rfl, hm⟩ := txCreate_tx h.root e1
      cases hn
      exact hm.fit
  | destroy id =>
    obtain ⟨t, e1, e⟩ := Res.bind_eq_ok.1 e
    obtain ⟨_, e2, e⟩ := Res.bind_eq_ok.1 e
    cases e
    exact h.set fun t' ht => (nomatch ht)
  | clear id =>
    obtain ⟨t, e1, e⟩ := Res.bind_eq_ok.1 e
    obtain ⟨t1, e2, e⟩ := Res.bind_eq_ok.1 e
    cases e
    obtain ⟨_, _, e2⟩ := Res.bind_eq_ok.1 e2
    cases e2
    refine h.set fun t' ht n hn => ?_
    cases ht; cases hn
    exact h.root.fit
  | txRoot id =>
    obtain ⟨t, e1, e⟩ := Res.bind_eq_ok.1 e
    obtain ⟨⟨t1, x⟩, e2, e⟩ := Res.bind_eq_ok.1 e
    cases e
    obtain ⟨n, e3, e2⟩ := Res.bind_eq_ok.1 e2
    have hn : t.root = some n := by
      unfold Tx.node at e3
      split at e3
      · next hh => cases e3; exact hh
      · cases e3
    obtain ⟨hh, n', e4, hf, _⟩ := nodeHash_fit E.H n (h.txs id t (Sys.tx_some e1) n hn)
    rw [e4] at e2
    cases e2
    refine h.set fun t' ht m hm => ?_
    cases ht; cases hm; exact hf
  | txInject id h' =>
    obtain ⟨t, e1, e⟩ := Res.bind_eq_ok.1 e
    obtain ⟨⟨db, t1, x⟩, e2, e⟩ := Res.bind_eq_ok.1 e
    cases e
    obtain ⟨⟨s1, o⟩, e3, e2⟩ := Res.bind_eq_ok.1 e2
    have hs := readHistory_state e3
    cases o with
    | none =>
      cases e2
      refine (h.db (by show Flat s1.state.rootNode; rw [hs]; exact h.root)).set fun t' ht => ?_
      cases ht; exact h.txs id t (Sys.tx_some e1)
    | some n =>
      obtain ⟨_, _, e2⟩ := Res.bind_eq_ok.1 e2
      cases e2
      refine (h.db (by show Flat s1.state.rootNode; rw [hs]; exact h.root)).set fun t' ht m hm => ?_
      cases ht; cases hm
      exact (readHistory_flat e3 h.root).fit
  | get id k =>
    obtain ⟨t, e1, e⟩ := Res.bind_eq_ok.1 e
    obtain ⟨_, _, e⟩ := Res.bind_eq_ok.1 e
    cases e; exact h
  | has id k =>
    obtain ⟨t, e1, e⟩ := Res.bind_eq_ok.1 e
    obtain ⟨_, _, e⟩ := Res.bind_eq_ok.1 e
    cases e; exact h
  | insert id k v =>
    obtain ⟨t, e1, e⟩ := Res.bind_eq_ok.1 e
    obtain ⟨⟨t1, x⟩, e2, e⟩ := Res.bind_eq_ok.1 e
    cases e
    refine h.set fun t' ht m hm => ?_
    cases ht
    by_cases hv : v.length ≤ 1023
    · obtain ⟨o⟩ := t
      cases o with
      | none =>
        unfold txInsert at e2
        rw [if_neg (by unfold valueSize; omega)] at e2
        cases e2
      | some n =>
        obtain ⟨n', e3, hf⟩ := (txInsert_outcome (E := E) (db := s.db) (key := k) (h.txs id _ (Sys.tx_some e1) n rfl) hv).good e2
        dsimp only at e3
        subst e3; cases hm; exact hf
    · unfold txInsert at e2
      rw [if_pos (by unfold valueSize; omega)] at e2
      cases e2
      exact h.txs id t (Sys.tx_some e1) m hm
  | remove id k =>
    obtain ⟨t, e1, e⟩ := Res.bind_eq_ok.1 e
    obtain ⟨⟨t1, x⟩, e2, e⟩ := Res.bind_eq_ok.1 e
    cases e
    refine h.set fun t' ht m hm => ?_
    cases ht
    obtain ⟨o⟩ := t
    cases o with
    | none => cases e2
    | some n =>
      obtain ⟨n', e3, hf⟩ := (txRemove_outcome (db := s.db) (key := k) (h.txs id _ (Sys.tx_some e1) n rfl)).good e2
      dsimp only at e3
      subst e3; cases hm; exact hf
  | prove id k =>
    obtain ⟨t, e1, e⟩ := Res.bind_eq_ok.1 e
    obtain ⟨⟨t1, x⟩, e2, e⟩ := Res.bind_eq_ok.1 e
    cases e
    refine h.set fun t' ht m hm => ?_
    cases ht
    obtain ⟨o⟩ := t
    cases o with
    | none => cases e2
    | some n =>
      obtain ⟨n', e3, hf⟩ := (txProve_outcome (E := E) (db := s.db) (key := k) (h.txs id _ (Sys.tx_some e1) n rfl)).good e2
      dsimp only at e3
      subst e3; cases hm; exact hf
  | commit id =>
    obtain ⟨t, e1, e⟩ := Res.bind_eq_ok.1 e
    obtain ⟨⟨db, t1, x⟩, e2, e⟩ := Res.bind_eq_ok.1 e
    cases e
    refine (h.db (txCommit_flat h.root e2)).set fun t' ht m hm => ?_
    cases ht
    exact (txCommit_root e2 m hm).fit
  | reopen rand =>
    obtain ⟨⟨d, x⟩, e1, e⟩ := Res.bind_eq_ok.1 e
    cases x with
    | error _ => cases e
    | ok db => cases e; exact ⟨dbOpen_flat e1, fun _ _ ht => (nomatch ht)⟩
  | get1 k h' =>
    obtain ⟨⟨db, x⟩, e1, e⟩ := Res.bind_eq_ok.1 e
    cases e
    refine h.db ?_
    obtain ⟨⟨db1, y⟩, e2, e1⟩ := Res.bind_eq_ok.1 e1
    have hd := created e2
    cases y with
    | error _ => cases e1; exact hd
    | ok t =>
      obtain ⟨_, _, e1⟩ := Res.bind_eq_ok.1 e1
      obtain ⟨_, _, e1⟩ := Res.bind_eq_ok.1 e1
      cases e1; exact hd
  | has1 k h' =>
    obtain ⟨⟨db, x⟩, e1, e⟩ := Res.bind_eq_ok.1 e
    cases e
    refine h.db ?_
    obtain ⟨⟨db1, y⟩, e2, e1⟩ := Res.bind_eq_ok.1 e1
    have hd := created e2
    cases y with
    | error _ => cases e1; exact hd
    | ok t =>
      obtain ⟨_, _, e1⟩ := Res.bind_eq_ok.1 e1
      obtain ⟨_, _, e1⟩ := Res.bind_eq_ok.1 e1
      cases e1; exact hd
  | insert1 k v =>
    obtain ⟨⟨db, x⟩, e1, e⟩ := Res.bind_eq_ok.1 e
    cases e
    refine h.db ?_
    obtain ⟨⟨db1, y⟩, e2, e1⟩ := Res.bind_eq_ok.1 e1
    have hd := created e2
    cases y with
    | error _ => cases e1; exact hd
    | ok t =>
      obtain ⟨⟨t1, z⟩, _, e1⟩ := Res.bind_eq_ok.1 e1
      cases z with
      | error _ =>
        obtain ⟨_, _, e1⟩ := Res.bind_eq_ok.1 e1
        cases e1; exact hd
      | ok u =>
        obtain ⟨⟨db2, t2, w⟩, e3, e1⟩ := Res.bind_eq_ok.1 e1
        obtain ⟨_, _, e1⟩ := Res.bind_eq_ok.1 e1
        cases e1; exact txCommit_flat hd e3
  | remove1 k =>
    obtain ⟨⟨db, x⟩, e1, e⟩ := Res.bind_eq_ok.1 e
    cases e
    refine h.db ?_
    obtain ⟨⟨db1, y⟩, e2, e1⟩ := Res.bind_eq_ok.1 e1
    have hd := created e2
    cases y with
    | error _ => cases e1; exact hd
    | ok t =>
      obtain ⟨⟨t1, z⟩, _, e1⟩ := Res.bind_eq_ok.1 e1
      cases z with
      | error _ =>
        obtain ⟨_, _, e1⟩ := Res.bind_eq_ok.1 e1
        cases e1; exact hd
      | ok u =>
        obtain ⟨⟨db2, t2, w⟩, e3, e1⟩ := Res.bind_eq_ok.1 e1
        obtain ⟨_, _, e1⟩ := Res.bind_eq_ok.1 e1
        cases e1; exact txCommit_flat hd e3
  | prove1 k h' =>
    obtain ⟨⟨db, x⟩, e1, e⟩ := Res.bind_eq_ok.1 e
    cases e
    refine h.db ?_
    obtain ⟨⟨db1, y⟩, e2, e1⟩ := Res.bind_eq_ok.1 e1
    have hd := created e2
    cases y with
    | error _ => cases e1; exact hd
    | ok t =>
      obtain ⟨⟨_, _⟩, _, e1⟩ := Res.bind_eq_ok.1 e1
      obtain ⟨_, _, e1⟩ := Res.bind_eq_ok.1 e1
      cases e1; exact hd

theorem Worn.held {E : Env} {s : Sys} (h : Worn E s) : Held s := by
  induction h with
  | opened e => exact ⟨dbOpen_flat e, fun _ _ ht => (nomatch ht)⟩
  | rot _ hr ih => obtain ⟨files, _, rfl⟩ := hr; exact ⟨ih.root, ih.txs⟩
  | faults fs _ ih => exact ⟨ih.root, ih.txs⟩
  | call _ e ih => exact step_held ih e

theorem Reachable.worn {E : Env} {s : Sys} (h : Reachable E s) : Worn E s := by
  obtain ⟨tr, h⟩ := h
  induction h with
  | start h => obtain ⟨rand, d, db, e, rfl⟩ := h; exact .opened e
  | step _ _ e ih => exact .call ih e

end Urkel
