import Verif.Spec.Answers
import Verif.Lemmas.Quiet
import Mathlib.Tactic.ByContra
/-
Lookups before and after an insertion or a removal, on any files.
-/
namespace Urkel

/-! ### Paths -/

theorem bitsCopyLoop_has {src : Bits} {l : List Bool} (hs : HasBits src l) (n j : Nat)
    (out : Bits) (pre : List Bool) (hj : j + n ≤ l.length) (hpn : pre.length + n ≤ 256)
    (hlen : out.data.length = 32)
    (hbits : bitsOf out.data = pre ++ List.replicate (256 - pre.length) false) :
    ∃ o', bitsCopyLoop src n pre.length j out = .ok o' ∧ o'.size = out.size ∧ o'.data.length = 32 ∧
      bitsOf o'.data = (pre ++ (l.drop j).take n) ++ List.replicate (256 - (pre.length + n)) false := by
  induction n generalizing j out pre with
  | zero => exact ⟨out, rfl, rfl, hlen, by simpa using hbits⟩
  | succ n ih =>
    have hjl : j < l.length := by omega
    obtain ⟨o1, h1, h2, h3, h4⟩ := bitsSet_ok (l[j]) hlen (by omega) rfl hbits
    obtain ⟨o', g1, g2, g3, g4⟩ := ih (j + 1) o1 (pre ++ [l[j]]) (by omega) (by simp; omega) h3
      (by simpa [Nat.sub_sub] using h4)
    refine ⟨o', ?_, by omega, g3, ?_⟩
    · unfold bitsCopyLoop
      rw [bitsGet_ok hs hjl]
      simp only [Res.bind_ok, h1]
      simpa using g1
    · rw [g4, List.drop_eq_getElem_cons hjl, List.take_succ_cons]
      simp [Nat.add_assoc, Nat.add_comm 1 n]

theorem bitsSlice_has {b : Bits} {l : List Bool} (hb : HasBits b l) {s e : Nat}
    (hse : s ≤ e) (he : e ≤ l.length) :
    ∃ o, bitsSlice b s e = .ok o ∧ IsBits o ((l.drop s).take (e - s)) := by
  have hle := hb.le
  unfold bitsSlice
  rw [bitsInit_ok (by omega)]
  simp only [hse, decide_true, check_true, Res.bind_ok]
  obtain ⟨o', g1, g2, g3, g4⟩ := bitsCopyLoop_has hb (e - s) s ⟨e - s, List.replicate 32 0⟩ []
    (by omega) (by simp; omega) (by simp) (by rw [bitsOf_zeros]; rfl)
  refine ⟨o', g1, ?_, ?_, g3, ?_⟩
  · rw [g2]; simp; omega
  · simp; omega
  · rw [g4]
    simp only [List.nil_append, List.length_nil, Nat.zero_add, List.length_take, List.length_drop]
    congr 2; omega

theorem bitsSplit_has {b : Bits} {l : List Bool} (hb : HasBits b l) {i : Nat} (hi : i < l.length) :
    ∃ f k, bitsSplit b i = .ok (f, k) ∧ IsBits f (l.take i) ∧ IsBits k (l.drop (i + 1)) := by
  obtain ⟨f, h1, h2⟩ := bitsSlice_has hb (Nat.zero_le i) (by omega)
  obtain ⟨k, h3, h4⟩ := bitsSlice_has hb (s := i + 1) (e := l.length) (by omega) (by omega)
  refine ⟨f, k, ?_, by simpa using h2, ?_⟩
  · unfold bitsSplit; rw [h1, hb.size]; simp [h3]
  · rwa [List.take_of_length_le (by simp)] at h4

theorem HasBits.path {b : Bits} {l : List Bool} (h : HasBits b l) : b.path = l := by
  unfold Bits.path
  rw [h.size]
  exact (List.prefix_iff_eq_take.1 h.bits).symm

theorem HasBits.sized {b : Bits} {l : List Bool} (h : HasBits b l) : Sized b := ⟨by rw [h.size]; exact h.le, h.len⟩

/-! ### Lookups without fuel -/

variable {s : Store} {key : B32} {want : Bool}

/-- The lookup from a node. -/
def look (s : Store) (key : B32) (want : Bool) (n : Node) (d : Nat) : Res Bytes := treeGet s key want (room n d) n d

theorem treeGet_stable : ∀ (f f' : Nat) (n : Node) (d : Nat), Fit n → d ≤ 256 → room n d ≤ f → room n d ≤ f' →
    treeGet s key want f n d = treeGet s key want f' n d
  | 0, _, n, d, _, _, h, _ => by have := room_pos n d; omega
  | _, 0, n, d, _, _, _, h => by have := room_pos n d; omega
  | f + 1, f' + 1, n, d, hf, hd, hr, hr' => by
    cases n with
    | null => rfl
    | leaf h p k v vp => rfl
    | hash h p =>
      simp only [treeGet]
      rcases storeResolve_cases s h p with ⟨e', _⟩ | ⟨_, e' | ⟨n0, e', hfit, hl⟩⟩
      · rw [e']; rfl
      · rw [e']; rfl
      · rw [e']
        have := room_load (h := h) (p := p) (d := d) hl
        exact treeGet_stable f f' n0 d hfit hd (by omega) (by omega)
    | internal h p pre l r =>
      simp only [treeGet, bitsHas_ok hf.1.has key hd, Res.bind_ok]
      by_cases hp : pre.path <+: key.bits.drop d
      · rw [List.isPrefixOf_iff_prefix.2 hp]
        simp only [Bool.not_true, Bool.false_eq_true, if_false]
        obtain ⟨hle, hfull⟩ := full_length hf.1 hd hp
        by_cases hlt : d + pre.size < 256
        · obtain ⟨b, hb⟩ := bit_some (k := key) hlt
          rw [getBit_some hb, Res.bind_ok]
          have := room_down (n := .internal h p pre l r) (n' := side l r b) (d := d) (d' := d + pre.size + 1) rfl (by omega) (by omega)
          exact treeGet_stable f f' _ _ (fit_side hf b).1 (by omega) (by omega) (by omega)
        · rw [getBit_end key (by omega)]; rfl
      · have : pre.path.isPrefixOf (key.bits.drop d) = false := by
          rw [Bool.eq_false_iff]; intro hc; exact hp (List.isPrefixOf_iff_prefix.1 hc)
        rw [this]; rfl

theorem treeGet_look {f : Nat} {n : Node} {d : Nat} (hf : Fit n) (hd : d ≤ 256) (hr : room n d ≤ f) : treeGet s key want f n d = look s key want n d :=
  treeGet_stable _ _ n d hf hd hr (Nat.le_refl _)

theorem look_null (d : Nat) : look s key want .null d = .err .ENOTFOUND := by
  unfold look
  obtain ⟨f, hf⟩ : ∃ f, room .null d = f + 1 := ⟨room .null d - 1, by have := room_pos .null d; omega⟩
  rw [hf]; rfl

theorem look_leaf {h : Option B32} {p : Option Ptr} {k : B32} {v : Option Bytes} {vp : Option Ptr} (d : Nat) :
    look s key want (.leaf h p k v vp) d = treeGet s key want 1 (.leaf h p k v vp) 0 := by
  unfold look
  obtain ⟨f, hf⟩ : ∃ f, room (.leaf h p k v vp) d = f + 1 := ⟨room (.leaf h p k v vp) d - 1, by have := room_pos (.leaf h p k v vp) d; omega⟩
  rw [hf]; rfl

theorem look_other {h : Option B32} {p : Option Ptr} {k : B32} {v : Option Bytes} {vp : Option Ptr} (d : Nat) (hk : k ≠ key) :
    look s key want (.leaf h p k v vp) d = .err .ENOTFOUND := by
  rw [look_leaf, treeGet, if_pos hk]

theorem look_hash {h : B32} {p : Ptr} {d : Nat} {n : Node} (hd : d ≤ 256) (e : storeResolve s h p = .ok (some n)) :
    look s key want (.hash h p) d = look s key want n d := by
  unfold look
  obtain ⟨f, hf⟩ : ∃ f, room (.hash h p) d = f + 1 := ⟨room (.hash h p) d - 1, by have := room_pos (.hash h p) d; omega⟩
  rcases storeResolve_cases s h p with ⟨e', _⟩ | ⟨_, e' | ⟨n0, e', hfit, hl⟩⟩
  · rw [e'] at e; cases e
  · rw [e'] at e; cases e
  · rw [e'] at e; cases e
    have := room_load (h := h) (p := p) (d := d) hl
    rw [hf, treeGet, e']
    exact treeGet_look hfit hd (by omega)

theorem look_internal {h : Option B32} {p : Option Ptr} {pre : Bits} {l r : Node} {d : Nat} (hf : Fit (.internal h p pre l r)) (hd : d ≤ 256) :
    look s key want (.internal h p pre l r) d =
      if pre.path <+: key.bits.drop d then
        (match key.bits[d + pre.size]? with
          | some b => look s key want (side l r b) (d + pre.size + 1)
          | none => .ub)
      else .err .ENOTFOUND := by
  unfold look
  obtain ⟨f, hr⟩ : ∃ f, room (.internal h p pre l r) d = f + 1 :=
    ⟨room (.internal h p pre l r) d - 1, by have := room_pos (.internal h p pre l r) d; omega⟩
  rw [hr]
  simp only [treeGet, bitsHas_ok hf.1.has key hd, Res.bind_ok]
  by_cases hp : pre.path <+: key.bits.drop d
  · rw [List.isPrefixOf_iff_prefix.2 hp, if_pos hp]
    simp only [Bool.not_true, Bool.false_eq_true, if_false]
    obtain ⟨hle, hfull⟩ := full_length hf.1 hd hp
    by_cases hlt : d + pre.size < 256
    · obtain ⟨b, hb⟩ := bit_some (k := key) hlt
      rw [getBit_some hb, hb, Res.bind_ok]
      have := room_down (n := .internal h p pre l r) (n' := side l r b) (d := d) (d' := d + pre.size + 1) rfl (by omega) (by omega)
      exact treeGet_look (fit_side hf b).1 (by omega) (by omega)
    · rw [getBit_end key (by omega), List.getElem?_eq_none (by rw [key_length]; omega)]; rfl
  · have : pre.path.isPrefixOf (key.bits.drop d) = false := by
      rw [Bool.eq_false_iff]; intro hc; exact hp (List.isPrefixOf_iff_prefix.1 hc)
    rw [this, if_neg hp]; rfl

theorem look_create {pre : Bits} {x y : Node} {b : Bool} {d : Nat} (hf : Fit (createInternal pre x y b)) (hd : d ≤ 256) :
    look s key want (createInternal pre x y b) d =
      if pre.path <+: key.bits.drop d then
        (match key.bits[d + pre.size]? with
          | some c => if c = b then look s key want x (d + pre.size + 1) else look s key want y (d + pre.size + 1)
          | none => .ub)
      else .err .ENOTFOUND := by
  cases b
  · rw [show createInternal pre x y false = .internal none none pre x y from rfl] at hf ⊢
    rw [look_internal hf hd]
    cases key.bits[d + pre.size]? with
    | none => rfl
    | some c => cases c <;> simp [side]
  · rw [show createInternal pre x y true = .internal none none pre y x from rfl] at hf ⊢
    rw [look_internal hf hd]
    cases key.bits[d + pre.size]? with
    | none => rfl
    | some c => cases c <;> simp [side]

/-! ### Insertion -/

theorem prefix_split : ∀ (i : Nat) (p q : List Bool), i < p.length →
    (p <+: q ↔ p.take i <+: q ∧ q[i]? = p[i]? ∧ p.drop (i + 1) <+: q.drop (i + 1))
  | _, [], _, h => by simp at h
  | 0, a :: p, [], _ => by simp
  | 0, a :: p, b :: q, _ => by simp [List.cons_prefix_cons, eq_comm]
  | i + 1, a :: p, [], h => by simp
  | i + 1, a :: p, b :: q, h => by
    have := prefix_split i p q (by simpa using h)
    simp only [List.take_succ_cons, List.cons_prefix_cons, List.getElem?_cons_succ, List.drop_succ_cons]
    rw [this, and_assoc]

theorem lcp_take_prefix (l m : List Bool) : l.take (lcp l m) <+: m := by
  induction l generalizing m with
  | nil => simp
  | cons a l ih => cases m with
    | nil => simp
    | cons b m =>
      rw [lcp_cons]
      split
      · next h => subst h; rw [List.take_succ_cons, List.cons_prefix_cons]; exact ⟨rfl, ih m⟩
      · simp

theorem lcp_next {l m : List Bool} {a b : Bool} (ha : l[lcp l m]? = some a) (hb : m[lcp l m]? = some b) : a ≠ b := by
  induction l generalizing m with
  | nil => simp at ha
  | cons x l ih => cases m with
    | nil => simp at hb
    | cons y m =>
      rw [lcp_cons] at ha hb
      split at ha
      · next h =>
        subst h
        simp only [↓reduceIte, List.getElem?_cons_succ] at ha hb
        exact ih ha hb
      · next h =>
        rw [if_neg h] at hb
        simp at ha hb
        rw [← ha, ← hb]; exact h

theorem look_insert {E : Env} {v : Bytes} (hv : v.length ≤ 1023) : ∀ (f : Nat) (n : Node) (d : Nat) (n' : Node), Fit n → d ≤ 256 → room n d ≤ f →
    treeInsert E s key v f n d = .ok n' →
    look s key true n' d = .ok v ∧ ∀ (k' : B32) (want : Bool), k' ≠ key → look s k' want n' d = look s k' want n d := by
  have hself : ∀ d, look s key true (createLeaf E.H key v) d = .ok v := fun d => by
    unfold createLeaf
    rw [look_leaf, treeGet, if_neg (fun h => h rfl), if_pos rfl]
    have c : v.length ≤ valueSize := hv
    simp only [storeRetrieve, c, decide_true, check_true, Res.bind_ok, Res.pure_eq]
  have hother : ∀ (k' : B32) (want : Bool) (d : Nat), k' ≠ key → look s k' want (createLeaf E.H key v) d = .err .ENOTFOUND :=
    fun k' want d hk => look_other d (Ne.symm hk)
  intro f
  induction f with
  | zero => intro n d n' _ _ h; have := room_pos n d; omega
  | succ f ih =>
    intro n d n' hf hd hr e
    have hf' := ((treeInsert_outcome (E := E) (s := s) (key := key) hv (f + 1) n d hf hd hr).good e).1
    cases n with
    | null =>
      cases e
      exact ⟨hself d, fun k' want hk => by rw [hother k' want d hk, look_null]⟩
    | hash h p =>
      rw [treeInsert] at e
      rcases storeResolve_cases s h p with ⟨e', hl⟩ | ⟨hl, e' | ⟨n0, e', hfit, hn⟩⟩
      · rw [e'] at e; cases e
      · rw [e'] at e; cases e
      · rw [e', Res.bind_ok] at e
        have := room_load (h := h) (p := p) (d := d) hn
        obtain ⟨h1, h2⟩ := ih n0 d n' hfit hd (by omega) e
        exact ⟨h1, fun k' want hk => by rw [h2 k' want hk, look_hash hd e']⟩
    | leaf h p k v' vp =>
      rw [treeInsert] at e
      by_cases hk : k = key
      · rw [if_pos hk] at e
        split at e
        · cases e
        · cases e
          exact ⟨hself d, fun k' want hk' => by rw [hother k' want d hk', look_other d (by rw [hk]; exact Ne.symm hk')]⟩
      · rw [if_neg hk] at e
        obtain ⟨o, e1, hob⟩ := bitsCollide_ok (B32.isBits k) key (d := d) (by simpa using hd)
        rw [e1, Res.bind_ok] at e
        dsimp only at e
        have hpath := hob.has.path
        have hsize := hob.size
        have hle := lcp_le_left (k.bits.drop d) (key.bits.drop d)
        rw [List.length_take, Nat.min_eq_left hle] at hsize
        rw [List.length_drop, key_length] at hle
        by_cases hlt : d + o.size < 256
        · obtain ⟨b, hb⟩ := bit_some (k := key) hlt
          rw [getBit_some hb, Res.bind_ok] at e
          cases e
          have hkey : o.path <+: key.bits.drop d := by rw [hpath]; exact lcp_take_prefix _ _
          refine ⟨by rw [look_create hf' hd, if_pos hkey, hb]; dsimp only; rw [if_pos rfl, hself], fun k' want hk' => ?_⟩
          rw [look_create hf' hd]
          by_cases hkk : k = k'
          · subst hkk
            have h1 : o.path <+: k.bits.drop d := by rw [hpath]; exact List.take_prefix _ _
            obtain ⟨c, hc⟩ := bit_some (k := k) hlt
            have hcb : c ≠ b := by
              rw [hsize, ← List.getElem?_drop] at hb hc
              exact lcp_next hc hb
            rw [if_pos h1, hc]
            dsimp only
            rw [if_neg hcb, look_leaf, look_leaf]
          · rw [look_other d hkk]
            split
            · obtain ⟨c, hc⟩ := bit_some (k := k') hlt
              rw [hc]
              dsimp only
              split
              · exact hother _ _ _ hk'
              · exact look_other _ hkk
            · rfl
        · rw [getBit_end key (by omega)] at e; cases e
    | internal h p pre l r =>
      rw [treeInsert, bitsCount_ok hf.1.has key hd, Res.bind_ok] at e
      dsimp only at e
      have h1 := lcp_le_left pre.path (key.bits.drop d)
      have h2 := lcp_le_right pre.path (key.bits.drop d)
      have hsz := hf.1.length
      rw [List.length_drop, key_length] at h2
      by_cases hlt : d + lcp pre.path (key.bits.drop d) < 256
      · obtain ⟨b, hb⟩ := bit_some (k := key) hlt
        rw [getBit_some hb, Res.bind_ok] at e
        split at e
        · next hne =>
          obtain ⟨f1, k1, e1, s1, s2⟩ := bitsSplit_has hf.1.has (i := lcp pre.path (key.bits.drop d)) (by omega)
          rw [e1, Res.bind_ok] at e
          cases e
          have p1 := s1.has.path
          have p2 := s2.has.path
          have z1 := s1.size
          have z2 := s2.size
          rw [List.length_take, Nat.min_eq_left h1] at z1
          rw [List.length_drop] at z2
          obtain ⟨c, hc⟩ : ∃ c, pre.path[lcp pre.path (key.bits.drop d)]? = some c := ⟨_, List.getElem?_eq_getElem (by omega)⟩
          have hcb : c ≠ b := by
            refine lcp_next hc ?_
            rw [List.getElem?_drop]; exact hb
          have fch : Fit (createInternal k1 l r false) := fit_internal (b := false) s2.has.sized hf.2.2.2.1 hf.2.1 hf.2.2.2.2 hf.2.2.1
          have hkey : f1.path <+: key.bits.drop d := by rw [p1]; exact lcp_take_prefix _ _
          have hb' : key.bits[d + f1.size]? = some b := by rw [z1]; exact hb
          refine ⟨by rw [look_create hf' hd, if_pos hkey, hb']; dsimp only; rw [if_pos rfl, hself], fun k' want hk' => ?_⟩
          have ps := prefix_split (lcp pre.path (key.bits.drop d)) pre.path (k'.bits.drop d) (by omega)
          rw [hc, List.getElem?_drop, List.drop_drop] at ps
          obtain ⟨c', hc'⟩ := bit_some (k := k') hlt
          rw [hc'] at ps
          rw [look_create hf' hd, look_internal hf hd]
          by_cases hfr : f1.path <+: k'.bits.drop d
          · rw [if_pos hfr, z1, hc']
            dsimp only
            by_cases hcc : c' = b
            · rw [if_pos hcc, hother _ _ _ hk', if_neg]
              intro hh
              have := (ps.1 hh).2.1
              cases this
              exact hcb hcc
            · have hcc' : c' = c := by cases c' <;> cases c <;> cases b <;> simp_all
              have hd1 : d + lcp pre.path (key.bits.drop d) + 1 ≤ 256 := by omega
              rw [if_neg hcc, look_create fch hd1]
              have hiff : k1.path <+: k'.bits.drop (d + lcp pre.path (key.bits.drop d) + 1) ↔ pre.path <+: k'.bits.drop d := by
                rw [ps, p2]
                exact ⟨fun h => ⟨p1 ▸ hfr, by rw [hcc'], h⟩, fun h => h.2.2⟩
              have hz : d + lcp pre.path (key.bits.drop d) + 1 + k1.size = d + pre.size := by omega
              rw [hz]
              by_cases hpp : pre.path <+: k'.bits.drop d
              · rw [if_pos hpp, if_pos (hiff.2 hpp)]
                cases k'.bits[d + pre.size]? with
                | none => rfl
                | some b' => cases b' <;> simp [side]
              · rw [if_neg hpp, if_neg (fun h => hpp (hiff.1 h))]
          · rw [if_neg hfr, if_neg]
            intro hh
            exact hfr (p1 ▸ (ps.1 hh).1)
        · next heq =>
          have heq : lcp pre.path (key.bits.drop d) = pre.size := by simpa using heq
          have hp : pre.path <+: key.bits.drop d := lcp_eq_left_iff.1 (by omega)
          rw [heq] at hb hlt e
          obtain ⟨z, e1, e⟩ := Res.bind_eq_ok.1 e
          cases e
          have := room_down (n := .internal h p pre l r) (n' := side l r b) (d := d) (d' := d + pre.size + 1) rfl (by omega) (by omega)
          obtain ⟨i1, i2⟩ := ih (side l r b) (d + pre.size + 1) z (fit_side hf b).1 (by omega) (by omega) e1
          refine ⟨by rw [look_create hf' hd, if_pos hp, hb]; dsimp only; rw [if_pos rfl, i1], fun k' want hk' => ?_⟩
          rw [look_create hf' hd, look_internal hf hd]
          split
          · cases k'.bits[d + pre.size]? with
            | none => rfl
            | some c =>
              dsimp only
              by_cases hcb : c = b
              · rw [if_pos hcb, i2 k' want hk', hcb]
              · rw [if_neg hcb]
                have : (!b) = c := by cases b <;> cases c <;> simp_all
                rw [this]
          · rfl
      · rw [getBit_end key (by omega)] at e; cases e

/-! ### Removal -/

theorem Bits.Clean.isBits {b : Bits} (hc : b.Clean) (hs : Sized b) : IsBits b b.path := by
  have hl := hs.length
  have h1 := hs.le
  have h2 := hs.len
  have hlen : (bitsOf b.data).length = 256 := by simp [h2]
  refine ⟨hl.symm, by omega, h2, ?_⟩
  refine List.ext_getElem? fun i => ?_
  by_cases hi : i < b.size
  · rw [List.getElem?_append_left (by omega)]
    unfold Bits.path
    rw [List.getElem?_take, if_pos hi]
  · by_cases hi2 : i < 256
    · rw [hc i (by omega) hi2, List.getElem?_append_right (by omega), List.getElem?_replicate, if_pos (by omega)]
    · rw [List.getElem?_eq_none (by omega), List.getElem?_eq_none (by simp; omega)]

theorem bitsJoin_has {a b : Bits} {l m : List Bool} (ha : IsBits a l) (hb : HasBits b m) (v : Bool)
    (h : l.length + m.length + 1 ≤ 256) :
    ∃ o, bitsJoin a b v = .ok o ∧ IsBits o (l ++ v :: m) := by
  have hsa := ha.size; have hsb := hb.size
  simp only [bitsJoin, bitsInit_ok (show a.size + b.size + 1 ≤ 256 by omega), Res.bind_ok]
  have hlen : (a.data.take ((a.size + 7) / 8) ++ (List.replicate 32 (0:UInt8)).drop ((a.size + 7) / 8)).length = 32 := by
    simp [ha.len]; omega
  have hbits : bitsOf (a.data.take ((a.size + 7) / 8) ++ (List.replicate 32 (0:UInt8)).drop ((a.size + 7) / 8))
      = l ++ List.replicate (256 - l.length) false := by
    rw [bitsOf_append, bitsOf_take, ha.bits, List.drop_replicate, bitsOf_zeros,
      take_append_zeros _ (by omega) (by omega), List.append_assoc, List.replicate_append_replicate]
    congr 2; omega
  obtain ⟨o1, h1, h2, h3, h4⟩ := bitsSet_ok (o := ⟨a.size + b.size + 1, _⟩) v hlen (by omega) rfl hbits
  rw [hsa] at h1 ⊢
  rw [h1]
  simp only [Res.bind_ok]
  obtain ⟨o', g1, g2, g3, g4⟩ := bitsCopyLoop_has hb m.length 0 o1 (l ++ [v]) (by omega)
    (by simp; omega) h3 (by simpa [Nat.sub_sub] using h4)
  refine ⟨o', by simpa [hsb] using g1, ?_, by simp; omega, g3, ?_⟩
  · rw [g2, h2]; simp; omega
  · rw [g4]
    simp
    omega

theorem look_atLeaf {n : Node} {d : Nat} (hd : d ≤ 256) (ha : AtLeaf s key n d) {k' : B32} {want : Bool} (hk : k' ≠ key) :
    look s k' want n d = .err .ENOTFOUND := by
  rcases atLeaf_cases ha with ⟨h, p, v, vp, rfl⟩ | ⟨h, p, rfl, h', p', v, vp, e⟩
  · exact look_other d (Ne.symm hk)
  · rw [look_hash hd e, look_other d (Ne.symm hk)]

theorem lastBranch_down {h : Option B32} {p : Option Ptr} {pre : Bits} {l r : Node} {d : Nat} {b : Bool} {pre' : Bits} {y : Node} {d' : Nat}
    (h1 : pre.path <+: key.bits.drop d) (h2 : key.bits[d + pre.size]? = some b) (hl : LastBranch s key (side l r b) (d + pre.size + 1) pre' y d') :
    LastBranch s key (.internal h p pre l r) d pre' y d' := by
  obtain ⟨h', p', l', r', d0, b', w, rest⟩ := hl
  exact ⟨h', p', l', r', d0, b', .down h1 h2 w, rest⟩

theorem lastBranch_load {h : B32} {p : Ptr} {n : Node} {d : Nat} {pre' : Bits} {y : Node} {d' : Nat}
    (e : storeResolve s h p = .ok (some n)) (hl : LastBranch s key n d pre' y d') : LastBranch s key (.hash h p) d pre' y d' := by
  obtain ⟨h', p', l', r', d0, b', w, rest⟩ := hl
  exact ⟨h', p', l', r', d0, b', .load e w, rest⟩

/-- What the other side of the last branch becomes. -/
theorem look_join {pre : Bits} {y n' : Node} {b : Bool} {d : Nat} (hp : Sized pre) (hc : pre.Clean) (hfy : Fit y) (hy : y ≠ .null)
    (hd : d + pre.size < 256) (e : removeJoin s pre y b = .ok n') (k' : B32) (want : Bool) :
    look s k' want n' d = (if pre.path <+: k'.bits.drop d ∧ k'.bits[d + pre.size]? = some (!b) then look s k' want y (d + pre.size + 1) else .err .ENOTFOUND) ∨
      ∃ h p v vp, Way s k' y (d + pre.size + 1) (.leaf h p k' v vp) (d + pre.size + 1) := by
  -- loading the other side
  have key : ∀ sd, Fit sd → sd ≠ .null → removeSide pre sd b = .ok n' → (∀ h p, sd ≠ .hash h p) →
      look s k' want n' d = (if pre.path <+: k'.bits.drop d ∧ k'.bits[d + pre.size]? = some (!b) then look s k' want sd (d + pre.size + 1) else .err .ENOTFOUND) ∨
      ∃ h p v vp, sd = .leaf h p k' v vp := fun sd hfs hsd e hh => by
    cases sd with
    | null => exact absurd rfl hsd
    | hash h p => exact absurd rfl (hh h p)
    | leaf h p k v vp =>
      cases e
      by_cases hk : k = k'
      · exact .inr ⟨h, p, v, vp, by rw [hk]⟩
      · left
        rw [look_other d hk, look_other _ hk]
        split <;> rfl
    | internal h p spre sl sr =>
      left
      obtain ⟨j, e1, e⟩ := Res.bind_eq_ok.1 e
      cases e
      have hle : pre.size + 1 + spre.size ≤ 256 := by
        rcases bitsJoin_cases hp hfs.1 (!b) with ⟨_, e2⟩ | ⟨h, _⟩
        · rw [e2] at e1; cases e1
        · exact h
      have l1 := hp.length
      have l2 := hfs.1.length
      obtain ⟨o, e2, hj⟩ := bitsJoin_has (hc.isBits hp) hfs.1.has (!b) (by omega)
      rw [e2] at e1
      cases e1
      have hjp := hj.has.path
      have hjs := hj.size
      rw [List.length_append, List.length_cons] at hjs
      have fj : Fit (createInternal j sl sr false) := fit_internal (b := false) hj.has.sized hfs.2.2.2.1 hfs.2.1 hfs.2.2.2.2 hfs.2.2.1
      have ps := prefix_split pre.size (pre.path ++ (!b) :: spre.path) (k'.bits.drop d) (by simp; omega)
      rw [← l1, List.take_left, List.getElem?_append_right (by omega), Nat.sub_self, List.getElem?_cons_zero, List.drop_drop,
        List.getElem?_drop, show List.drop (pre.path.length + 1) (pre.path ++ (!b) :: spre.path) = spre.path from by
          rw [List.drop_append]; simp] at ps
      rw [look_create fj (by omega), hjp]
      by_cases hc1 : pre.path <+: k'.bits.drop d ∧ k'.bits[d + pre.size]? = some (!b)
      · rw [if_pos hc1, look_internal hfs (by omega)]
        have hiff : pre.path ++ (!b) :: spre.path <+: k'.bits.drop d ↔ spre.path <+: k'.bits.drop (d + pre.size + 1) := by
          rw [ps, l1]
          exact ⟨fun h => by rw [Nat.add_assoc]; exact h.2.2, fun h => ⟨hc1.1, hc1.2, by rw [← Nat.add_assoc]; exact h⟩⟩
        have hz : d + j.size = d + pre.size + 1 + spre.size := by omega
        rw [hz]
        by_cases hq : spre.path <+: k'.bits.drop (d + pre.size + 1)
        · rw [if_pos hq, if_pos (hiff.2 hq)]
          cases k'.bits[d + pre.size + 1 + spre.size]? with
          | none => rfl
          | some c => cases c <;> simp [side]
        · rw [if_neg hq, if_neg (fun h => hq (hiff.1 h))]
      · rw [if_neg hc1, if_neg]
        intro h
        have := ps.1 h
        rw [l1] at this
        exact hc1 ⟨this.1, this.2.1⟩
  cases y with
  | hash h p =>
    unfold removeJoin at e
    dsimp only at e
    rcases storeResolve_cases s h p with ⟨e', hl⟩ | ⟨hl, e' | ⟨n0, e', hfit, hn⟩⟩
    · rw [e'] at e; cases e
    · rw [e'] at e; cases e
    · rw [e', Res.bind_ok] at e
      rw [look_hash (by omega) e']
      refine (key n0 hfit (by rintro rfl; exact hn.elim) e (by rintro h p rfl; exact hn.elim)).imp id ?_
      rintro ⟨h1, p1, v1, vp1, rfl⟩
      exact ⟨h1, p1, v1, vp1, .load e' (.here _ _)⟩
  | null => exact absurd rfl hy
  | leaf h p k v vp =>
    refine (key _ hfy hy e (fun _ _ => (nomatch ·))).imp id ?_
    rintro ⟨h1, p1, v1, vp1, e⟩
    exact ⟨h1, p1, v1, vp1, by rw [e]; exact .here _ _⟩
  | internal h p spre l r =>
    refine (key _ hfy hy e (fun _ _ => (nomatch ·))).imp id ?_
    rintro ⟨h1, p1, v1, vp1, e⟩
    cases e

theorem look_remove : ∀ (f : Nat) (n : Node) (d : Nat) (n' : Node), Fit n → d ≤ 256 → room n d ≤ f →
    (∀ pre y d', LastBranch s key n d pre y d' → pre.Clean) → treeRemove s key f n d = .ok n' →
    ∀ (k' : B32) (want : Bool), look s k' want n' d = (if k' = key then .err .ENOTFOUND else look s k' want n d) ∨
      ((k' = key ∨ look s k' want n d = .err .ENOTFOUND) ∨ look s k' want n' d = look s k' want n d) ∧ Neighbour s key n d k' := by
  intro f
  induction f with
  | zero => intro n d n' _ _ h; have := room_pos n d; omega
  | succ f ih =>
    intro n d n' hf hd hr hcl e k' want
    have out := (treeRemove_outcome (s := s) (key := key) (f + 1) n d hf hd hr).good e
    cases n with
    | null => cases e
    | hash h p =>
      rw [treeRemove] at e
      rcases storeResolve_cases s h p with ⟨e', hl⟩ | ⟨hl, e' | ⟨n0, e', hfit, hn⟩⟩
      · rw [e'] at e; cases e
      · rw [e'] at e; cases e
      · rw [e', Res.bind_ok] at e
        have := room_load (h := h) (p := p) (d := d) hn
        have := ih n0 d n' hfit hd (by omega) (fun pre y d' hl => hcl pre y d' (lastBranch_load e' hl)) e k' want
        rw [look_hash hd e']
        refine this.imp id fun ⟨h1, pre, y, d', hl, hw⟩ => ⟨h1, pre, y, d', lastBranch_load e' hl, hw⟩
    | leaf h p k v vp =>
      rw [treeRemove] at e
      split at e
      · cases e
      · next hk =>
        have hk : k = key := by simpa using hk
        subst hk
        cases e
        left
        rw [look_null]
        split
        · rfl
        · next hk' => exact (look_other d (Ne.symm hk')).symm
    | internal h p pre l r =>
      rw [treeRemove, bitsHas_ok hf.1.has key hd, Res.bind_ok] at e
      by_cases hp : pre.path <+: key.bits.drop d
      · rw [List.isPrefixOf_iff_prefix.2 hp] at e
        simp only [Bool.not_true, Bool.false_eq_true, if_false] at e
        by_cases hlt : d + pre.size < 256
        · obtain ⟨b, hb⟩ := bit_some (k := key) hlt
          rw [getBit_some hb, Res.bind_ok] at e
          obtain ⟨z, e1, e⟩ := Res.bind_eq_ok.1 e
          have := room_down (n := .internal h p pre l r) (n' := side l r b) (d := d) (d' := d + pre.size + 1) rfl (by omega) (by omega)
          have oz := (treeRemove_outcome (s := s) (key := key) f (side l r b) (d + pre.size + 1) (fit_side hf b).1 (by omega) (by omega)).good e1
          have hfk : Fit (.internal h p pre l r) := hf
          by_cases hz : z = .null
          · subst hz
            have hat : AtLeaf s key (side l r b) (d + pre.size + 1) := by
              by_contra hn; exact oz.2 hn rfl
            have hlast : LastBranch s key (.internal h p pre l r) d pre (side l r (!b)) (d + pre.size + 1) :=
              ⟨h, p, l, r, d, b, .here _ _, hp, hb, rfl, (other_side l r b).symm, hat⟩
            have e : removeJoin s pre (side l r (!b)) b = .ok n' := e
            have hj := look_join hf.1 (hcl _ _ _ hlast) (fit_side hf (!b)).1 (fit_side hf (!b)).2 hlt e k' want
            have hold : k' ≠ key → look s k' want (.internal h p pre l r) d =
                if pre.path <+: k'.bits.drop d ∧ k'.bits[d + pre.size]? = some (!b) then look s k' want (side l r (!b)) (d + pre.size + 1) else .err .ENOTFOUND := fun hk => by
              rw [look_internal hf hd]
              obtain ⟨c, hc⟩ := bit_some (k := k') hlt
              rw [hc]
              by_cases hpp : pre.path <+: k'.bits.drop d
              · rw [if_pos hpp]
                dsimp only
                by_cases hcb : c = b
                · subst hcb
                  rw [look_atLeaf (by omega) hat hk, if_neg]
                  rintro ⟨_, h⟩
                  cases c <;> cases h
                · have : c = !b := by cases c <;> cases b <;> simp_all
                  subst this
                  rw [if_pos ⟨hpp, rfl⟩]
              · rw [if_neg hpp, if_neg (fun h => hpp h.1)]
            rcases hj with hj | hw
            · left
              by_cases hk : k' = key
              · subst hk
                rw [if_pos rfl, hj, if_neg]
                rintro ⟨_, h⟩
                rw [hb] at h
                cases b <;> cases h
              · rw [if_neg hk, hj, hold hk]
            · right
              refine ⟨?_, pre, _, _, hlast, hw⟩
              by_cases hk : k' = key
              · exact .inl (.inl hk)
              · rw [hold hk]
                split
                · next hc =>
                  right
                  -- the leaf is on the way of its key
                  obtain ⟨h1, p1, v1, vp1, w⟩ := hw
                  have hal : AtLeaf s k' (side l r (!b)) (d + pre.size + 1) := ⟨h1, p1, v1, vp1, w⟩
                  rcases atLeaf_cases hal with ⟨h2, p2, v2, vp2, e2⟩ | ⟨h2, p2, e2, h3, p3, v3, vp3, e3⟩
                  · rw [e2] at e ⊢
                    cases e
                    rw [look_leaf, look_leaf]
                  · rw [e2] at e ⊢
                    unfold removeJoin at e
                    dsimp only at e
                    rw [e3, Res.bind_ok] at e
                    cases e
                    rw [look_hash (by omega) e3, look_leaf, look_leaf]
                · exact .inl (.inr rfl)
          · have e : n' = createInternal pre z (side l r (!b)) b := by
              cases z with
              | null => exact absurd rfl hz
              | _ => cases e; rfl
            subst e
            have hg := fit_internal (b := b) hf.1 oz.1 hz (fit_side hf (!b)).1 (fit_side hf (!b)).2
            have i := ih (side l r b) (d + pre.size + 1) z (fit_side hf b).1 (by omega) (by omega)
              (fun pre' y d' hl => hcl pre' y d' (lastBranch_down hp hb hl)) e1 k' want
            rw [look_create hg hd, look_internal hf hd]
            by_cases hpp : pre.path <+: k'.bits.drop d
            · rw [if_pos hpp, if_pos hpp]
              obtain ⟨c, hc⟩ := bit_some (k := k') hlt
              rw [hc]
              dsimp only
              by_cases hcb : c = b
              · subst hcb
                rw [if_pos rfl]
                exact i.imp id fun ⟨h1, pre', y, d', hl, hw⟩ => ⟨h1, pre', y, d', lastBranch_down hp hb hl, hw⟩
              · left
                have hk : k' ≠ key := by rintro rfl; rw [hb] at hc; cases hc; exact hcb rfl
                rw [if_neg hcb, if_neg hk]
                have : (!b) = c := by cases b <;> cases c <;> simp_all
                rw [this]
            · left
              rw [if_neg hpp, if_neg hpp]
              split <;> rfl
        · obtain ⟨hle, hfull⟩ := full_length hf.1 hd hp
          rw [getBit_end key (by omega)] at e; cases e
      · have : pre.path.isPrefixOf (key.bits.drop d) = false := by
          rw [Bool.eq_false_iff]; intro hc; exact hp (List.isPrefixOf_iff_prefix.1 hc)
        rw [this] at e
        cases e

/-! ### Where the way of a key ends -/

/-- The way of the key goes no further. -/
inductive Stop (s : Store) (key : B32) : Node → Nat → Prop
  | null (d : Nat) : Stop s key .null d
  | leaf (h : Option B32) (p : Option Ptr) (k : B32) (v : Option Bytes) (vp : Option Ptr) (d : Nat) : Stop s key (.leaf h p k v vp) d
  | lost {h : B32} {p : Ptr} (d : Nat) : storeResolve s h p = .ok none → Stop s key (.hash h p) d
  | long {h : B32} {p : Ptr} (d : Nat) : storeResolve s h p = .abort → Stop s key (.hash h p) d
  | parts {h : Option B32} {p : Option Ptr} {pre : Bits} {l r : Node} {d : Nat} : ¬ pre.path <+: key.bits.drop d → Stop s key (.internal h p pre l r) d
  | full {h : Option B32} {p : Option Ptr} {pre : Bits} {l r : Node} {d : Nat} : pre.path <+: key.bits.drop d → d + pre.size = 256 → Stop s key (.internal h p pre l r) d

theorem way_stop : ∀ (f : Nat) (n : Node) (d : Nat), Fit n → d ≤ 256 → room n d ≤ f → ∃ n' d', Way s key n d n' d' ∧ Stop s key n' d' := by
  intro f
  induction f with
  | zero => intro n d _ _ h; have := room_pos n d; omega
  | succ f ih =>
    intro n d hf hd hr
    cases n with
    | null => exact ⟨_, _, .here _ _, .null d⟩
    | leaf h p k v vp => exact ⟨_, _, .here _ _, .leaf h p k v vp d⟩
    | hash h p =>
      rcases storeResolve_cases s h p with ⟨e', hl⟩ | ⟨hl, e' | ⟨n0, e', hfit, hn⟩⟩
      · exact ⟨_, _, .here _ _, .long d e'⟩
      · exact ⟨_, _, .here _ _, .lost d e'⟩
      · have := room_load (h := h) (p := p) (d := d) hn
        obtain ⟨n', d', w, st⟩ := ih n0 d hfit hd (by omega)
        exact ⟨n', d', .load e' w, st⟩
    | internal h p pre l r =>
      by_cases hp : pre.path <+: key.bits.drop d
      · obtain ⟨hle, hfull⟩ := full_length hf.1 hd hp
        by_cases hlt : d + pre.size < 256
        · obtain ⟨b, hb⟩ := bit_some (k := key) hlt
          have := room_down (n := .internal h p pre l r) (n' := side l r b) (d := d) (d' := d + pre.size + 1) rfl (by omega) (by omega)
          obtain ⟨n', d', w, st⟩ := ih (side l r b) (d + pre.size + 1) (fit_side hf b).1 (by omega) (by omega)
          exact ⟨n', d', .down hp hb w, st⟩
        · exact ⟨_, _, .here _ _, .full hp (by omega)⟩
      · exact ⟨_, _, .here _ _, .parts hp⟩

theorem look_way {n n' : Node} {d d' : Nat} (w : Way s key n d n' d') (hf : Fit n) (hd : d ≤ 256) : look s key want n d = look s key want n' d' := by
  obtain ⟨f, h1, h2⟩ := treeGet_way (want := want) w hf hd (Nat.le_refl _)
  obtain ⟨hf', hd'⟩ := w.fit hf hd
  rw [look, h2, treeGet_look hf' hd' h1]

theorem look_lost {h : B32} {p : Ptr} (d : Nat) (e : storeResolve s h p = .ok none) : look s key want (.hash h p) d = .err .ECORRUPTION := by
  unfold look
  obtain ⟨f, hf⟩ : ∃ f, room (.hash h p) d = f + 1 := ⟨room (.hash h p) d - 1, by have := room_pos (.hash h p) d; omega⟩
  rw [hf, treeGet, e]; rfl

theorem look_long {h : B32} {p : Ptr} (d : Nat) (e : storeResolve s h p = .abort) : look s key want (.hash h p) d = .abort := by
  unfold look
  obtain ⟨f, hf⟩ : ∃ f, room (.hash h p) d = f + 1 := ⟨room (.hash h p) d - 1, by have := room_pos (.hash h p) d; omega⟩
  rw [hf, treeGet, e]; rfl

theorem look_parts {h : Option B32} {p : Option Ptr} {pre : Bits} {l r : Node} {d : Nat} (hf : Fit (.internal h p pre l r)) (hd : d ≤ 256)
    (hp : ¬ pre.path <+: key.bits.drop d) : look s key want (.internal h p pre l r) d = .err .ENOTFOUND := by
  rw [look_internal hf hd, if_neg hp]

theorem look_full {h : Option B32} {p : Option Ptr} {pre : Bits} {l r : Node} {d : Nat} (hf : Fit (.internal h p pre l r)) (hd : d ≤ 256)
    (hp : pre.path <+: key.bits.drop d) (h256 : d + pre.size = 256) : look s key want (.internal h p pre l r) d = .ub := by
  rw [look_internal hf hd, if_pos hp, List.getElem?_eq_none (by rw [key_length]; omega)]

theorem retrieve_is {v : Option Bytes} {vp : Option Ptr} (h : (∃ x, v = some x ∧ x.length ≤ 1023) ∨ (v = none ∧ vp.isSome = true)) :
    (∃ x, storeRetrieve s v vp = .ok (some x) ∧ ValueIs s v vp x ∧ ∀ y, ValueIs s v vp y → y = x) ∨
      (storeRetrieve s v vp = .ok none ∧ ∀ x, ¬ ValueIs s v vp x) := by
  rcases h with ⟨x, rfl, hx⟩ | ⟨rfl, hv⟩
  · left
    have c : x.length ≤ valueSize := hx
    refine ⟨x, by simp only [storeRetrieve, c, decide_true, check_true, Res.bind_ok, Res.pure_eq], .inl rfl, ?_⟩
    rintro y (e | ⟨e, _⟩) <;> cases e; rfl
  · obtain ⟨p, rfl⟩ := Option.isSome_iff_exists.1 hv
    by_cases c : p.size > valueSize
    · right
      refine ⟨by simp only [storeRetrieve, if_pos c], ?_⟩
      rintro x (e | ⟨_, q, e, h, _⟩)
      · cases e
      · cases e; unfold valueSize at c; omega
    · have e : storeRetrieve s none (some p) = .ok (storeRead s p.size p.index p.pos) := by
        simp only [storeRetrieve, if_neg c, storeReadInto_ok c]
      unfold valueSize at c
      cases hr : storeRead s p.size p.index p.pos with
      | none =>
        right
        refine ⟨by rw [e, hr], ?_⟩
        rintro x (e | ⟨_, q, e, _, h⟩)
        · cases e
        · cases e; rw [hr] at h; cases h
      | some x =>
        left
        refine ⟨x, by rw [e, hr], .inr ⟨rfl, p, rfl, by omega, hr⟩, ?_⟩
        rintro y (e | ⟨_, q, e, _, h⟩)
        · cases e
        · cases e; rw [hr] at h; cases h; rfl

theorem look_self {h : Option B32} {p : Option Ptr} {v : Option Bytes} {vp : Option Ptr} (d : Nat) :
    look s key true (.leaf h p key v vp) d = (storeRetrieve s v vp >>= fun r => match r with | none => .err .ECORRUPTION | some x => pure x) := by
  rw [look_leaf, treeGet, if_neg (fun h => h rfl), if_pos rfl]
  rfl

theorem look_self_has {h : Option B32} {p : Option Ptr} {v : Option Bytes} {vp : Option Ptr} (d : Nat) : look s key false (.leaf h p key v vp) d = .ok [] := by
  rw [look_leaf, treeGet, if_neg (fun h => h rfl), if_neg (by simp)]
  rfl

/-- All answers of a lookup with value. -/
theorem look_get {n : Node} (hf : Fit n) :
    (∀ x, look s key true n 0 = .ok x ↔ Finds s key n x) ∧ (look s key true n 0 = .err .ECORRUPTION ↔ Lost s key n ∨ LostValue s key n) ∧
      (look s key true n 0 = .err .ENOTFOUND ↔ Ends s key n) ∧ ∀ e, look s key true n 0 = .err e → e = .ECORRUPTION ∨ e = .ENOTFOUND := by
  have w1 : ∀ x, Finds s key n x → look s key true n 0 = .ok x := by
    rintro x ⟨h, p, v, vp, d, w, hx⟩
    rw [look_way w hf (by omega), look_self]
    rcases retrieve_is (s := s) (w.fit hf (by omega)).1.2 with ⟨y, e, _, hy⟩ | ⟨_, hn⟩
    · rw [e, hy x hx]; rfl
    · exact absurd hx (hn x)
  have w2 : Lost s key n ∨ LostValue s key n → look s key true n 0 = .err .ECORRUPTION := by
    rintro (⟨h, p, d, w, e⟩ | ⟨h, p, v, vp, d, w, hn⟩)
    · rw [look_way w hf (by omega), look_lost d e]
    · rw [look_way w hf (by omega), look_self]
      rcases retrieve_is (s := s) (w.fit hf (by omega)).1.2 with ⟨y, e, h1, _⟩ | ⟨e, _⟩
      · exact absurd h1 (hn y)
      · rw [e]; rfl
  have w3 : Ends s key n → look s key true n 0 = .err .ENOTFOUND := by
    rintro ⟨d, w | ⟨h, p, k, v, vp, hk, w⟩ | ⟨h, p, pre, l, r, hp, w⟩⟩
    · rw [look_way w hf (by omega), look_null]
    · rw [look_way w hf (by omega), look_other d hk]
    · obtain ⟨hf', hd'⟩ := w.fit hf (by omega)
      rw [look_way w hf (by omega), look_parts hf' hd' hp]
  have all : (∃ x, Finds s key n x) ∨ (Lost s key n ∨ LostValue s key n) ∨ Ends s key n ∨ look s key true n 0 = .abort ∨ look s key true n 0 = .ub := by
    obtain ⟨n', d', w, st⟩ := way_stop (s := s) (key := key) _ n 0 hf (by omega) (Nat.le_refl _)
    obtain ⟨hf', hd'⟩ := w.fit hf (by omega)
    cases st with
    | null d => exact .inr (.inr (.inl ⟨_, .inl w⟩))
    | leaf h p k v vp d =>
      by_cases hk : k = key
      · subst hk
        rcases retrieve_is (s := s) hf'.2 with ⟨y, _, hy, _⟩ | ⟨_, hn⟩
        · exact .inl ⟨y, _, _, _, _, _, w, hy⟩
        · exact .inr (.inl (.inr ⟨_, _, _, _, _, w, hn⟩))
      · exact .inr (.inr (.inl ⟨_, .inr (.inl ⟨_, _, _, _, _, hk, w⟩)⟩))
    | lost d e => exact .inr (.inl (.inl ⟨_, _, _, w, e⟩))
    | long d e => exact .inr (.inr (.inr (.inl (by rw [look_way w hf (by omega), look_long _ e]))))
    | parts hp => exact .inr (.inr (.inl ⟨_, .inr (.inr ⟨_, _, _, _, _, hp, w⟩)⟩))
    | full hp h256 => exact .inr (.inr (.inr (.inr (by rw [look_way w hf (by omega), look_full hf' hd' hp h256]))))
  refine ⟨fun x => ⟨fun e => ?_, w1 x⟩, ⟨fun e => ?_, w2⟩, ⟨fun e => ?_, w3⟩, fun er e => ?_⟩
  · rcases all with ⟨y, h⟩ | h | h | h | h
    · have := w1 y h; rw [e] at this; cases this; exact h
    · have := w2 h; rw [e] at this; cases this
    · have := w3 h; rw [e] at this; cases this
    · rw [e] at h; cases h
    · rw [e] at h; cases h
  · rcases all with ⟨y, h⟩ | h | h | h | h
    · have := w1 y h; rw [e] at this; cases this
    · exact h
    · have := w3 h; rw [e] at this; cases this
    · rw [e] at h; cases h
    · rw [e] at h; cases h
  · rcases all with ⟨y, h⟩ | h | h | h | h
    · have := w1 y h; rw [e] at this; cases this
    · have := w2 h; rw [e] at this; cases this
    · exact h
    · rw [e] at h; cases h
    · rw [e] at h; cases h
  · rcases all with ⟨y, h⟩ | h | h | h | h
    · have := w1 y h; rw [e] at this; cases this
    · have := w2 h; rw [e] at this; cases this; exact .inl rfl
    · have := w3 h; rw [e] at this; cases this; exact .inr rfl
    · rw [e] at h; cases h
    · rw [e] at h; cases h

/-- All answers of a lookup without value. -/
theorem look_has {n : Node} (hf : Fit n) :
    (∀ x, look s key false n 0 = .ok x ↔ x = [] ∧ FindsKey s key n) ∧ (look s key false n 0 = .err .ECORRUPTION ↔ Lost s key n) ∧
      (look s key false n 0 = .err .ENOTFOUND ↔ Ends s key n) ∧ ∀ e, look s key false n 0 = .err e → e = .ECORRUPTION ∨ e = .ENOTFOUND := by
  have w1 : FindsKey s key n → look s key false n 0 = .ok [] := by
    rintro ⟨h, p, v, vp, d, w⟩
    rw [look_way w hf (by omega), look_self_has]
  have w2 : Lost s key n → look s key false n 0 = .err .ECORRUPTION := by
    rintro ⟨h, p, d, w, e⟩
    rw [look_way w hf (by omega), look_lost d e]
  have w3 : Ends s key n → look s key false n 0 = .err .ENOTFOUND := by
    rintro ⟨d, w | ⟨h, p, k, v, vp, hk, w⟩ | ⟨h, p, pre, l, r, hp, w⟩⟩
    · rw [look_way w hf (by omega), look_null]
    · rw [look_way w hf (by omega), look_other d hk]
    · obtain ⟨hf', hd'⟩ := w.fit hf (by omega)
      rw [look_way w hf (by omega), look_parts hf' hd' hp]
  have all : FindsKey s key n ∨ Lost s key n ∨ Ends s key n ∨ look s key false n 0 = .abort ∨ look s key false n 0 = .ub := by
    obtain ⟨n', d', w, st⟩ := way_stop (s := s) (key := key) _ n 0 hf (by omega) (Nat.le_refl _)
    obtain ⟨hf', hd'⟩ := w.fit hf (by omega)
    cases st with
    | null d => exact .inr (.inr (.inl ⟨_, .inl w⟩))
    | leaf h p k v vp d =>
      by_cases hk : k = key
      · subst hk
        exact .inl ⟨_, _, _, _, _, w⟩
      · exact .inr (.inr (.inl ⟨_, .inr (.inl ⟨_, _, _, _, _, hk, w⟩)⟩))
    | lost d e => exact .inr (.inl ⟨_, _, _, w, e⟩)
    | long d e => exact .inr (.inr (.inr (.inl (by rw [look_way w hf (by omega), look_long _ e]))))
    | parts hp => exact .inr (.inr (.inl ⟨_, .inr (.inr ⟨_, _, _, _, _, hp, w⟩)⟩))
    | full hp h256 => exact .inr (.inr (.inr (.inr (by rw [look_way w hf (by omega), look_full hf' hd' hp h256]))))
  refine ⟨fun x => ⟨fun e => ?_, fun h => by rw [h.1]; exact w1 h.2⟩, ⟨fun e => ?_, w2⟩, ⟨fun e => ?_, w3⟩, fun er e => ?_⟩
  all_goals
    rcases all with h | h | h | h | h
    · have := w1 h; rw [e] at this; cases this; try exact ⟨rfl, h⟩
    · have := w2 h; rw [e] at this; cases this; try first | exact h | exact .inl rfl
    · have := w3 h; rw [e] at this; cases this; try first | exact h | exact .inr rfl
    · rw [e] at h; cases h
    · rw [e] at h; cases h

/-! ### Failing insertions and removals -/

theorem insert_way {E : Env} {v : Bytes} {n n' : Node} {d d' : Nat} (w : Way s key n d n' d') : ∀ {f : Nat}, Fit n → d ≤ 256 → room n d ≤ f →
    ∃ f', room n' d' ≤ f' ∧ ∀ e, treeInsert E s key v f n d = .err e ↔ treeInsert E s key v f' n' d' = .err e := by
  induction w with
  | here => exact fun _ _ hr => ⟨_, hr, fun _ => Iff.rfl⟩
  | @down h p pre l r n d d' b h1 h2 w ih =>
    intro fuel hf hd hr
    have hlt : d + pre.size < 256 := by have := (List.getElem?_eq_some_iff.1 h2).1; simpa using this
    obtain ⟨f, rfl⟩ : ∃ f, fuel = f + 1 := ⟨fuel - 1, by have := room_pos (.internal h p pre l r) d; omega⟩
    have := room_down (n := .internal h p pre l r) (n' := side l r b) (d := d) (d' := d + pre.size + 1) rfl (by omega) (by omega)
    obtain ⟨f', g1, g2⟩ := ih (f := f) (fit_side hf b).1 (by omega) (by rw [side_eq] at this; omega)
    refine ⟨f', g1, fun e => ?_⟩
    rw [← g2 e, treeInsert, bitsCount_ok hf.1.has key hd, Res.bind_ok]
    have hl : lcp pre.path (key.bits.drop d) = pre.size := by rw [lcp_eq_left_iff.2 h1, hf.1.length]
    dsimp only
    rw [hl, getBit_some h2, Res.bind_ok]
    rw [if_neg (by simp)]
    rw [← side_eq]
    cases treeInsert E s key v f (side l r b) (d + pre.size + 1) with
    | err e' => exact ⟨fun h => by cases h; rfl, fun h => by cases h; rfl⟩
    | ok x => exact ⟨fun h => (by cases h), fun h => (by cases h)⟩
    | abort => exact ⟨fun h => (by cases h), fun h => (by cases h)⟩
    | ub => exact ⟨fun h => (by cases h), fun h => (by cases h)⟩
  | @load h p n n' d d' e w ih =>
    intro fuel hf hd hr
    obtain ⟨f, rfl⟩ : ∃ f, fuel = f + 1 := ⟨fuel - 1, by have := room_pos (.hash h p) d; omega⟩
    rcases storeResolve_cases s h p with ⟨e', _⟩ | ⟨_, e' | ⟨n0, e', hfit, hl⟩⟩
    · rw [e'] at e; cases e
    · rw [e'] at e; cases e
    · rw [e'] at e; cases e
      have := room_load (h := h) (p := p) (d := d) hl
      obtain ⟨f', g1, g2⟩ := ih (f := f) hfit hd (by omega)
      refine ⟨f', g1, fun e => ?_⟩
      rw [← g2 e, treeInsert, e', Res.bind_ok]

theorem insert_err {E : Env} {v : Bytes} {n : Node} (hf : Fit n) (hv : v.length ≤ 1023) :
    (treeInsert E s key v treeFuel n 0 = .err .ECORRUPTION ↔ Lost s key n) ∧
      ∀ e, treeInsert E s key v treeFuel n 0 = .err e → e = .ECORRUPTION ∨ e = .ENOUPDATE ∧ look s key true n 0 = .ok v := by
  have w2 : Lost s key n → treeInsert E s key v treeFuel n 0 = .err .ECORRUPTION := by
    rintro ⟨h, p, d, w, e⟩
    obtain ⟨f, h1, h2⟩ := insert_way (E := E) (v := v) w hf (by omega) (room_top n)
    rw [h2]
    obtain ⟨f, rfl⟩ : ∃ f', f = f' + 1 := ⟨f - 1, by have := room_pos (.hash h p) d; omega⟩
    rw [treeInsert, e]; rfl
  have all : ∀ e, treeInsert E s key v treeFuel n 0 = .err e → e = .ECORRUPTION ∧ Lost s key n ∨ e = .ENOUPDATE ∧ look s key true n 0 = .ok v := by
    intro e he
    obtain ⟨n', d', w, st⟩ := way_stop (s := s) (key := key) _ n 0 hf (by omega) (Nat.le_refl _)
    obtain ⟨hf', hd'⟩ := w.fit hf (by omega)
    obtain ⟨f, h1, h2⟩ := insert_way (E := E) (v := v) w hf (by omega) (room_top n)
    have he := (h2 e).1 he
    obtain ⟨f, rfl⟩ : ∃ f', f = f' + 1 := ⟨f - 1, by have := room_pos n' d'; omega⟩
    cases st with
    | null d => cases he
    | leaf h p k v' vp d =>
      rw [treeInsert] at he
      by_cases hk : k = key
      · subst hk
        rw [if_pos rfl] at he
        split at he
        · next hve =>
          cases he
          right
          refine ⟨rfl, ?_⟩
          rw [look_way w hf (by omega), look_self]
          cases v' with
          | none => simp [valueEquals] at hve
          | some x =>
            simp [valueEquals] at hve
            obtain rfl : x = v := hve.2
            have c : check (decide (x.length ≤ valueSize)) = .ok () := check_of (decide_eq_true (show x.length ≤ 1023 from hv))
            rw [storeRetrieve, c]; rfl
        · cases he
      · rw [if_neg hk] at he
        obtain ⟨o, e1, hob⟩ := bitsCollide_ok (B32.isBits k) key (d := d') (by simpa using hd')
        rw [e1, Res.bind_ok] at he
        dsimp only at he
        cases hg : getBit key.bytes (d' + o.size) with
        | ok b => rw [hg] at he; cases he
        | err e => exact absurd hg (getBit_ne _ _ e)
        | abort => rw [hg] at he; cases he
        | ub => rw [hg] at he; cases he
    | lost d e' => rw [treeInsert, e'] at he; cases he; exact .inl ⟨rfl, _, _, _, w, e'⟩
    | long d e' => rw [treeInsert, e'] at he; cases he
    | @parts h p pre l r d hp =>
      rw [treeInsert, bitsCount_ok hf'.1.has key hd', Res.bind_ok] at he
      dsimp only at he
      have h1 := lcp_le_left pre.path (key.bits.drop d')
      have hsz := hf'.1.length
      have hne : lcp pre.path (key.bits.drop d') ≠ pre.size := fun h => hp (lcp_eq_left_iff.1 (by omega))
      cases hg : getBit key.bytes (d' + lcp pre.path (key.bits.drop d')) with
      | ok b =>
        obtain ⟨f1, k1, e1, _⟩ := bitsSplit_has hf'.1.has (i := lcp pre.path (key.bits.drop d')) (by omega)
        rw [hg, Res.bind_ok, if_pos hne, e1] at he
        cases he
      | err e => exact absurd hg (getBit_ne _ _ e)
      | abort => rw [hg] at he; cases he
      | ub => rw [hg] at he; cases he
    | @full h p pre l r d hp h256 =>
      rw [treeInsert, bitsCount_ok hf'.1.has key hd', Res.bind_ok, lcp_eq_left_iff.2 hp, hf'.1.length] at he
      dsimp only at he
      rw [getBit_end key h256] at he
      cases he
  refine ⟨⟨fun e => ?_, w2⟩, fun e he => ?_⟩
  · rcases all _ e with h | h
    · exact h.2
    · cases h.1
  · exact (all e he).imp (fun h => h.1) id

theorem removeJoin_ne {pre : Bits} {y : Node} {b : Bool} : NoErr (removeJoin s pre y b) := by
  have side : ∀ sd, NoErr (removeSide pre sd b) := fun sd => by
    cases sd <;> first | exact .ok _ | exact (bitsJoin_ne _ _ _).bind fun _ => .ok _
  cases y with
  | hash h p =>
    unfold removeJoin
    dsimp only
    rcases storeResolve_cases s h p with ⟨e', hl⟩ | ⟨hl, e' | ⟨n0, e', hfit, hn⟩⟩
    · rw [e']; intro e he; cases he
    · rw [e']; intro e he; cases he
    · rw [e', Res.bind_ok]; exact side n0
  | null => exact side .null
  | leaf h p k v vp => exact side (.leaf h p k v vp)
  | internal h p pre l r => exact side (.internal h p pre l r)

theorem remove_way {n n' : Node} {d d' : Nat} (w : Way s key n d n' d') : ∀ {f : Nat}, Fit n → d ≤ 256 → room n d ≤ f →
    ∃ f', room n' d' ≤ f' ∧ ∀ e, treeRemove s key f n d = .err e ↔ treeRemove s key f' n' d' = .err e := by
  induction w with
  | here => exact fun _ _ hr => ⟨_, hr, fun _ => Iff.rfl⟩
  | @down h p pre l r n d d' b h1 h2 w ih =>
    intro fuel hf hd hr
    have hlt : d + pre.size < 256 := by have := (List.getElem?_eq_some_iff.1 h2).1; simpa using this
    obtain ⟨f, rfl⟩ : ∃ f, fuel = f + 1 := ⟨fuel - 1, by have := room_pos (.internal h p pre l r) d; omega⟩
    have := room_down (n := .internal h p pre l r) (n' := side l r b) (d := d) (d' := d + pre.size + 1) rfl (by omega) (by omega)
    obtain ⟨f', g1, g2⟩ := ih (f := f) (fit_side hf b).1 (by omega) (by rw [side_eq] at this; omega)
    refine ⟨f', g1, fun e => ?_⟩
    rw [← g2 e, treeRemove, bitsHas_ok hf.1.has key hd, List.isPrefixOf_iff_prefix.2 h1]
    simp only [Res.bind_ok, Bool.not_true, Bool.false_eq_true, if_false, getBit_some h2]
    rw [← side_eq]
    cases treeRemove s key f (side l r b) (d + pre.size + 1) with
    | err e' => exact ⟨fun h => by cases h; rfl, fun h => by cases h; rfl⟩
    | ok z =>
      rw [Res.bind_ok]
      refine ⟨fun h => ?_, fun h => (by cases h)⟩
      cases z with
      | null => exact absurd h (removeJoin_ne (s := s) (pre := pre) (y := side l r (!b)) (b := b) e)
      | hash _ _ => cases h
      | leaf _ _ _ _ _ => cases h
      | internal _ _ _ _ _ => cases h
    | abort => exact ⟨fun h => (by cases h), fun h => (by cases h)⟩
    | ub => exact ⟨fun h => (by cases h), fun h => (by cases h)⟩
  | @load h p n n' d d' e w ih =>
    intro fuel hf hd hr
    obtain ⟨f, rfl⟩ : ∃ f, fuel = f + 1 := ⟨fuel - 1, by have := room_pos (.hash h p) d; omega⟩
    rcases storeResolve_cases s h p with ⟨e', _⟩ | ⟨_, e' | ⟨n0, e', hfit, hl⟩⟩
    · rw [e'] at e; cases e
    · rw [e'] at e; cases e
    · rw [e'] at e; cases e
      have := room_load (h := h) (p := p) (d := d) hl
      obtain ⟨f', g1, g2⟩ := ih (f := f) hfit hd (by omega)
      refine ⟨f', g1, fun e => ?_⟩
      rw [← g2 e, treeRemove, e', Res.bind_ok]

theorem remove_err {n : Node} (hf : Fit n) :
    (treeRemove s key treeFuel n 0 = .err .ECORRUPTION ↔ Lost s key n) ∧ (treeRemove s key treeFuel n 0 = .err .ENOTFOUND ↔ Ends s key n) ∧
      (∀ e, treeRemove s key treeFuel n 0 = .err e → e = .ECORRUPTION ∨ e = .ENOTFOUND) ∧
      ∀ n', treeRemove s key treeFuel n 0 = .ok n' → FindsKey s key n := by
  have w2 : Lost s key n → treeRemove s key treeFuel n 0 = .err .ECORRUPTION := by
    rintro ⟨h, p, d, w, e⟩
    obtain ⟨f, h1, h2⟩ := remove_way w hf (by omega) (room_top n)
    rw [h2]
    obtain ⟨f, rfl⟩ : ∃ f', f = f' + 1 := ⟨f - 1, by have := room_pos (.hash h p) d; omega⟩
    rw [treeRemove, e]; rfl
  have w3 : Ends s key n → treeRemove s key treeFuel n 0 = .err .ENOTFOUND := by
    rintro ⟨d, w | ⟨h, p, k, v, vp, hk, w⟩ | ⟨h, p, pre, l, r, hp, w⟩⟩
    · obtain ⟨f, h1, h2⟩ := remove_way w hf (by omega) (room_top n)
      rw [h2]
      obtain ⟨f, rfl⟩ : ∃ f', f = f' + 1 := ⟨f - 1, by have := room_pos .null d; omega⟩
      rfl
    · obtain ⟨f, h1, h2⟩ := remove_way w hf (by omega) (room_top n)
      rw [h2]
      obtain ⟨f, rfl⟩ : ∃ f', f = f' + 1 := ⟨f - 1, by have := room_pos (.leaf h p k v vp) d; omega⟩
      rw [treeRemove, if_pos hk]
    · obtain ⟨hf', hd'⟩ := w.fit hf (by omega)
      obtain ⟨f, h1, h2⟩ := remove_way w hf (by omega) (room_top n)
      rw [h2]
      obtain ⟨f, rfl⟩ : ∃ f', f = f' + 1 := ⟨f - 1, by have := room_pos (.internal h p pre l r) d; omega⟩
      have : pre.path.isPrefixOf (key.bits.drop d) = false := by
        rw [Bool.eq_false_iff]; intro hc; exact hp (List.isPrefixOf_iff_prefix.1 hc)
      rw [treeRemove, bitsHas_ok hf'.1.has key hd', this]; rfl
  obtain ⟨n', d', w, st⟩ := way_stop (s := s) (key := key) _ n 0 hf (by omega) (Nat.le_refl _)
  obtain ⟨hf', hd'⟩ := w.fit hf (by omega)
  have stuck : Lost s key n ∨ Ends s key n ∨ FindsKey s key n ∨ treeRemove s key treeFuel n 0 = .abort ∨ treeRemove s key treeFuel n 0 = .ub := by
    have o := treeRemove_outcome (s := s) (key := key) treeFuel n 0 hf (by omega) (room_top n)
    cases st with
    | null d => exact .inr (.inl ⟨_, .inl w⟩)
    | leaf h p k v vp d =>
      by_cases hk : k = key
      · subst hk; exact .inr (.inr (.inl ⟨_, _, _, _, _, w⟩))
      · exact .inr (.inl ⟨_, .inr (.inl ⟨_, _, _, _, _, hk, w⟩)⟩)
    | lost d e => exact .inl ⟨_, _, _, w, e⟩
    | long d e =>
      refine .inr (.inr (.inr (.inl (o.abort_iff.2 (.inl ⟨_, _, w, _, _, rfl, ?_⟩)))))
      rcases storeResolve_cases s _ _ with ⟨_, hl⟩ | ⟨_, e' | ⟨n0, e', _⟩⟩
      · exact hl
      · rw [e] at e'; cases e'
      · rw [e] at e'; cases e'
    | parts hp => exact .inr (.inl ⟨_, .inr (.inr ⟨_, _, _, _, _, hp, w⟩)⟩)
    | full hp h256 => exact .inr (.inr (.inr (.inr (o.ub_iff.2 ⟨_, _, w, full_internal.2 ((full_length hf'.1 hd' hp).2.2 h256)⟩))))
  have w1 : FindsKey s key n → ∀ e, treeRemove s key treeFuel n 0 ≠ .err e := by
    rintro ⟨h, p, v, vp, d, w⟩ e he
    obtain ⟨f, h1, h2⟩ := remove_way w hf (by omega) (room_top n)
    rw [h2] at he
    obtain ⟨f, rfl⟩ : ∃ f', f = f' + 1 := ⟨f - 1, by have := room_pos (.leaf h p key v vp) d; omega⟩
    rw [treeRemove, if_neg (fun h => h rfl)] at he
    cases he
  refine ⟨⟨fun e => ?_, w2⟩, ⟨fun e => ?_, w3⟩, fun er e => ?_, fun n'' e => ?_⟩
  · rcases stuck with h | h | h | h | h
    · exact h
    · have := w3 h; rw [e] at this; cases this
    · exact absurd e (w1 h _)
    · rw [e] at h; cases h
    · rw [e] at h; cases h
  · rcases stuck with h | h | h | h | h
    · have := w2 h; rw [e] at this; cases this
    · exact h
    · exact absurd e (w1 h _)
    · rw [e] at h; cases h
    · rw [e] at h; cases h
  · rcases stuck with h | h | h | h | h
    · have := w2 h; rw [e] at this; cases this; exact .inl rfl
    · have := w3 h; rw [e] at this; cases this; exact .inr rfl
    · exact absurd e (w1 h _)
    · rw [e] at h; cases h
    · rw [e] at h; cases h
  · rcases stuck with h | h | h | h | h
    · have := w2 h; rw [e] at this; cases this
    · have := w3 h; rw [e] at this; cases this
    · exact h
    · rw [e] at h; cases h
    · rw [e] at h; cases h

/-! ### Proving -/

/-- Where a proof ends and with what. -/
def proofEnd (E : Env) (s : Store) (key : B32) (f : Nat) (n : Node) (d pushed : Nat) : Res (Option (Nat × PBody)) :=
  treeProve E s key f n d pushed >>= fun x => pure (x.1.map fun pf => (pf.depth, pf.body))

theorem proofEnd_way {E : Env} {n n' : Node} {d d' : Nat} (w : Way s key n d n' d') : ∀ {f pushed : Nat}, Fit n → d ≤ 256 → pushed ≤ d → room n d ≤ f →
    ∃ f' pushed', pushed' ≤ d' ∧ room n' d' ≤ f' ∧ proofEnd E s key f n d pushed = proofEnd E s key f' n' d' pushed' := by
  induction w with
  | here n d => intro f pushed _ _ h1 h2; exact ⟨f, pushed, h1, h2, rfl⟩
  | @down h p pre l r n' d d' b hp hb w ih =>
    intro f pushed hf hd hpd hr
    have hlt : d + pre.size < 256 := by
      have := (List.getElem?_eq_some_iff.1 hb).1
      simpa using this
    have := room_down (n := .internal h p pre l r) (n' := side l r b) (d := d) (d' := d + pre.size + 1) rfl (by omega) (by omega)
    cases f with
    | zero => have := room_pos (.internal h p pre l r) d; omega
    | succ f =>
      obtain ⟨f', q, h1, h2, h3⟩ := ih (f := f) (pushed := pushed + 1) (fit_side hf b).1 (by omega) (by omega) (by
        have : side l r b = if b = true then r else l := rfl
        rw [← this]; omega)
      refine ⟨f', q, h1, h2, ?_⟩
      rw [← h3]
      obtain ⟨hy, y', ey, _, _⟩ := nodeHash_fit E.H (side l r (!b)) (fit_side hf (!b)).1
      have c : pushed < keyBits := by unfold keyBits; omega
      unfold proofEnd
      rw [treeProve, bitsHas_ok hf.1.has key hd, Res.bind_ok, List.isPrefixOf_iff_prefix.2 hp]
      simp only [Bool.not_true, Bool.false_eq_true, if_false]
      rw [getBit_some hb, Res.bind_ok, ey, Res.bind_ok]
      simp only [c, decide_true, check_true, Res.bind_ok]
      have : side l r b = if b = true then r else l := rfl
      rw [← this]
      cases treeProve E s key f (side l r b) (d + pre.size + 1) (pushed + 1) with
      | ok x =>
        obtain ⟨o, m⟩ := x
        cases o <;> rfl
      | err _ => rfl
      | abort => rfl
      | ub => rfl
  | @load h p n0 n' d d' e w ih =>
    intro f pushed hf hd hpd hr
    rcases storeResolve_cases s h p with ⟨e', _⟩ | ⟨_, e' | ⟨n1, e', hfit, hl⟩⟩
    · rw [e'] at e; cases e
    · rw [e'] at e; cases e
    · rw [e'] at e; cases e
      have := room_load (h := h) (p := p) (d := d) hl
      cases f with
      | zero => have := room_pos (.hash h p) d; omega
      | succ f =>
        obtain ⟨f', q, h1, h2, h3⟩ := ih (f := f) (pushed := pushed) hfit hd hpd (by omega)
        refine ⟨f', q, h1, h2, ?_⟩
        rw [← h3]
        unfold proofEnd
        rw [treeProve, e', Res.bind_ok]
        dsimp only
        cases treeProve E s key f n0 d pushed <;> rfl

/-- All ends of a proof. -/
theorem proofEnd_all {E : Env} {n : Node} (hf : Fit n) :
    (∃ x d, Finds s key n x ∧ proofEnd E s key treeFuel n 0 0 = .ok (some (d, .exists x))) ∨
    (∃ d b, Ends s key n ∧ ¬ LostLeaf s key n ∧ b.type ≠ 3 ∧ proofEnd E s key treeFuel n 0 0 = .ok (some (d, b))) ∨
    ((Lost s key n ∨ LostLeaf s key n) ∧ proofEnd E s key treeFuel n 0 0 = .ok none) ∨
    (look s key true n 0 = .abort ∧ proofEnd E s key treeFuel n 0 0 = .abort) ∨ (look s key true n 0 = .ub ∧ proofEnd E s key treeFuel n 0 0 = .ub) := by
  have nolost : ∀ {a : Nat × PBody}, proofEnd E s key treeFuel n 0 0 = .ok (some a) → ¬ LostLeaf s key n := by
    rintro a e ⟨h, p, k, v, vp, d, w, hn⟩
    obtain ⟨f, q, h1, h2, h3⟩ := proofEnd_way (E := E) w hf (by omega) (Nat.le_refl _) (room_top n)
    obtain ⟨hf', hd'⟩ := w.fit hf (by omega)
    rw [e] at h3
    cases f with
    | zero => have := room_pos (.leaf h p k v vp) d; omega
    | succ f =>
      unfold proofEnd at h3
      rw [treeProve] at h3
      rcases retrieve_is (s := s) hf'.2 with ⟨y, _, hy, _⟩ | ⟨e', _⟩
      · exact hn y hy
      · rw [e'] at h3; cases h3
  obtain ⟨n', d', w, st⟩ := way_stop (s := s) (key := key) _ n 0 hf (by omega) (Nat.le_refl _)
  obtain ⟨f, q, h1, h2, h3⟩ := proofEnd_way (E := E) w hf (by omega) (Nat.le_refl _) (room_top n)
  obtain ⟨hf', hd'⟩ := w.fit hf (by omega)
  cases f with
  | zero => have := room_pos n' d'; omega
  | succ f =>
    cases st with
    | null d =>
      have h3 : proofEnd E s key treeFuel n 0 0 = .ok (some (d', .deadend)) := h3
      exact .inr (.inl ⟨_, _, ⟨_, .inl w⟩, nolost h3, by decide, h3⟩)
    | leaf h p k v vp d =>
      have h4 : proofEnd E s key (f + 1) (.leaf h p k v vp) d' q = (do
          let x ← (do
            let r ← storeRetrieve s v vp
            match r with
            | none => pure (none, .leaf h p k v vp)
            | some x =>
              if k = key then pure (some ⟨d', [], .exists x⟩, .leaf h p k v vp)
              else pure (some ⟨d', [], .collision k (E.H x)⟩, .leaf h p k v vp) : Res (Option Proof × Node))
          pure (x.1.map fun pf => (pf.depth, pf.body))) := by unfold proofEnd; rw [treeProve]; rfl
      rcases retrieve_is (s := s) hf'.2 with ⟨y, e, hy, _⟩ | ⟨e, hn⟩
      · rw [e] at h4
        by_cases hk : k = key
        · subst hk
          simp only [Res.bind_ok, if_true, Res.pure_eq, Option.map_some] at h4
          exact .inl ⟨y, d', ⟨_, _, _, _, _, w, hy⟩, h3.trans h4⟩
        · simp only [Res.bind_ok, if_neg hk, Res.pure_eq, Option.map_some] at h4
          exact .inr (.inl ⟨_, _, ⟨_, .inr (.inl ⟨_, _, _, _, _, hk, w⟩)⟩, nolost (h3.trans h4), by simp [PBody.type], h3.trans h4⟩)
      · rw [e] at h4
        simp only [Res.bind_ok, Res.pure_eq, Option.map_none] at h4
        exact .inr (.inr (.inl ⟨.inr ⟨_, _, _, _, _, _, w, hn⟩, h3.trans h4⟩))
    | @lost h p d e =>
      refine .inr (.inr (.inl ⟨.inl ⟨_, _, _, w, e⟩, h3.trans ?_⟩))
      unfold proofEnd; rw [treeProve, e]; rfl
    | @long h p d e =>
      refine .inr (.inr (.inr (.inl ⟨by rw [look_way w hf (by omega), look_long _ e], h3.trans ?_⟩)))
      unfold proofEnd; rw [treeProve, e]; rfl
    | @parts h p pre l r d hp =>
      have : pre.path.isPrefixOf (key.bits.drop d') = false := by
        rw [Bool.eq_false_iff]; intro hc; exact hp (List.isPrefixOf_iff_prefix.1 hc)
      obtain ⟨hl, l', e1, _⟩ := nodeHash_fit E.H l hf'.2.2.2.1
      obtain ⟨hr, r', e2, _⟩ := nodeHash_fit E.H r hf'.2.2.2.2
      have h4 : proofEnd E s key (f + 1) (.internal h p pre l r) d' q = .ok (some (d', .short pre hl hr)) := by
        unfold proofEnd
        rw [treeProve, bitsHas_ok hf'.1.has key hd', Res.bind_ok, this, e1, Res.bind_ok]
        dsimp only
        rw [e2, Res.bind_ok]; rfl
      exact .inr (.inl ⟨_, _, ⟨_, .inr (.inr ⟨_, _, _, _, _, hp, w⟩)⟩, nolost (h3.trans h4), by simp [PBody.type], h3.trans h4⟩)
    | @full h p pre l r d hp h256 =>
      refine .inr (.inr (.inr (.inr ⟨by rw [look_way w hf (by omega), look_full hf' hd' hp h256], h3.trans ?_⟩)))
      unfold proofEnd
      rw [treeProve, bitsHas_ok hf'.1.has key hd', Res.bind_ok, List.isPrefixOf_iff_prefix.2 hp]
      simp only [Bool.not_true, Bool.false_eq_true, if_false]
      rw [getBit_end key h256]; rfl

end Urkel
