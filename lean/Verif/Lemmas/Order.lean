import Verif.Spec.Iter
import Verif.Lemmas.Tree
import Mathlib.Data.Nat.Bitwise
import Mathlib.Tactic.ByContra
/-
Order of the entries of a tree, and its height in terms of the keys.
-/
namespace Urkel
open PTree

theorem byte_lt {a b : UInt8} {q : List Bool} {x y : List Bool} (hq : q.length < 8)
    (h1 : (q ++ [false]) <+: byteBits a ++ x) (h2 : (q ++ [true]) <+: byteBits b ++ y) : a < b := by
  have hbit : ∀ (c : UInt8) (z : List Bool) (i : Nat), i < 8 → (byteBits c ++ z)[i]? = some (c.toNat.testBit (7 - i)) := by
    intro c z i hi
    rw [List.getElem?_append_left (by simpa using hi), byteBits_getElem? c i hi, byteBit_eq, Nat.mod_eq_of_lt hi]
  rw [prefix_snoc_iff] at h1 h2
  rw [hbit _ _ _ hq] at h1 h2
  have e1 := Option.some.inj h1.2
  have e2 := Option.some.inj h2.2
  have : a.toNat < b.toNat := by
    refine Nat.lt_of_testBit (7 - q.length) e1 e2 ?_
    intro j hj
    by_cases h8 : j < 8
    · have g1 := hbit a x (7 - j) (by omega)
      have g2 := hbit b y (7 - j) (by omega)
      obtain ⟨u, hu⟩ := h1.1
      obtain ⟨w, hw⟩ := h2.1
      rw [← hu, List.getElem?_append_left (by omega)] at g1
      rw [← hw, List.getElem?_append_left (by omega)] at g2
      rw [g1] at g2
      have := Option.some.inj g2
      rwa [show 7 - (7 - j) = j by omega] at this
    · have k1 : a.toNat < 2 ^ j := Nat.lt_of_lt_of_le a.toNat_lt (Nat.pow_le_pow_right (by omega) (by omega))
      have k2 : b.toNat < 2 ^ j := Nat.lt_of_lt_of_le b.toNat_lt (Nat.pow_le_pow_right (by omega) (by omega))
      rw [Nat.testBit_lt_two_pow k1, Nat.testBit_lt_two_pow k2]
  exact this

theorem bytes_lt {x y : Bytes} {q : List Bool} (h1 : (q ++ [false]) <+: bitsOf x) (h2 : (q ++ [true]) <+: bitsOf y) : x < y := by
  induction x generalizing y q with
  | nil => have := h1.length_le; simp at this
  | cons a x ih =>
    cases y with
    | nil => have := h2.length_le; simp at this
    | cons b y =>
      rw [bitsOf_cons] at h1 h2
      rw [List.cons_lt_cons_iff]
      by_cases hq : q.length < 8
      · exact Or.inl (byte_lt hq h1 h2)
      · right
        have p1 := (prefix_snoc_iff.1 h1).1
        have p2 := (prefix_snoc_iff.1 h2).1
        have t1 : byteBits a = q.take 8 := by
          obtain ⟨u, hu⟩ := p1
          have := congrArg (List.take 8) hu
          rw [List.take_append_of_le_length (by omega), List.take_append_of_le_length (by simp)] at this
          rw [this, List.take_of_length_le (by simp)]
        have t2 : byteBits b = q.take 8 := by
          obtain ⟨u, hu⟩ := p2
          have := congrArg (List.take 8) hu
          rw [List.take_append_of_le_length (by omega), List.take_append_of_le_length (by simp)] at this
          rw [this, List.take_of_length_le (by simp)]
        refine ⟨byteBits_inj (t1.trans t2.symm), ?_⟩
        have e : q = q.take 8 ++ q.drop 8 := (List.take_append_drop 8 q).symm
        refine ih (q := q.drop 8) ?_ ?_
        · rw [e, ← t1, List.append_assoc] at h1; exact (List.prefix_append_right_inj _).1 h1
        · rw [e, ← t2, List.append_assoc] at h2; exact (List.prefix_append_right_inj _).1 h2

theorem key_lt {a b : B32} {q : List Bool} (h1 : (q ++ [false]) <+: a.bits) (h2 : (q ++ [true]) <+: b.bits) : a.lt b :=
  bytes_lt h1 h2

theorem WF.mem_entries {p : List Bool} {t : PTree} (h : WF p t) (k : B32) (v : Bytes) : (k, v) ∈ t.entries ↔ t.find k = some v := by
  induction t generalizing p with
  | null => exact h.elim
  | leaf k' v' =>
    simp only [entries, List.mem_singleton, Prod.mk.injEq, find]
    split
    · next e => simp [e, eq_comm]
    · next e => simp [e]
  | node pre l r hl hr =>
    simp only [entries, List.mem_append, hl h.1, hr h.2]
    constructor
    · rintro (e | e)
      · simp [find, e]
      · rw [find_right h (h.2.prefix_of_find e)]; exact e
    · intro e
      simp only [find, Option.or_eq_some_iff] at e
      rcases e with e | ⟨_, e⟩
      · exact Or.inl e
      · exact Or.inr e

theorem WF.sorted {p : List Bool} {t : PTree} (h : WF p t) : t.entries.Pairwise (fun a b => a.1.lt b.1) := by
  induction t generalizing p with
  | null => exact h.elim
  | leaf k' v' => simp [entries]
  | node pre l r hl hr =>
    rw [entries, List.pairwise_append]
    refine ⟨hl h.1, hr h.2, ?_⟩
    rintro ⟨a, x⟩ ha ⟨b, y⟩ hb
    exact key_lt (h.1.prefix_of_find ((WF.mem_entries h.1 _ _).1 ha)) (h.2.prefix_of_find ((WF.mem_entries h.2 _ _).1 hb))

theorem Top.lists {t : PTree} (h : t.Top) : Lists t.entries t.find := by
  rcases h with rfl | h
  · exact ⟨by simp [entries, find], by simp [entries]⟩
  · exact ⟨WF.mem_entries h, WF.sorted h⟩

/-! ### Height -/

theorem partAt_of {q : List Bool} {b : Bool} {k k' : B32} (h1 : (q ++ [b]) <+: k.bits) (h2 : (q ++ [!b]) <+: k'.bits) :
    PartAt k k' q.length := by
  have hl := h1.length_le
  simp at hl
  rw [prefix_snoc_iff] at h1 h2
  refine ⟨by omega, ?_, ?_⟩
  · rw [List.prefix_iff_eq_take.1 h1.1 |>.symm, List.prefix_iff_eq_take.1 h2.1 |>.symm]
  · rw [h1.2, h2.2]; cases b <;> simp

theorem WF.deep {p : List Bool} {t : PTree} (h : WF p t) : ∃ k, t.find k ≠ none ∧ p <+: k.bits ∧ ∃ ds : List Nat, ds.Nodup ∧
    ds.length = t.height ∧ ∀ d ∈ ds, p.length ≤ d ∧ ∃ k', t.find k' ≠ none ∧ PartAt k k' d := by
  induction t generalizing p with
  | null => exact h.elim
  | leaf k v => exact ⟨k, by simp [find], h, [], by simp, rfl, by simp⟩
  | node pre l r hl hr =>
    have inl : ∀ k, l.find k ≠ none → (node pre l r).find k ≠ none := by
      intro k hk; simp only [find]; cases e : l.find k <;> simp [e] at hk ⊢
    have inr : ∀ k, r.find k ≠ none → (node pre l r).find k ≠ none := by
      intro k hk; simp only [find]; cases e : l.find k <;> simp [hk]
    by_cases c : l.height ≤ r.height
    · obtain ⟨k, hk, hp, ds, hn, hlen, hds⟩ := hr h.2
      obtain ⟨k', v', hf, hp'⟩ := WF.exists_find h.1
      refine ⟨k, inr k hk, List.IsPrefix.trans ⟨pre ++ [true], by simp⟩ hp, (p ++ pre).length :: ds, ?_, ?_, ?_⟩
      · rw [List.nodup_cons]
        refine ⟨fun hm => ?_, hn⟩
        have := (hds _ hm).1; simp at this; omega
      · simp only [List.length_cons, hlen, height]; omega
      · intro d hd
        rcases List.mem_cons.1 hd with rfl | hd
        · exact ⟨by simp, k', inl k' (by simp [hf]), partAt_of (b := true) hp hp'⟩
        · obtain ⟨a, k2, h1, h2⟩ := hds d hd
          exact ⟨by simp at a; omega, k2, inr k2 h1, h2⟩
    · obtain ⟨k, hk, hp, ds, hn, hlen, hds⟩ := hl h.1
      obtain ⟨k', v', hf, hp'⟩ := WF.exists_find h.2
      refine ⟨k, inl k hk, List.IsPrefix.trans ⟨pre ++ [false], by simp⟩ hp, (p ++ pre).length :: ds, ?_, ?_, ?_⟩
      · rw [List.nodup_cons]
        refine ⟨fun hm => ?_, hn⟩
        have := (hds _ hm).1; simp at this; omega
      · simp only [List.length_cons, hlen, height]; omega
      · intro d hd
        rcases List.mem_cons.1 hd with rfl | hd
        · exact ⟨by simp, k', inr k' (by simp [hf]), partAt_of (b := false) hp hp'⟩
        · obtain ⟨a, k2, h1, h2⟩ := hds d hd
          exact ⟨by simp at a; omega, k2, inl k2 h1, h2⟩

/-- Keys below a path do not part within it. -/
theorem partAt_ge {q : List Bool} {k k' : B32} {d : Nat} (h : PartAt k k' d) (h1 : q <+: k.bits) (h2 : q <+: k'.bits) : q.length ≤ d := by
  by_cases c : q.length ≤ d
  · exact c
  · exfalso
    obtain ⟨_, _, h3⟩ := h
    obtain ⟨u, hu⟩ := h1
    obtain ⟨w, hw⟩ := h2
    apply h3
    rw [← hu, ← hw, List.getElem?_append_left (by omega), List.getElem?_append_left (by omega)]

/-- Keys on different sides part at the branch. -/
theorem partAt_eq {q : List Bool} {b : Bool} {k k' : B32} {d : Nat} (h : PartAt k k' d) (h1 : (q ++ [b]) <+: k.bits)
    (h2 : (q ++ [!b]) <+: k'.bits) : d = q.length := by
  have hge := partAt_ge h (prefix_snoc_iff.1 h1).1 (prefix_snoc_iff.1 h2).1
  rcases Nat.lt_or_ge q.length d with c | c
  · exfalso
    have e := congrArg (fun l : List Bool => l[q.length]?) h.2.1
    simp only [List.getElem?_take_of_lt c] at e
    rw [(prefix_snoc_iff.1 h1).2, (prefix_snoc_iff.1 h2).2] at e
    cases b <;> simp at e
  · omega

theorem WF.shallow {p : List Bool} {t : PTree} (h : WF p t) : Shallow t.height t.find := by
  induction t generalizing p with
  | null => exact h.elim
  | leaf k v =>
    intro k1 hk ds _ hds
    have e1 : k1 = k := by by_contra e; simp [find, e] at hk
    cases ds with
    | nil => simp
    | cons d ds =>
      obtain ⟨k2, hk2, _, _, h3⟩ := hds d (by simp)
      have e2 : k2 = k := by by_contra e; simp [find, e] at hk2
      exact (h3 (by rw [e1, e2])).elim
  | node pre l r hl hr =>
    intro k hk ds hn hds
    have main : ∀ (b : Bool) (u : PTree), Shallow u.height u.find → (∀ k, (p ++ pre ++ [b]) <+: k.bits → (node pre l r).find k = u.find k) →
        (p ++ pre ++ [b]) <+: k.bits → u.height + 1 ≤ (node pre l r).height → ds.length ≤ (node pre l r).height := by
      intro b u hu hfu hp hh
      have := hu k (by rw [← hfu k hp]; exact hk) (ds.erase (p ++ pre).length) (hn.erase _) ?_
      · have h2 : ds.length ≤ (ds.erase (p ++ pre).length).length + 1 := by
          rw [List.length_erase]; split <;> omega
        omega
      · intro d hd
        obtain ⟨hne, hm⟩ := (List.Nodup.mem_erase_iff hn).1 hd
        obtain ⟨k', hk', hpa⟩ := hds d hm
        have hpp : (p ++ pre) <+: k'.bits := by
          by_contra c
          rw [find_node h, if_neg c] at hk'
          exact hk' rfl
        have hb : (p ++ pre ++ [b]) <+: k'.bits := by
          have hlen := h.node_length
          rcases bit_cases hpp (by simp; omega) with c | c
          · cases b with
            | false => exact c
            | true => exact (hne (partAt_eq (b := true) hpa hp c)).elim
          · cases b with
            | true => exact c
            | false => exact (hne (partAt_eq (b := false) hpa hp c)).elim
        exact ⟨k', by rw [← hfu k' hb]; exact hk', hpa⟩
    have hpp : (p ++ pre) <+: k.bits := by
      by_contra c
      rw [find_node h, if_neg c] at hk
      exact hk rfl
    have hlen := h.node_length
    rcases bit_cases hpp (by simp; omega) with c | c
    · exact main false l (hl h.1) (fun k hk => find_left h hk) c (by simp only [height]; omega)
    · exact main true r (hr h.2) (fun k hk => find_right h hk) c (by simp only [height]; omega)

/-- The height of a tree in terms of its keys. -/
theorem Top.shallow_iff {t : PTree} (h : t.Top) (n : Nat) : Shallow n t.find ↔ t.height ≤ n := by
  rcases h with rfl | h
  · refine ⟨fun _ => Nat.zero_le _, fun _ k hk => ?_⟩
    exact (hk rfl).elim
  · constructor
    · intro hs
      obtain ⟨k, hk, _, ds, hn, hl, hds⟩ := WF.deep h
      rw [← hl]
      exact hs k hk ds hn (fun d hd => (hds d hd).2)
    · intro hh k hk ds hn hds
      exact Nat.le_trans (WF.shallow h k hk ds hn hds) hh

end Urkel
