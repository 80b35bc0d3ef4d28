import Verif.Spec.Tree
import Verif.Lemmas.Bits
namespace Urkel
namespace PTree

theorem WF.prefix_of_find {p : List Bool} {t : PTree} (h : WF p t) {k : B32} {v : Bytes}
    (hf : t.find k = some v) : p <+: k.bits := by
  induction t generalizing p with
  | null => simp [find] at hf
  | leaf k' v' =>
    simp only [find] at hf
    split at hf
    · next e => subst e; exact h
    · simp at hf
  | node pre l r ihl ihr =>
    simp only [find, Option.or_eq_some_iff] at hf
    rcases hf with hf | ⟨_, hf⟩
    · exact (List.IsPrefix.trans ⟨pre ++ [false], by simp⟩ (ihl h.1 hf))
    · exact (List.IsPrefix.trans ⟨pre ++ [true], by simp⟩ (ihr h.2 hf))

theorem WF.find_none {p : List Bool} {t : PTree} (h : WF p t) {k : B32}
    (hp : ¬ p <+: k.bits) : t.find k = none := by
  cases hf : t.find k with
  | none => rfl
  | some v => exact absurd (h.prefix_of_find hf) hp

theorem WF.exists_find {p : List Bool} {t : PTree} (h : WF p t) :
    ∃ k v, t.find k = some v ∧ p <+: k.bits := by
  induction t generalizing p with
  | null => exact h.elim
  | leaf k v => exact ⟨k, v, by simp [find], h⟩
  | node pre l r ihl ihr =>
    obtain ⟨k, v, hf, hp⟩ := ihl h.1
    exact ⟨k, v, by simp [find, hf], List.IsPrefix.trans ⟨pre ++ [false], by simp⟩ hp⟩

theorem WF.length_le {p : List Bool} {t : PTree} (h : WF p t) : p.length ≤ 256 := by
  obtain ⟨k, _, _, hp⟩ := h.exists_find
  have := hp.length_le
  simpa using this

theorem WF.node_length {p pre : List Bool} {l r : PTree} (h : WF p (node pre l r)) :
    p.length + pre.length + 1 ≤ 256 := by
  have := WF.length_le h.1
  simp at this; omega

theorem prefix_snoc_iff {q : List Bool} {b : Bool} {m : List Bool} :
    (q ++ [b]) <+: m ↔ q <+: m ∧ m[q.length]? = some b := by
  constructor
  · rintro ⟨t, rfl⟩
    refine ⟨⟨b :: t, by simp⟩, by simp⟩
  · rintro ⟨⟨t, rfl⟩, h⟩
    cases t with
    | nil => simp at h
    | cons c t => simp at h; subst h; exact ⟨t, by simp⟩

theorem find_node {p pre : List Bool} {l r : PTree} (h : WF p (node pre l r)) (k : B32) :
    (node pre l r).find k =
      if (p ++ pre) <+: k.bits then
        (if k.bits[p.length + pre.length]? = some true then r.find k else l.find k)
      else none := by
  simp only [find]
  have hlen := h.node_length
  split
  · next hp =>
    split
    · next hb =>
      rw [h.1.find_none]; · simp
      rw [prefix_snoc_iff]; simp [hb]
    · next hb =>
      rw [h.2.find_none]; · simp
      rw [prefix_snoc_iff]; simp [hb]
  · next hp =>
    rw [h.1.find_none (fun h' => hp (prefix_snoc_iff.1 h').1),
      h.2.find_none (fun h' => hp (prefix_snoc_iff.1 h').1)]; rfl

theorem bit_cases {p : List Bool} {k : B32} (hp : p <+: k.bits) (hl : p.length < 256) :
    (p ++ [false]) <+: k.bits ∨ (p ++ [true]) <+: k.bits := by
  have : p.length < k.bits.length := by simpa using hl
  rcases hb : k.bits[p.length] with _ | _
  · left; rw [prefix_snoc_iff]; exact ⟨hp, by rw [List.getElem?_eq_getElem this, hb]⟩
  · right; rw [prefix_snoc_iff]; exact ⟨hp, by rw [List.getElem?_eq_getElem this, hb]⟩

theorem not_both {q : List Bool} {m : List Bool} (h1 : (q ++ [false]) <+: m) (h2 : (q ++ [true]) <+: m) :
    False := by
  rw [prefix_snoc_iff] at h1 h2
  rw [h1.2] at h2
  simp at h2

/-- Two prefixes of the same list are comparable. -/
theorem prefix_total {a b m : List Bool} (ha : a <+: m) (hb : b <+: m) : a <+: b ∨ b <+: a :=
  List.prefix_or_prefix_of_prefix ha hb

theorem two_sides {q a : List Bool} {k1 k2 : B32} (h1 : (q ++ [false]) <+: k1.bits)
    (h2 : (q ++ [true]) <+: k2.bits) (ha1 : a <+: k1.bits) (ha2 : a <+: k2.bits) : a <+: q := by
  rcases prefix_total ha1 (prefix_snoc_iff.1 h1).1 with h | ⟨t, ht⟩
  · exact h
  · cases t with
    | nil => simp at ht; subst ht; exact List.prefix_refl _
    | cons c t =>
      subst ht
      exfalso
      have e : q ++ c :: t = (q ++ [c]) ++ t := by simp
      rw [e] at ha1 ha2
      have x1 := (prefix_snoc_iff.1 (List.IsPrefix.trans ⟨t, rfl⟩ ha1 : (q ++ [c]) <+: k1.bits)).2
      have x2 := (prefix_snoc_iff.1 (List.IsPrefix.trans ⟨t, rfl⟩ ha2 : (q ++ [c]) <+: k2.bits)).2
      rw [(prefix_snoc_iff.1 h1).2] at x1
      rw [(prefix_snoc_iff.1 h2).2] at x2
      simp at x1 x2
      rw [x1] at x2; simp at x2

theorem find_left {p pre : List Bool} {l r : PTree} (h : WF p (node pre l r)) {k : B32}
    (hk : (p ++ pre ++ [false]) <+: k.bits) : (node pre l r).find k = l.find k := by
  rw [find, h.2.find_none (fun h' => not_both hk h')]
  simp

theorem find_right {p pre : List Bool} {l r : PTree} (h : WF p (node pre l r)) {k : B32}
    (hk : (p ++ pre ++ [true]) <+: k.bits) : (node pre l r).find k = r.find k := by
  rw [find, h.1.find_none (fun h' => not_both h' hk)]
  simp

/-- Canonical form: contents determine the tree. -/
theorem WF.unique {p : List Bool} {t u : PTree} (ht : WF p t) (hu : WF p u)
    (h : ∀ k, t.find k = u.find k) : t = u := by
  induction t generalizing p u with
  | null => exact ht.elim
  | leaf k v =>
    cases u with
    | null => exact hu.elim
    | leaf k' v' =>
      have := h k
      simp only [find, if_true] at this
      split at this
      · next e => subst e; simp at this; subst this; rfl
      · simp at this
    | node pre l r =>
      exfalso
      obtain ⟨k1, v1, f1, p1⟩ := WF.exists_find hu.1
      obtain ⟨k2, v2, f2, p2⟩ := WF.exists_find hu.2
      have g1 := h k1; rw [find_left hu p1, f1] at g1
      have g2 := h k2; rw [find_right hu p2, f2] at g2
      simp only [find] at g1 g2
      have e1 : k1 = k := by split at g1; assumption; simp at g1
      have e2 : k2 = k := by split at g2; assumption; simp at g2
      rw [e1] at p1; rw [e2] at p2
      exact not_both p1 p2
  | node pre l r ihl ihr =>
    obtain ⟨k1, v1, f1, p1⟩ := WF.exists_find ht.1
    obtain ⟨k2, v2, f2, p2⟩ := WF.exists_find ht.2
    have g1 := h k1; rw [find_left ht p1, f1] at g1
    have g2 := h k2; rw [find_right ht p2, f2] at g2
    cases u with
    | null => exact hu.elim
    | leaf k' v' =>
      exfalso
      simp only [find] at g1 g2
      have e1 : k1 = k' := by split at g1; assumption; simp at g1
      have e2 : k2 = k' := by split at g2; assumption; simp at g2
      rw [e1] at p1; rw [e2] at p2
      exact not_both p1 p2
    | node pre' l' r' =>
      obtain ⟨k1', v1', f1', p1'⟩ := WF.exists_find hu.1
      obtain ⟨k2', v2', f2', p2'⟩ := WF.exists_find hu.2
      have g1' := h k1'; rw [find_left hu p1', f1'] at g1'
      have g2' := h k2'; rw [find_right hu p2', f2'] at g2'
      have under : ∀ {pre : List Bool} {l r : PTree}, WF p (node pre l r) → ∀ {k v},
          (node pre l r).find k = some v → (p ++ pre) <+: k.bits := by
        intro pre l r hw k v hf
        rw [find_node hw] at hf
        split at hf
        · assumption
        · simp at hf
      have a1 : (p ++ pre') <+: (p ++ pre) :=
        two_sides p1 p2 (under hu g1.symm) (under hu g2.symm)
      have a2 : (p ++ pre) <+: (p ++ pre') :=
        two_sides p1' p2' (under ht g1') (under ht g2')
      have e : pre = pre' := by
        have := List.IsPrefix.eq_of_length_le a1 a2.length_le
        simpa using this.symm
      subst e
      have el : l = l' := ihl ht.1 hu.1 (fun k => by
        by_cases hk : (p ++ pre ++ [false]) <+: k.bits
        · have := h k; rwa [find_left ht hk, find_left hu hk] at this
        · rw [ht.1.find_none hk, hu.1.find_none hk])
      have er : r = r' := ihr ht.2 hu.2 (fun k => by
        by_cases hk : (p ++ pre ++ [true]) <+: k.bits
        · have := h k; rwa [find_right ht hk, find_right hu hk] at this
        · rw [ht.2.find_none hk, hu.2.find_none hk])
      subst el er; rfl

theorem Top.unique {t u : PTree} (ht : Top t) (hu : Top u) (h : ∀ k, t.find k = u.find k) : t = u := by
  rcases ht with rfl | ht <;> rcases hu with rfl | hu
  · rfl
  · obtain ⟨k, v, hf, _⟩ := hu.exists_find
    have := h k; rw [hf] at this; simp [find] at this
  · obtain ⟨k, v, hf, _⟩ := ht.exists_find
    have := h k; rw [hf] at this; simp [find] at this
  · exact WF.unique ht hu h

theorem WF.height_le {p : List Bool} {t : PTree} (h : WF p t) : p.length + t.height ≤ 256 := by
  induction t generalizing p with
  | null => exact h.elim
  | leaf k v => have := h.length_le; simpa [height] using this
  | node pre l r ihl ihr =>
    have h1 := ihl h.1; have h2 := ihr h.2
    simp at h1 h2; simp only [height]; omega

theorem Top.height_le {t : PTree} (h : Top t) : t.height ≤ 256 := by
  rcases h with rfl | h
  · simp [height]
  · have := h.height_le; simpa using this

theorem valsLe_iff {n : Nat} {p : List Bool} {t : PTree} (h : WF p t) :
    t.ValsLe n ↔ ∀ k v, t.find k = some v → v.length ≤ n := by
  induction t generalizing p with
  | null => exact h.elim
  | leaf k v =>
    simp only [ValsLe, find]
    constructor
    · intro hv k' v' hf; split at hf <;> simp_all
    · intro hv; exact hv k v (by simp)
  | node pre l r ihl ihr =>
    simp only [ValsLe, ihl h.1, ihr h.2]
    constructor
    · rintro ⟨h1, h2⟩ k v hf
      simp only [find, Option.or_eq_some_iff] at hf
      rcases hf with hf | ⟨_, hf⟩
      · exact h1 k v hf
      · exact h2 k v hf
    · intro hv
      refine ⟨fun k v hf => hv k v (by simp [find, hf]), fun k v hf => hv k v ?_⟩
      rw [find_right h (h.2.prefix_of_find hf), hf]

theorem ValsLe.mono {m n : Nat} (hmn : m ≤ n) {t : PTree} (h : t.ValsLe m) : t.ValsLe n := by
  induction t with
  | null => trivial
  | leaf k v => exact Nat.le_trans h hmn
  | node pre l r ihl ihr => exact ⟨ihl h.1, ihr h.2⟩

theorem Top.valsLe_iff {n : Nat} {t : PTree} (h : Top t) :
    t.ValsLe n ↔ ∀ k v, t.find k = some v → v.length ≤ n := by
  rcases h with rfl | h
  · simp [ValsLe, find]
  · exact PTree.valsLe_iff h

end PTree
end Urkel
