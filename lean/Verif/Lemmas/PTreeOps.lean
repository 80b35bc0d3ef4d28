import Verif.Lemmas.Tree
import Verif.Spec.Inputs
/-
Functional insert and remove on specification trees and their effect on the
contents. Helpers for the proofs about `treeInsert` and `treeRemove`.
-/
namespace Urkel
namespace PTree


/-- Branch with `x` on side `b`. -/
def mk (b : Bool) (pre : List Bool) (x y : PTree) : PTree :=
  if b then node pre y x else node pre x y

/-- Child on side `b`. -/
def sd (l r : PTree) (b : Bool) : PTree := if b then r else l

def insert (k : B32) (v : Bytes) : PTree → Nat → PTree
  | null, _ => leaf k v
  | leaf k' v', d =>
    if k' = k then leaf k v
    else
      let c := lcp (k'.bits.drop d) (k.bits.drop d)
      mk (kbit k (d + c)) ((k'.bits.drop d).take c) (leaf k v) (leaf k' v')
  | node pre l r, d =>
    let c := lcp pre (k.bits.drop d)
    if c = pre.length then
      if kbit k (d + c) then node pre l (r.insert k v (d + c + 1))
      else node pre (l.insert k v (d + c + 1)) r
    else mk (kbit k (d + c)) (pre.take c) (leaf k v) (node (pre.drop (c + 1)) l r)

def collapse (pre : List Bool) (b : Bool) : PTree → PTree
  | node spre l r => node (pre ++ b :: spre) l r
  | t => t

def remove (k : B32) : PTree → Nat → PTree
  | null, _ => null
  | leaf k' v', _ => if k' = k then null else leaf k' v'
  | node pre l r, d =>
    if kbit k (d + pre.length) then
      match r.remove k (d + pre.length + 1) with
      | null => collapse pre false l
      | z => node pre l z
    else
      match l.remove k (d + pre.length + 1) with
      | null => collapse pre true r
      | z => node pre z r

theorem kbit_eq {k : B32} {d : Nat} (h : d < 256) : k.bits[d]? = some (kbit k d) := by
  unfold kbit
  rw [List.getD_eq_getElem?_getD, List.getElem?_eq_getElem (by simpa using h)]
  rfl

theorem getElem_kbit {k : B32} {d : Nat} (h : d < k.bits.length) : k.bits[d] = kbit k d := by
  have := kbit_eq (k := k) (d := d) (by simpa using h)
  rw [List.getElem?_eq_getElem h] at this
  exact Option.some.inj this

theorem prefix_kbit {k : B32} {q : List Bool} (hp : q <+: k.bits) (h : q.length < 256) :
    (q ++ [kbit k q.length]) <+: k.bits := by
  rw [prefix_snoc_iff]; exact ⟨hp, kbit_eq h⟩

theorem kbit_of_prefix {k : B32} {q : List Bool} {b : Bool} (hp : (q ++ [b]) <+: k.bits) :
    kbit k q.length = b := by
  have h := (prefix_snoc_iff.1 hp).2
  have hl := hp.length_le
  simp at hl
  rw [kbit_eq (by omega)] at h
  exact Option.some.inj h

theorem not_both' {q : List Bool} {m : List Bool} {b : Bool} (h1 : (q ++ [b]) <+: m)
    (h2 : (q ++ [!b]) <+: m) : False := by
  cases b
  · exact not_both h1 h2
  · exact not_both h2 h1

theorem wf_mk {p pre : List Bool} {b : Bool} {x y : PTree} :
    WF p (mk b pre x y) ↔ WF (p ++ pre ++ [b]) x ∧ WF (p ++ pre ++ [!b]) y := by
  cases b <;> simp [mk, WF]
  exact And.comm

theorem find_mk {b : Bool} {pre : List Bool} {x y : PTree} {k : B32}
    (h : x.find k = none ∨ y.find k = none) :
    (mk b pre x y).find k = (x.find k).or (y.find k) := by
  cases b
  · rfl
  · simp only [mk, if_true, find]
    rcases h with h | h <;> rw [h] <;> simp

theorem prefix_append_drop {p l m : List Bool} (hp : p <+: m) :
    (p ++ l) <+: m ↔ l <+: m.drop p.length := by
  obtain ⟨t, rfl⟩ := hp
  simp

theorem take_lcp_prefix (l m : List Bool) : l.take (lcp l m) <+: m := by
  rw [lcp_take]; exact List.take_prefix _ _

theorem lcp_lt_of_ne {k k' : B32} {d : Nat} (h : k' ≠ k) (hd : k'.bits.take d = k.bits.take d) :
    d + lcp (k'.bits.drop d) (k.bits.drop d) < 256 := by
  apply Classical.byContradiction
  intro hc
  apply h
  apply B32.bits_inj
  have h1 := lcp_le_left (k'.bits.drop d) (k.bits.drop d)
  simp at h1
  have e : lcp (k'.bits.drop d) (k.bits.drop d) = (k'.bits.drop d).length := by simp; omega
  have hp := lcp_eq_left_iff.1 e
  have := hp.eq_of_length (by simp)
  rw [← List.take_append_drop d k'.bits, ← List.take_append_drop d k.bits, hd, this]

theorem prefix_take_eq {p m n : List Bool} (h1 : p <+: m) (h2 : p <+: n) :
    m.take p.length = n.take p.length := by
  obtain ⟨t, rfl⟩ := h1
  obtain ⟨u, rfl⟩ := h2
  simp

/-- `insert` keeps the tree well-formed and sets exactly one key. -/
theorem insert_spec {p : List Bool} {t : PTree} (h : WF p t) {k : B32} (hk : p <+: k.bits) (v : Bytes) :
    WF p (t.insert k v p.length) ∧
    ∀ k', (t.insert k v p.length).find k' = if k' = k then some v else t.find k' := by
  induction t generalizing p with
  | null => exact h.elim
  | leaf k0 v0 =>
    simp only [insert]
    have h0 : p <+: k0.bits := h
    split
    · next e =>
      subst e
      refine ⟨hk, fun k' => ?_⟩
      simp only [find]; split <;> simp
    · next hne =>
      have hlt := lcp_lt_of_ne hne (prefix_take_eq h0 hk)
      generalize hc : lcp (k0.bits.drop p.length) (k.bits.drop p.length) = c at *
      have hq0 : (p ++ (k0.bits.drop p.length).take c) <+: k0.bits :=
        (prefix_append_drop h0).2 (List.take_prefix _ _)
      have hq : (p ++ (k0.bits.drop p.length).take c) <+: k.bits :=
        (prefix_append_drop hk).2 (by rw [← hc]; exact take_lcp_prefix _ _)
      have hlen : (p ++ (k0.bits.drop p.length).take c).length = p.length + c := by simp; omega
      have hb : kbit k0 (p.length + c) = !kbit k (p.length + c) := by
        have := lcp_ne (l := k0.bits.drop p.length) (m := k.bits.drop p.length) (by simp; omega) (by simp; omega)
        simp only [hc, List.getElem_drop, getElem_kbit] at this
        exact this
      refine ⟨wf_mk.2 ⟨?_, ?_⟩, fun k' => ?_⟩
      · have := prefix_kbit hq (by omega); rw [hlen] at this; exact this
      · have := prefix_kbit hq0 (by omega); rw [hlen, hb] at this; exact this
      · rw [find_mk]
        · simp only [find]
          by_cases e : k' = k
          · subst e; simp
          · simp [e]
        · simp only [find]
          by_cases e : k' = k
          · right; subst e; rw [if_neg (fun e => hne e.symm)]
          · left; rw [if_neg e]
  | node pre l r ihl ihr =>
    have hlen := h.node_length
    simp only [insert]
    have hle := lcp_le_left pre (k.bits.drop p.length)
    split
    · next hc =>
      rw [hc]
      have hpp : (p ++ pre) <+: k.bits := (prefix_append_drop hk).2 (lcp_eq_left_iff.1 hc)
      have hb := prefix_kbit hpp (by simp; omega)
      simp only [List.length_append] at hb
      split
      · next ht =>
        rw [ht] at hb
        have := ihr h.2 hb
        simp only [List.length_append, List.length_cons, List.length_nil, Nat.zero_add] at this
        refine ⟨⟨h.1, this.1⟩, fun k' => ?_⟩
        simp only [find, this.2]
        by_cases e : k' = k
        · subst e; rw [h.1.find_none (fun h' => not_both h' hb)]; simp
        · simp [e]
      · next hf =>
        simp only [Bool.not_eq_true] at hf
        rw [hf] at hb
        have := ihl h.1 hb
        simp only [List.length_append, List.length_cons, List.length_nil, Nat.zero_add] at this
        refine ⟨⟨this.1, h.2⟩, fun k' => ?_⟩
        simp only [find, this.2]
        by_cases e : k' = k
        · subst e; simp
        · simp [e]
    · next hc =>
      generalize hcc : lcp pre (k.bits.drop p.length) = c at *
      have hq : (p ++ pre.take c) <+: k.bits :=
        (prefix_append_drop hk).2 (by rw [← hcc]; exact take_lcp_prefix _ _)
      have hclt : c < pre.length := by omega
      have hlen2 : (p ++ pre.take c).length = p.length + c := by simp; omega
      have hbit : pre[c] = !kbit k (p.length + c) := by
        have := lcp_ne (l := pre) (m := k.bits.drop p.length) (by omega) (by simp; omega)
        simp only [hcc, List.getElem_drop, getElem_kbit] at this
        exact this
      have hsplit : pre = pre.take c ++ (!kbit k (p.length + c)) :: pre.drop (c + 1) := by
        rw [← hbit, ← List.drop_eq_getElem_cons hclt, List.take_append_drop]
      have hnone : (node pre l r).find k = none := by
        rw [find_node h, if_neg]
        intro hpp
        exact hc (hcc ▸ lcp_eq_left_iff.2 ((prefix_append_drop hk).1 hpp))
      refine ⟨wf_mk.2 ⟨?_, ?_⟩, fun k' => ?_⟩
      · have := prefix_kbit hq (by omega); rw [hlen2] at this; exact this
      · have h2 := h
        rw [hsplit] at h2
        simp only [WF, List.append_assoc, List.cons_append, List.nil_append] at h2 ⊢
        exact h2
      · have hfe : (node (pre.drop (c + 1)) l r).find k' = (node pre l r).find k' := rfl
        rw [find_mk]
        · rw [hfe]
          by_cases e : k' = k
          · subst e; simp [find]
          · have : (leaf k v).find k' = none := by simp [find, e]
            rw [this, if_neg e]; simp
        · rw [hfe]
          by_cases e : k' = k
          · right; rw [e]; exact hnone
          · left; simp [find, e]

theorem find_collapse (pre : List Bool) (b : Bool) (t : PTree) (k : B32) :
    (collapse pre b t).find k = t.find k := by cases t <;> rfl

theorem WF.weaken {p q : List Bool} (h : p <+: q) {k : B32} {v : Bytes} (hw : WF q (leaf k v)) :
    WF p (leaf k v) := List.IsPrefix.trans h hw

theorem wf_collapse {p pre : List Bool} {b : Bool} {t : PTree} (h : WF (p ++ pre ++ [b]) t) :
    WF p (collapse pre b t) := by
  cases t with
  | null => exact h.elim
  | leaf k v => exact WF.weaken ⟨pre ++ [b], by simp⟩ h
  | node spre l r =>
    simp only [collapse, WF] at h ⊢
    simpa using h

/-- `remove` of a present key removes exactly it. -/
theorem remove_spec {p : List Bool} {t : PTree} (h : WF p t) {k : B32} {v : Bytes}
    (hf : t.find k = some v) :
    (t.remove k p.length = null ∨ WF p (t.remove k p.length)) ∧
    ∀ k', (t.remove k p.length).find k' = if k' = k then none else t.find k' := by
  induction t generalizing p with
  | null => exact h.elim
  | leaf k0 v0 =>
    simp only [find] at hf
    split at hf
    · next e =>
      subst e
      refine ⟨Or.inl (by simp [remove]), fun k' => ?_⟩
      simp only [remove, if_true, find]; split <;> simp_all
    · cases hf
  | node pre l r ihl ihr =>
    have hlen := h.node_length
    have hpk := h.prefix_of_find hf
    have hf0 := hf
    rw [find_node h] at hf
    split at hf
    case isFalse => cases hf
    next hpp =>
    have hb := prefix_kbit hpp (by simp; omega)
    simp only [List.length_append] at hb
    simp only [remove]
    split
    · next ht =>
      rw [ht] at hb
      rw [find_right h hb] at hf0
      have hl := h.1.find_none (fun h' => not_both h' hb)
      obtain ⟨h1, h2⟩ := ihr h.2 hf0
      simp only [List.length_append, List.length_cons, List.length_nil, Nat.zero_add] at h1 h2
      generalize hz : r.remove k (p.length + pre.length + 1) = z at *
      have key : ∀ k', (l.find k').or (z.find k') = if k' = k then none else (l.find k').or (r.find k') := by
        intro k'
        rw [h2 k']
        by_cases e : k' = k
        · subst e; simp [hl]
        · simp [e]
      rcases h1 with h1 | h1
      · subst h1
        refine ⟨Or.inr (wf_collapse h.1), fun k' => ?_⟩
        simp only [find_collapse, find]
        rw [← key k']; simp [find]
      · have hne : z ≠ null := by rintro rfl; exact h1
        cases z with
        | null => exact absurd rfl hne
        | leaf k1 v1 => exact ⟨Or.inr ⟨h.1, h1⟩, key⟩
        | node pre1 l1 r1 => exact ⟨Or.inr ⟨h.1, h1⟩, key⟩
    · next ht =>
      simp only [Bool.not_eq_true] at ht
      rw [ht] at hb
      rw [find_left h hb] at hf0
      have hl := h.2.find_none (fun h' => not_both hb h')
      obtain ⟨h1, h2⟩ := ihl h.1 hf0
      simp only [List.length_append, List.length_cons, List.length_nil, Nat.zero_add] at h1 h2
      generalize hz : l.remove k (p.length + pre.length + 1) = z at *
      have key : ∀ k', (z.find k').or (r.find k') = if k' = k then none else (l.find k').or (r.find k') := by
        intro k'
        rw [h2 k']
        by_cases e : k' = k
        · subst e; simp [hl]
        · simp [e]
      rcases h1 with h1 | h1
      · subst h1
        refine ⟨Or.inr (wf_collapse h.2), fun k' => ?_⟩
        simp only [find_collapse, find]
        rw [← key k']; simp [find]
      · have hne : z ≠ null := by rintro rfl; exact h1
        cases z with
        | null => exact absurd rfl hne
        | leaf k1 v1 => exact ⟨Or.inr ⟨h1, h.2⟩, key⟩
        | node pre1 l1 r1 => exact ⟨Or.inr ⟨h1, h.2⟩, key⟩

/-- Replacing a pair by itself, in a well-formed tree, gives the same tree. -/
theorem insert_same {p : List Bool} {t : PTree} (h : WF p t) {k : B32} {v : Bytes}
    (hf : t.find k = some v) : t.insert k v p.length = t := by
  have hk := h.prefix_of_find hf
  obtain ⟨h1, h2⟩ := insert_spec h hk v
  refine h1.unique h (fun k' => ?_)
  rw [h2]; split
  · next e => rw [e, hf]
  · rfl

end PTree
end Urkel
