import Verif.Spec.Again
import Verif.Lemmas.Witness
import Verif.Lemmas.Work
/-
A leaf with its value in memory: where it survives, and that inserting it again finds it.
-/
namespace Urkel

open PTree

/-- The leaf of the pair, with its value, is in memory. -/
def HoldsPair (k : B32) (v : Bytes) : Node → Prop
  | .null => False
  | .hash _ _ => False
  | .leaf _ _ k' v' _ => k' = k ∧ v' = some v
  | .internal _ _ _ l r => HoldsPair k v l ∨ HoldsPair k v r

theorem holds_side {k : B32} {v : Bytes} {h p pre l r} (b : Bool) :
    HoldsPair k v (.internal h p pre l r) ↔ HoldsPair k v (side l r b) ∨ HoldsPair k v (side l r (!b)) := by
  cases b
  · exact Iff.rfl
  · exact Or.comm

theorem holds_create {k : B32} {v : Bytes} {pre : Bits} {x y : Node} (b : Bool) :
    HoldsPair k v (createInternal pre x y b) ↔ HoldsPair k v x ∨ HoldsPair k v y := by
  cases b
  · exact Iff.rfl
  · exact Or.comm

theorem holds_leaf {H : HashFn} (k : B32) (v : Bytes) : HoldsPair k v (createLeaf H k v) := ⟨rfl, rfl⟩

/-- What was just inserted is there. -/
theorem insert_holds {E : Env} {s : Store} {k : B32} {v : Bytes} : ∀ {fuel : Nat} {n n' : Node} {d : Nat},
    treeInsert E s k v fuel n d = .ok n' → HoldsPair k v n'
  | 0, _, _, _, e => by cases e
  | fuel + 1, .null, _, _, e => by cases e; exact holds_leaf k v
  | fuel + 1, .internal _ _ pre l r, n', d, e => by
    rw [treeInsert] at e
    obtain ⟨bits, _, e⟩ := Res.bind_eq_ok.1 e
    obtain ⟨bit, _, e⟩ := Res.bind_eq_ok.1 e
    split at e
    · obtain ⟨⟨f, b⟩, _, e⟩ := Res.bind_eq_ok.1 e
      cases e
      exact (holds_create _).2 (.inl (holds_leaf k v))
    · obtain ⟨z, e1, e⟩ := Res.bind_eq_ok.1 e
      cases e
      exact (holds_create _).2 (.inl (insert_holds e1))
  | fuel + 1, .leaf h p k' v' vp, n', d, e => by
    rw [treeInsert] at e
    split at e
    · split at e
      · cases e
      · cases e; exact holds_leaf k v
    · obtain ⟨pre, _, e⟩ := Res.bind_eq_ok.1 e
      obtain ⟨bit, _, e⟩ := Res.bind_eq_ok.1 e
      cases e
      exact (holds_create _).2 (.inl (holds_leaf k v))
  | fuel + 1, .hash h p, n', d, e => by
    rw [treeInsert] at e
    obtain ⟨r, _, e⟩ := Res.bind_eq_ok.1 e
    cases r with
    | none => cases e
    | some rn => exact insert_holds (n := rn) e

/-- Inserting another key keeps it. -/
theorem insert_keeps {E : Env} {s : Store} {k k' : B32} {v x : Bytes} (hk : k' ≠ k) : ∀ {fuel : Nat} {n n' : Node} {d : Nat},
    treeInsert E s k' x fuel n d = .ok n' → HoldsPair k v n → HoldsPair k v n'
  | 0, _, _, _, e, _ => by cases e
  | fuel + 1, .null, _, _, _, h => h.elim
  | fuel + 1, .internal _ _ pre l r, n', d, e, h => by
    rw [treeInsert] at e
    obtain ⟨bits, _, e⟩ := Res.bind_eq_ok.1 e
    obtain ⟨bit, _, e⟩ := Res.bind_eq_ok.1 e
    split at e
    · obtain ⟨⟨f, b⟩, _, e⟩ := Res.bind_eq_ok.1 e
      cases e
      exact (holds_create _).2 (.inr ((holds_create _).2 h))
    · obtain ⟨z, e1, e⟩ := Res.bind_eq_ok.1 e
      cases e
      refine (holds_create _).2 ?_
      rcases (holds_side bit).1 h with h | h
      · exact .inl (insert_keeps hk e1 h)
      · exact .inr h
  | fuel + 1, .leaf h p q v' vp, n', d, e, hh => by
    rw [treeInsert] at e
    split at e
    · next hq => exact absurd (hq.symm.trans hh.1) hk
    · obtain ⟨pre, _, e⟩ := Res.bind_eq_ok.1 e
      obtain ⟨bit, _, e⟩ := Res.bind_eq_ok.1 e
      cases e
      exact (holds_create _).2 (.inr hh)
  | fuel + 1, .hash h p, n', d, e, hh => hh.elim

/-- So does removing another key. -/
theorem remove_keeps {s : Store} {k k' : B32} {v : Bytes} (hk : k' ≠ k) : ∀ {fuel : Nat} {n n' : Node} {d : Nat},
    treeRemove s k' fuel n d = .ok n' → HoldsPair k v n → HoldsPair k v n'
  | 0, _, _, _, e, _ => by cases e
  | fuel + 1, .null, _, _, _, h => h.elim
  | fuel + 1, .internal _ _ pre l r, n', d, e, h => by
    rw [treeRemove] at e
    obtain ⟨has, _, e⟩ := Res.bind_eq_ok.1 e
    split at e
    · cases e
    · obtain ⟨bit, _, e⟩ := Res.bind_eq_ok.1 e
      obtain ⟨z, e1, e⟩ := Res.bind_eq_ok.1 e
      have hz : HoldsPair k v z ∨ HoldsPair k v (side l r (!bit)) := by
        rcases (holds_side bit).1 h with h | h
        · exact .inl (remove_keeps hk e1 h)
        · exact .inr h
      split at e
      · have hy : HoldsPair k v (side l r (!bit)) := hz.resolve_left id
        generalize side l r (!bit) = y at hy e
        cases y with
        | null => exact hy.elim
        | hash _ _ => exact hy.elim
        | leaf _ _ _ _ _ =>
          obtain ⟨_, e2, e⟩ := Res.bind_eq_ok.1 e
          cases e2; cases e; exact hy
        | internal _ _ spre sl sr =>
          obtain ⟨_, e2, e⟩ := Res.bind_eq_ok.1 e
          cases e2
          obtain ⟨j, _, e⟩ := Res.bind_eq_ok.1 e
          cases e
          exact (holds_create _).2 hy
      · cases e; exact (holds_create _).2 hz
  | fuel + 1, .leaf h p q v' vp, n', d, e, hh => by
    rw [treeRemove] at e
    split at e
    · cases e
    · next hq => exact absurd ((Decidable.not_not.1 hq).symm.trans hh.1) hk
  | fuel + 1, .hash h p, n', d, e, hh => hh.elim

/-- Recording hashes keeps it. -/
theorem hash_keeps {H : HashFn} {k : B32} {v : Bytes} : ∀ {n n' : Node} {h : B32}, nodeHash H n = .ok (h, n') → HoldsPair k v n → HoldsPair k v n'
  | .null, _, _, _, h => h.elim
  | .hash _ _, _, _, _, h => h.elim
  | .internal (some _) _ _ _ _, _, _, e, h => by cases e; exact h
  | .internal none _ _ l r, _, _, e, h => by
    rw [nodeHash] at e
    obtain ⟨⟨_, l'⟩, e1, e⟩ := Res.bind_eq_ok.1 e
    obtain ⟨⟨_, r'⟩, e2, e⟩ := Res.bind_eq_ok.1 e
    cases e
    exact h.imp (hash_keeps e1) (hash_keeps e2)
  | .leaf (some _) _ _ _ _, _, _, e, h => by cases e; exact h
  | .leaf none _ _ (some _) _, _, _, e, h => by cases e; exact h
  | .leaf none _ _ none _, _, _, e, _ => by cases e

/-- A proof keeps it. -/
theorem prove_keeps {E : Env} {s : Store} {k k' : B32} {v : Bytes} : ∀ {fuel : Nat} {n n' : Node} {d m : Nat} {pf : Option Proof},
    treeProve E s k' fuel n d m = .ok (pf, n') → HoldsPair k v n → HoldsPair k v n'
  | 0, _, _, _, _, _, e, _ => by cases e
  | fuel + 1, .null, _, _, _, _, _, h => h.elim
  | fuel + 1, .hash _ _, _, _, _, _, _, h => h.elim
  | fuel + 1, .leaf h p q v' vp, n', d, m, pf, e, hh => by
    rw [treeProve] at e
    obtain ⟨r, _, e⟩ := Res.bind_eq_ok.1 e
    cases r with
    | none => cases e; exact hh
    | some x =>
      dsimp only at e
      split at e <;> (cases e; exact hh)
  | fuel + 1, .internal h p pre l r, n', d, m, pf, e, hh => by
    rw [treeProve] at e
    obtain ⟨has, _, e⟩ := Res.bind_eq_ok.1 e
    split at e
    · obtain ⟨⟨_, l'⟩, e1, e⟩ := Res.bind_eq_ok.1 e
      obtain ⟨⟨_, r'⟩, e2, e⟩ := Res.bind_eq_ok.1 e
      cases e
      exact Or.imp (hash_keeps e1) (hash_keeps e2) hh
    · obtain ⟨bit, _, e⟩ := Res.bind_eq_ok.1 e
      obtain ⟨⟨_, y⟩, e1, e⟩ := Res.bind_eq_ok.1 e
      obtain ⟨_, _, e⟩ := Res.bind_eq_ok.1 e
      obtain ⟨⟨pf', x⟩, e2, e⟩ := Res.bind_eq_ok.1 e
      cases e
      have hxy := Or.imp (prove_keeps e2) (hash_keeps e1) ((holds_side bit).1 hh)
      cases bit
      · exact hxy
      · exact hxy.symm

/-- Nothing read from the files is. -/
theorem resolve_cold {s : Store} {h : B32} {p : Ptr} {n : Node} (e : storeResolve s h p = .ok (some n)) (k : B32) (v : Bytes) : ¬ HoldsPair k v n := by
  unfold storeResolve at e
  obtain ⟨r, e1, e⟩ := Res.bind_eq_ok.1 e
  have hr : ∀ n, r = some n → (∃ q pre hl pl hr pr, n = .internal none (some q) pre (.hash hl pl) (.hash hr pr)) ∨ ∃ q k vp, n = .leaf none (some q) k none vp := by
    intro n hn
    subst hn
    unfold storeReadNode at e1
    split at e1
    · cases e1
    · obtain ⟨x, _, e1⟩ := Res.bind_eq_ok.1 e1
      split at e1
      · cases e1
      · obtain ⟨q, e2, e1⟩ := Res.bind_eq_ok.1 e1
        cases q with
        | none => cases e1
        | some q =>
          rcases nodeRead_shape e2 with ⟨pre, hl, pl, hr, pr, rfl⟩ | ⟨k, vp, rfl⟩
          · cases e1; exact .inl ⟨_, _, _, _, _, _, rfl⟩
          · cases e1; exact .inr ⟨_, _, _, rfl⟩
  cases r with
  | none => cases e
  | some m =>
    rcases hr m rfl with ⟨q, pre, hl, pl, hr, pr, rfl⟩ | ⟨q, k, vp, rfl⟩
    · cases e; exact fun h => h.elim id id
    · cases e; exact fun h => nomatch h.2

/-- The leaf's position. -/
theorem holds_prefix {H : HashFn} {rd : Rd} {k : B32} {v : Bytes} : ∀ {n : Node} {t : PTree} {q : List Bool},
    Repr H rd n t → t = .null ∨ PTree.WF q t → HoldsPair k v n → q <+: k.bits
  | .null, _, _, _, _, h => h.elim
  | .hash _ _, _, _, _, _, h => h.elim
  | .leaf _ _ _ _ _, _, _, hr, hw, h => by
    obtain ⟨x, rfl, _⟩ := hr
    have hw := hw.resolve_left (by simp)
    rw [← h.1]; exact hw
  | .internal _ _ _ l r, _, q, hr, hw, h => by
    obtain ⟨pre, tl, tr, rfl, _, hl, hrr, _⟩ := hr
    have hw := hw.resolve_left (by simp)
    rcases h with h | h
    · exact List.IsPrefix.trans ⟨pre ++ [false], by simp⟩ (holds_prefix hl (.inr hw.1) h)
    · exact List.IsPrefix.trans ⟨pre ++ [true], by simp⟩ (holds_prefix hrr (.inr hw.2) h)

/-- Inserting the pair again finds the leaf. -/
theorem insert_finds {E : Env} {s : Store} {k : B32} {v : Bytes} (fuel : Nat) {n : Node} {t : PTree} {p : List Bool}
    (hr : Repr E.H s.rd n t) (hw : t = .null ∨ PTree.WF p t) (hfuel : cost n t ≤ fuel) (hh : HoldsPair k v n) :
    treeInsert E s k v fuel n p.length = .err .ENOUPDATE := by
  induction fuel generalizing n t p with
  | zero => unfold cost at hfuel; split at hfuel <;> omega
  | succ fuel ih =>
    have hp := holds_prefix hr hw hh
    cases n with
    | null => exact hh.elim
    | hash _ _ => exact hh.elim
    | leaf h q k' v' vp =>
      obtain ⟨rfl, rfl⟩ := hh
      rw [treeInsert, if_pos rfl, if_pos (by simp [valueEquals])]
    | internal h q b l r =>
      obtain ⟨pre, tl, tr, rfl, hb, hl, hrr, _, _⟩ := hr
      have hw : PTree.WF p (.node pre tl tr) := hw.resolve_left (by simp)
      have hlen := hw.node_length
      have hle := lcp_le_left pre (k.bits.drop p.length)
      have key : ∃ bit, HoldsPair k v (side l r bit) := hh.elim (fun h => ⟨false, h⟩) fun h => ⟨true, h⟩
      obtain ⟨bit, hs⟩ := key
      have hpb := holds_prefix (repr_side hl hrr bit) (.inr (wf_sd hw bit)) hs
      have hpp : (p ++ pre) <+: k.bits := List.IsPrefix.trans ⟨[bit], by simp⟩ hpb
      have hc : lcp pre (k.bits.drop p.length) = pre.length := lcp_eq_left_iff.2 ((PTree.prefix_append_drop hp).1 hpp)
      have hbit : kbit k (p.length + pre.length) = bit := by
        rw [← List.length_append]; exact PTree.kbit_of_prefix hpb
      rw [treeInsert, bitsCount_ok hb.has k (by omega), Res.bind_ok, hb.size]
      simp only []
      rw [getBit_kbit (by omega), Res.bind_ok, if_neg (by simpa using hc), hc, hbit]
      have IH := ih (repr_side hl hrr bit) (Or.inr (wf_sd hw bit)) ?_ hs
      · simp only [List.length_append, List.length_cons, List.length_nil, Nat.zero_add] at IH
        rw [IH]; rfl
      · have := height_sd tl tr bit pre
        have := cost_le (side l r bit) (sd tl tr bit)
        simp only [cost, Node.isHash] at hfuel
        simp at hfuel; omega

/-- The insertion reports an unchanged pair only for such a leaf. -/
theorem insert_same {E : Env} {s : Store} {k : B32} {v : Bytes} (fuel : Nat) {n : Node} {t : PTree} {p : List Bool}
    (hr : Repr E.H s.rd n t) (hw : t = .null ∨ PTree.WF p t) (hp : p <+: k.bits)
    (e : treeInsert E s k v fuel n p.length = .err .ENOUPDATE) : HoldsPair k v n := by
  induction fuel generalizing n t p with
  | zero => cases e
  | succ fuel ih =>
    cases n with
    | null => cases e
    | hash h q =>
      obtain ⟨h1, rfl⟩ := hr
      obtain ⟨n', e1, r1, hh⟩ := storeResolve_ok h1
      rw [treeInsert, e1] at e
      exact absurd (ih r1 hw hp e) (resolve_cold e1 k v)
    | leaf h q k' v' vp =>
      obtain ⟨x, rfl, hx, _, hv4⟩ := hr
      have hpk : p <+: k'.bits := hw.resolve_left (by simp)
      rw [treeInsert] at e
      by_cases hk : k' = k
      · subst hk
        rw [if_pos rfl] at e
        refine ⟨rfl, ?_⟩
        cases v' with
        | none => cases e
        | some y =>
          split at e
          · next hq => simp [valueEquals] at hq; rw [hq.2]
          · cases e
      · have hpl := hpk.length_le
        simp at hpl
        obtain ⟨o, e1, hb⟩ := bitsCollide_ok k'.isBits k (d := p.length) (by simpa using hpl)
        have hlt := PTree.lcp_lt_of_ne hk (PTree.prefix_take_eq hpk hp)
        have hos : o.size = lcp (k'.bits.drop p.length) (k.bits.drop p.length) := by
          rw [hb.size]; simp only [List.length_take]
          have := lcp_le_left (k'.bits.drop p.length) (k.bits.drop p.length)
          omega
        rw [if_neg hk, e1, Res.bind_ok, hos] at e
        simp only [] at e
        rw [getBit_kbit (by omega)] at e
        cases e
    | internal h q b l r =>
      obtain ⟨pre, tl, tr, rfl, hb, hl, hrr, _, _⟩ := hr
      have hw : PTree.WF p (.node pre tl tr) := hw.resolve_left (by simp)
      have hlen := hw.node_length
      have hle := lcp_le_left pre (k.bits.drop p.length)
      rw [treeInsert, bitsCount_ok hb.has k (by omega), Res.bind_ok, hb.size] at e
      simp only [] at e
      rw [getBit_kbit (by omega), Res.bind_ok] at e
      by_cases hc : lcp pre (k.bits.drop p.length) = pre.length
      · rw [if_neg (by simpa using hc), hc] at e
        have hpp : (p ++ pre) <+: k.bits := (PTree.prefix_append_drop hp).2 (lcp_eq_left_iff.1 hc)
        have hbit := PTree.prefix_kbit hpp (by simp; omega)
        simp only [List.length_append] at hbit
        have IH := ih (repr_side hl hrr (kbit k (p.length + pre.length))) (Or.inr (wf_sd hw _)) hbit
        simp only [List.length_append, List.length_cons, List.length_nil, Nat.zero_add] at IH
        refine (holds_side (kbit k (p.length + pre.length))).2 (.inl (IH ?_))
        cases hz : treeInsert E s k v fuel (side l r (kbit k (p.length + pre.length))) (p.length + pre.length + 1) with
        | ok z => rw [hz] at e; cases e
        | err x => rw [hz] at e; exact e
        | abort => rw [hz] at e; cases e
        | ub => rw [hz] at e; cases e
      · rw [if_pos (by simpa using hc)] at e
        obtain ⟨f, g, e1, hf, hg⟩ := bitsSplit_ok hb (i := lcp pre (k.bits.drop p.length)) (by omega)
        rw [e1] at e
        cases e

end Urkel
