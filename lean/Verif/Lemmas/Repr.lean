import Verif.Model.Tree
import Verif.Lemmas.PTreeOps
import Verif.Lemmas.Codec
import Verif.Lemmas.Format
/-
Representation relation: which in-memory node, over which readable records,
stands for which specification tree; and correctness of get, insert, remove and
hashing with respect to it.
-/
namespace Urkel

/-- What can be read: pointer to bytes. -/
abbrev Rd := Ptr → Option Bytes

/-- Reads through the store. -/
def Store.rd (s : Store) : Rd := fun p => storeRead s p.size p.index p.pos

/-- `rd'` can read at least what `rd` can, with the same results. -/
def Rd.Le (rd rd' : Rd) : Prop := ∀ p d, rd p = some d → rd' p = some d

theorem Rd.Le.refl (rd : Rd) : Rd.Le rd rd := fun _ _ h => h
theorem Rd.Le.trans {a b c : Rd} (h1 : Rd.Le a b) (h2 : Rd.Le b c) : Rd.Le a c :=
  fun p d h => h2 p d (h1 p d h)

/-- Pointers to node records. -/
structure NPtr (p : Ptr) : Prop where
  ok : PtrOk p
  idx : 1 ≤ p.index
  lo : 1 ≤ p.size
  hi : p.size ≤ 113

/-- The subtree `t` is stored at pointer `p`. -/
def OnDisk (H : HashFn) (rd : Rd) : Ptr → PTree → Prop
  | _, .null => False
  | p, .leaf k v => NPtr p ∧ v.length ≤ 1023 ∧ ∃ d vp, rd p = some d ∧
      (nodeRead d = .ok (some (.leaf none none k none (some vp))) ∧ d = leafBytes k vp) ∧ vp.size ≤ 1023 ∧ rd vp = some v
  | p, .node pre l r => NPtr p ∧ ∃ d b pl pr, rd p = some d ∧ IsBits b pre ∧
      (nodeRead d = .ok (some (.internal none none b (.hash (l.hash H) pl) (.hash (r.hash H) pr))) ∧ d = branchBytes pre pl pr (l.hash H) (r.hash H)) ∧
      OnDisk H rd pl l ∧ OnDisk H rd pr r

/-- The in-memory node stands for the specification tree. -/
def Repr (H : HashFn) (rd : Rd) : Node → PTree → Prop
  | .null, t => t = .null
  | .hash h p, t => OnDisk H rd p t ∧ h = t.hash H
  | .leaf h p k v vp, t => ∃ x, t = .leaf k x ∧ x.length ≤ 1023 ∧ h = some (t.hash H) ∧
      ((v = some x ∧ p = none ∧ vp = none) ∨
        ∃ p' vp', v = none ∧ p = some p' ∧ vp = some vp' ∧ OnDisk H rd p' t ∧
          vp'.size ≤ 1023 ∧ rd vp' = some x)
  | .internal h p b l r, t => ∃ pre tl tr, t = .node pre tl tr ∧ IsBits b pre ∧
      Repr H rd l tl ∧ Repr H rd r tr ∧ (∀ h', h = some h' → h' = t.hash H) ∧
      (∀ p', p = some p' → h.isSome ∧ OnDisk H rd p' t)

theorem OnDisk.nptr {H : HashFn} {rd : Rd} {p : Ptr} {t : PTree} (h : OnDisk H rd p t) : NPtr p := by
  cases t with
  | null => exact h.elim
  | leaf k v => exact h.1
  | node pre l r => exact h.1

theorem OnDisk.mono {H : HashFn} {rd rd' : Rd} (hle : Rd.Le rd rd') {p : Ptr} {t : PTree}
    (h : OnDisk H rd p t) : OnDisk H rd' p t := by
  induction t generalizing p with
  | null => exact h.elim
  | leaf k v =>
    obtain ⟨h1, h2, d, vp, h3, h4, h5, h6⟩ := h
    exact ⟨h1, h2, d, vp, hle _ _ h3, h4, h5, hle _ _ h6⟩
  | node pre l r ihl ihr =>
    obtain ⟨h1, d, b, pl, pr, h3, h4, h5, h6, h7⟩ := h
    exact ⟨h1, d, b, pl, pr, hle _ _ h3, h4, h5, ihl h6, ihr h7⟩

theorem Repr.mono {H : HashFn} {rd rd' : Rd} (hle : Rd.Le rd rd') {n : Node} {t : PTree}
    (h : Repr H rd n t) : Repr H rd' n t := by
  induction n generalizing t with
  | null => exact h
  | hash h' p => exact ⟨h.1.mono hle, h.2⟩
  | leaf h' p k v vp =>
    obtain ⟨x, h1, h2, h3, h4⟩ := h
    refine ⟨x, h1, h2, h3, ?_⟩
    rcases h4 with h4 | ⟨p', vp', a, b, c, d, e, f⟩
    · exact Or.inl h4
    · exact Or.inr ⟨p', vp', a, b, c, d.mono hle, e, hle _ _ f⟩
  | internal h' p b l r ihl ihr =>
    obtain ⟨pre, tl, tr, h1, h2, h3, h4, h5, h6⟩ := h
    exact ⟨pre, tl, tr, h1, h2, ihl h3, ihr h4, h5, fun p' e => ⟨(h6 p' e).1, (h6 p' e).2.mono hle⟩⟩

/-- The path of every branch fits a key. -/
def PTree.PreOk : PTree → Prop
  | .null => True
  | .leaf _ _ => True
  | .node pre l r => pre.length ≤ 256 ∧ l.PreOk ∧ r.PreOk

theorem Repr.null_iff {H : HashFn} {rd : Rd} {n : Node} {t : PTree} (h : Repr H rd n t) :
    n = .null ↔ t = .null := by
  cases n with
  | null => exact ⟨fun _ => h, fun _ => rfl⟩
  | hash h' p =>
    refine ⟨fun e => (nomatch e), ?_⟩
    rintro rfl; exact h.1.elim
  | leaf h' p k v vp =>
    refine ⟨fun e => (nomatch e), ?_⟩
    rintro rfl; obtain ⟨x, h1, _⟩ := h; cases h1
  | internal h' p b l r =>
    refine ⟨fun e => (nomatch e), ?_⟩
    rintro rfl; obtain ⟨x, _, _, h1, _⟩ := h; cases h1

theorem hashInternal_eq {b : Bits} {pre : List Bool} (hb : IsBits b pre) (H : HashFn) (l r : PTree) :
    hashInternal H b (l.hash H) (r.hash H) = (PTree.node pre l r).hash H := by
  unfold hashInternal
  have hs := hb.size
  have hle := hb.le
  cases pre with
  | nil => simp at hs; simp [hs, PTree.hash]
  | cons a pre =>
    have : ¬ (b.size = 0) := by simp at hs; omega
    simp only [beq_iff_eq, this, if_false, PTree.hash, hb.take_data]
    rw [hs]
    congr 1
    simp only [leBytes]
    congr 1
    simp only [List.cons_append, List.nil_append, List.cons.injEq, true_and]
    refine ⟨?_, by simp⟩
    apply UInt8.toNat_inj.1
    simp

theorem hashValue_eq (H : HashFn) (k : B32) (v : Bytes) : hashValue H k v = (PTree.leaf k v).hash H := rfl

/-- Hashing a represented node gives the specification hash, and the memoized
node still represents the same tree. -/
theorem nodeHash_ok {H : HashFn} {rd : Rd} {n : Node} {t : PTree} (h : Repr H rd n t) :
    ∃ n', nodeHash H n = .ok (t.hash H, n') ∧ Repr H rd n' t := by
  induction n generalizing t with
  | null => have : t = .null := h; subst this; exact ⟨_, rfl, rfl⟩
  | hash h' p => refine ⟨_, ?_, h⟩; rw [nodeHash, h.2]
  | leaf h' p k v vp =>
    have hh := h
    obtain ⟨x, h1, h2, h3, h4⟩ := h
    subst h3
    exact ⟨_, by rw [nodeHash], hh⟩
  | internal h' p b l r ihl ihr =>
    have hh := h
    obtain ⟨pre, tl, tr, h1, h2, h3, h4, h5, h6⟩ := h
    cases h' with
    | some h' => refine ⟨_, ?_, hh⟩; rw [nodeHash, h5 h' rfl]
    | none =>
      obtain ⟨l', e1, r1⟩ := ihl h3
      obtain ⟨r', e2, r2⟩ := ihr h4
      refine ⟨.internal (some (t.hash H)) p b l' r', ?_, ?_⟩
      · rw [nodeHash, e1, Res.bind_ok, e2]
        simp only [Res.bind_ok, Res.pure_eq]
        rw [hashInternal_eq h2, h1]
      · exact ⟨pre, tl, tr, h1, h2, r1, r2, fun h' e => (Option.some.inj e).symm,
          fun p' e => ⟨rfl, (h6 p' e).2⟩⟩

theorem nodeRead_some_shape {d : Bytes} {n : Node} (h : nodeRead d = .ok (some n)) :
    (∃ b l r, n = .internal none none b l r) ∨ ∃ k vp, n = .leaf none none k none (some vp) := by
  have hc : ∀ b d', nodeReadChildren b d' = .ok (some n) → ∃ b l r, n = .internal none none b l r := by
    intro b d' h
    unfold nodeReadChildren at h
    split at h
    · cases h
    · simp only [Res.bind_eq_ok, Res.pure_eq] at h
      obtain ⟨⟨_, _⟩, _, ⟨_, _⟩, _, ⟨_, _⟩, _, ⟨_, _⟩, _, h⟩ := h
      cases h; exact ⟨_, _, _, rfl⟩
  unfold nodeRead at h
  split at h
  · cases h
  · simp only [Res.bind_eq_ok] at h
    obtain ⟨⟨t, d'⟩, _, h⟩ := h
    simp only at h
    split at h
    · left
      split at h
      · split at h
        · cases h
        · split at h
          · simp only [Res.bind_eq_ok] at h
            obtain ⟨⟨_, _⟩, _, h⟩ := h
            simp only at h
            split at h
            · cases h
            · split at h
              · cases h
              · simp only [Res.bind_eq_ok] at h
                obtain ⟨_, _, ⟨_, _⟩, _, h⟩ := h
                exact hc _ _ h
          · simp only [Res.bind_eq_ok] at h
            obtain ⟨⟨_, _⟩, _, h⟩ := h
            simp only at h
            split at h
            · cases h
            · split at h
              · cases h
              · simp only [Res.bind_eq_ok] at h
                obtain ⟨_, _, ⟨_, _⟩, _, h⟩ := h
                exact hc _ _ h
      · simp only [Res.bind_eq_ok] at h
        obtain ⟨_, _, h⟩ := h
        exact hc _ _ h
    · split at h
      · right
        split at h
        · cases h
        · simp only [Res.bind_eq_ok, Res.pure_eq] at h
          obtain ⟨⟨_, _⟩, _, ⟨_, _⟩, _, h⟩ := h
          cases h; exact ⟨_, _, rfl⟩
      · cases h

/-- Is it an unloaded node? -/
def Node.isHash : Node → Bool
  | .hash _ _ => true
  | _ => false

/-- Loading a stored node. -/
theorem storeResolve_ok {H : HashFn} {s : Store} {p : Ptr} {t : PTree} (h : OnDisk H s.rd p t) :
    ∃ n, storeResolve s (t.hash H) p = .ok (some n) ∧ Repr H s.rd n t ∧ n.isHash = false := by
  have hp := h.nptr
  have hlo := hp.lo; have hhi := hp.hi
  unfold storeResolve storeReadNode
  rw [if_neg (by omega), storeReadInto_ok (by omega), Res.bind_ok]
  have hrd : ∀ d, s.rd p = some d → storeRead s p.size p.index p.pos = some d := fun d h => h
  cases t with
  | null => exact h.elim
  | leaf k v =>
    have h0 := h
    obtain ⟨h1, h2, d, vp, h3, ⟨h4, _⟩, h5, h6⟩ := h
    rw [hrd d h3]
    simp only [h4, Res.bind_ok, Res.pure_eq]
    exact ⟨_, rfl, ⟨v, rfl, h2, rfl, Or.inr ⟨p, vp, rfl, rfl, rfl, h0, h5, h6⟩⟩, rfl⟩
  | node pre l r =>
    have h0 := h
    obtain ⟨h1, d, b, pl, pr, h3, h4, ⟨h5, _⟩, h6, h7⟩ := h
    rw [hrd d h3]
    simp only [h5, Res.bind_ok, Res.pure_eq]
    refine ⟨_, rfl, ⟨pre, l, r, rfl, h4, ⟨h6, rfl⟩, ⟨h7, rfl⟩, ?_, ?_⟩, rfl⟩
    · rintro h' e; exact (Option.some.inj e).symm
    · rintro p' e; cases e; exact ⟨rfl, h0⟩

theorem storeRetrieve_ok {H : HashFn} {s : Store} {h : Option B32} {p : Option Ptr} {k : B32}
    {v : Option Bytes} {vp : Option Ptr} {k' : B32} {x : Bytes}
    (hr : Repr H s.rd (.leaf h p k v vp) (.leaf k' x)) :
    storeRetrieve s v vp = .ok (some x) := by
  obtain ⟨x', h1, h2, h3, h4⟩ := hr
  cases h1
  rcases h4 with ⟨rfl, rfl, rfl⟩ | ⟨p', vp', rfl, rfl, rfl, _, h5, h6⟩
  · have c : x.length ≤ valueSize := h2
    simp only [storeRetrieve, c, decide_true, check_true, Res.bind_ok, Res.pure_eq]
  · have c : ¬ vp'.size > valueSize := by unfold valueSize; omega
    simp only [storeRetrieve, if_neg c, storeReadInto_ok c]
    exact congrArg Res.ok h6

/-- Recursion depth needed below a node. -/
def cost (n : Node) (t : PTree) : Nat := 2 * t.height + (if n.isHash then 2 else 1)

theorem cost_le (n : Node) (t : PTree) : cost n t ≤ 2 * t.height + 2 := by
  unfold cost; split <;> omega

theorem cost_hash {h : B32} {p : Ptr} {n : Node} {t : PTree} {fuel : Nat} (hh : n.isHash = false)
    (hf : cost (.hash h p) t ≤ fuel + 1) : cost n t ≤ fuel := by
  unfold cost at *
  rw [hh]
  simp [Node.isHash] at hf ⊢; omega

theorem Top.cost_le {t : PTree} (h : t.Top) (n : Node) : cost n t ≤ treeFuel := by
  have := h.height_le
  have := Urkel.cost_le n t
  unfold treeFuel; omega

open PTree

theorem getBit_kbit {k : B32} {d : Nat} (h : d < 256) : getBit k.bytes d = .ok (kbit k d) := by
  rw [k.getBit_ok h, getElem_kbit]

theorem repr_side {H : HashFn} {rd : Rd} {l r : Node} {tl tr : PTree} (hl : Repr H rd l tl)
    (hr : Repr H rd r tr) (b : Bool) : Repr H rd (side l r b) (sd tl tr b) := by
  cases b <;> simpa [side, sd]

theorem height_sd (l r : PTree) (b : Bool) (pre : List Bool) :
    (sd l r b).height + 1 ≤ (node pre l r).height := by
  cases b <;> simp [sd, PTree.height] <;> omega

theorem wf_sd {p pre : List Bool} {l r : PTree} (h : WF p (node pre l r)) (b : Bool) :
    WF (p ++ pre ++ [b]) (sd l r b) := by
  cases b
  · exact h.1
  · exact h.2

theorem find_sd {p pre : List Bool} {l r : PTree} (h : WF p (node pre l r)) {b : Bool} {k : B32}
    (hk : (p ++ pre ++ [b]) <+: k.bits) : (node pre l r).find k = (sd l r b).find k := by
  cases b
  · exact find_left h hk
  · exact find_right h hk

/-- Outcome of a lookup in the specification. -/
def lookupRes (o : Option Bytes) (want : Bool) : Res Bytes :=
  match o with
  | some v => .ok (if want then v else [])
  | none => .err .ENOTFOUND

theorem treeGet_ok {H : HashFn} {s : Store} (key : B32) (want : Bool) (fuel : Nat) {n : Node} {t : PTree}
    {p : List Bool} (hr : Repr H s.rd n t) (hw : t = .null ∨ WF p t) (hp : p <+: key.bits)
    (hfuel : cost n t ≤ fuel) :
    treeGet s key want fuel n p.length = lookupRes (t.find key) want := by
  induction fuel generalizing n t p with
  | zero => unfold cost at hfuel; split at hfuel <;> omega
  | succ fuel ih =>
    cases n with
    | null => have : t = .null := hr; subst this; rfl
    | hash h q =>
      obtain ⟨h1, rfl⟩ := hr
      obtain ⟨n', e1, r1, hh⟩ := storeResolve_ok h1
      rw [treeGet, e1]
      simp only [Res.bind_ok]
      refine ih r1 hw hp ?_
      exact cost_hash hh hfuel
    | leaf h q k v vp =>
      have hr0 := hr
      obtain ⟨x, rfl, _⟩ := hr
      rw [treeGet]
      by_cases e : k = key
      · subst e
        rw [storeRetrieve_ok hr0]
        cases want <;> simp [PTree.find, lookupRes]
      · simp [PTree.find, lookupRes, e, Ne.symm e]
    | internal h q b l r =>
      obtain ⟨pre, tl, tr, rfl, hb, hl, hrr, _, _⟩ := hr
      have hw : WF p (node pre tl tr) := hw.resolve_left (by simp)
      have hlen := hw.node_length
      rw [treeGet, bitsHas_ok hb.has key (by omega), Res.bind_ok, hb.size]
      by_cases hpp : (p ++ pre) <+: key.bits
      · have hbit := prefix_kbit hpp (by simp; omega)
        have : pre.isPrefixOf (key.bits.drop p.length) = true := by
          rw [List.isPrefixOf_iff_prefix]; exact (prefix_append_drop hp).1 hpp
        simp only [this, Bool.not_true, Bool.false_eq_true, if_false]
        rw [getBit_kbit (by omega), Res.bind_ok]
        simp only [List.length_append] at hbit
        rw [find_sd hw hbit]
        have := ih (repr_side hl hrr (kbit key (p.length + pre.length))) (Or.inr (wf_sd hw _)) hbit ?_
        · simpa [Nat.add_assoc] using this
        · have := height_sd tl tr (kbit key (p.length + pre.length)) pre
          have := cost_le (side l r (kbit key (p.length + pre.length))) (sd tl tr (kbit key (p.length + pre.length)))
          simp only [cost, Node.isHash] at hfuel
          simp at hfuel; omega
      · have : pre.isPrefixOf (key.bits.drop p.length) = false := by
          rw [Bool.eq_false_iff, ne_eq, List.isPrefixOf_iff_prefix]
          exact fun h => hpp ((prefix_append_drop hp).2 h)
        simp only [this, Bool.not_false, if_true]
        rw [find_node hw, if_neg hpp]; rfl

theorem repr_createLeaf (H : HashFn) (rd : Rd) (k : B32) {v : Bytes} (hv : v.length ≤ 1023) :
    Repr H rd (createLeaf H k v) (.leaf k v) :=
  ⟨v, rfl, hv, rfl, Or.inl ⟨rfl, rfl, rfl⟩⟩

theorem repr_createInternal {H : HashFn} {rd : Rd} {b : Bits} {pre : List Bool} (hb : IsBits b pre)
    {x y : Node} {tx ty : PTree} (hx : Repr H rd x tx) (hy : Repr H rd y ty) (bit : Bool) :
    Repr H rd (createInternal b x y bit) (mk bit pre tx ty) := by
  cases bit
  · exact ⟨pre, tx, ty, rfl, hb, hx, hy, fun _ h => (nomatch h), fun _ h => (nomatch h)⟩
  · exact ⟨pre, ty, tx, rfl, hb, hy, hx, fun _ h => (nomatch h), fun _ h => (nomatch h)⟩

/-- Outcome of an insertion in terms of the specification: a new node, or
"no update" when the pair is already there. -/
def InsertOut (H : HashFn) (rd : Rd) (t t' : PTree) (k : B32) (v : Bytes) (r : Res Node) : Prop :=
  (∃ n', r = .ok n' ∧ Repr H rd n' t') ∨ (r = .err .ENOUPDATE ∧ t.find k = some v)

theorem treeInsert_ok {E : Env} {s : Store} (key : B32) {value : Bytes} (hv : value.length ≤ 1023)
    (fuel : Nat) {n : Node} {t : PTree} {p : List Bool} (hr : Repr E.H s.rd n t)
    (hw : t = .null ∨ WF p t) (hp : p <+: key.bits) (hfuel : cost n t ≤ fuel) :
    InsertOut E.H s.rd t (t.insert key value p.length) key value
      (treeInsert E s key value fuel n p.length) := by
  induction fuel generalizing n t p with
  | zero => unfold cost at hfuel; split at hfuel <;> omega
  | succ fuel ih =>
    cases n with
    | null =>
      have : t = .null := hr
      subst this
      exact Or.inl ⟨_, rfl, repr_createLeaf _ _ _ hv⟩
    | hash h q =>
      obtain ⟨h1, rfl⟩ := hr
      obtain ⟨n', e1, r1, hh⟩ := storeResolve_ok h1
      rw [treeInsert, e1]
      simp only [Res.bind_ok]
      refine ih r1 hw hp ?_
      exact cost_hash hh hfuel
    | leaf h q k v vp =>
      have hr0 := hr
      obtain ⟨x, rfl, hx, hh, hv4⟩ := hr
      have hw : WF p (.leaf k x) := hw.resolve_left (by simp)
      have hpk : p <+: k.bits := hw
      rw [treeInsert]
      by_cases e : k = key
      · subst e
        simp only [if_true]
        by_cases ve : valueEquals v value = true
        · simp only [ve, if_true]
          right
          refine ⟨rfl, ?_⟩
          rcases hv4 with ⟨rfl, _⟩ | ⟨_, _, rfl, _⟩
          · simp [valueEquals] at ve; simp [PTree.find, ve]
          · simp [valueEquals] at ve
        · simp only [Bool.not_eq_true] at ve
          simp only [ve]
          left
          refine ⟨_, rfl, ?_⟩
          simp only [PTree.insert, if_true]
          exact repr_createLeaf _ _ _ hv
      · simp only [if_neg e]
        have hpl := hpk.length_le
        simp at hpl
        obtain ⟨o, e1, hb⟩ := bitsCollide_ok k.isBits key (d := p.length) (by simpa using hpl)
        rw [e1, Res.bind_ok]
        have hlt := lcp_lt_of_ne e (prefix_take_eq hpk hp)
        have hos : o.size = lcp (k.bits.drop p.length) (key.bits.drop p.length) := by
          rw [hb.size]; simp only [List.length_take]
          have := lcp_le_left (k.bits.drop p.length) (key.bits.drop p.length)
          omega
        rw [hos, getBit_kbit (by omega)]
        simp only [Res.bind_ok, Res.pure_eq]
        left
        refine ⟨_, rfl, ?_⟩
        simp only [PTree.insert, if_neg e]
        exact repr_createInternal hb (repr_createLeaf _ _ _ hv) hr0 _
    | internal h q b l r =>
      obtain ⟨pre, tl, tr, rfl, hb, hl, hrr, _, _⟩ := hr
      have hw : WF p (node pre tl tr) := hw.resolve_left (by simp)
      have hlen := hw.node_length
      have hle := lcp_le_left pre (key.bits.drop p.length)
      rw [treeInsert, bitsCount_ok hb.has key (by omega), Res.bind_ok, hb.size]
      simp only []
      rw [getBit_kbit (by omega), Res.bind_ok]
      by_cases hc : lcp pre (key.bits.drop p.length) = pre.length
      · rw [if_neg (by simpa using hc)]
        have hpp : (p ++ pre) <+: key.bits := (prefix_append_drop hp).2 (lcp_eq_left_iff.1 hc)
        have hbit := prefix_kbit hpp (by simp; omega)
        simp only [List.length_append] at hbit
        have IH := ih (repr_side hl hrr (kbit key (p.length + pre.length))) (Or.inr (wf_sd hw _)) hbit ?_
        · rw [hc]
          simp only [List.length_append, List.length_cons, List.length_nil, Nat.zero_add] at IH
          rcases IH with ⟨n', e1, r1⟩ | ⟨e1, f1⟩
          · left
            rw [e1]
            refine ⟨_, rfl, ?_⟩
            have := repr_createInternal hb r1 (repr_side hl hrr (!kbit key (p.length + pre.length)))
              (kbit key (p.length + pre.length))
            simp only [PTree.insert, hc, if_true]
            cases hkb : kbit key (p.length + pre.length) <;> rw [hkb] at this <;>
              simpa [mk, sd] using this
          · right
            rw [e1]
            refine ⟨rfl, ?_⟩
            rw [find_sd hw hbit]; exact f1
        · have := height_sd tl tr (kbit key (p.length + pre.length)) pre
          have := cost_le (side l r (kbit key (p.length + pre.length))) (sd tl tr (kbit key (p.length + pre.length)))
          simp only [cost, Node.isHash] at hfuel
          simp at hfuel; omega
      · rw [if_pos (by simpa using hc)]
        obtain ⟨f, k, e1, hf, hk⟩ := bitsSplit_ok hb (i := lcp pre (key.bits.drop p.length)) (by omega)
        rw [e1]
        simp only [Res.bind_ok, Res.pure_eq]
        left
        refine ⟨_, rfl, ?_⟩
        simp only [PTree.insert, if_neg hc]
        refine repr_createInternal hf (repr_createLeaf _ _ _ hv) ?_ _
        exact repr_createInternal hk hl hrr false

theorem repr_collapse {H : HashFn} {rd : Rd} {pre : List Bool} {b : Bits} (hb : IsBits b pre)
    {n : Node} {t : PTree} (hr : Repr H rd n t) (hh : n.isHash = false) (bit : Bool)
    (hlen : ∀ spre l r, t = .node spre l r → pre.length + spre.length + 1 ≤ 256) :
    ∃ n', (match n with
          | .internal _ _ spre sl sr => do
            let j ← bitsJoin b spre bit
            pure (createInternal j sl sr false)
          | sd => pure sd) = Res.ok n' ∧ Repr H rd n' (collapse pre bit t) := by
  cases n with
  | null => have : t = .null := hr; subst this; exact ⟨_, rfl, rfl⟩
  | hash h p => simp [Node.isHash] at hh
  | leaf h p k v vp =>
    have hr0 := hr
    obtain ⟨x, rfl, _⟩ := hr
    exact ⟨_, rfl, hr0⟩
  | internal h p sb l r =>
    obtain ⟨spre, tl, tr, rfl, hsb, hl, hrr, _, _⟩ := hr
    obtain ⟨j, e1, hj⟩ := bitsJoin_ok hb hsb bit (hlen _ _ _ rfl)
    simp only [e1, Res.bind_ok, Res.pure_eq]
    exact ⟨_, rfl, repr_createInternal hj hl hrr false⟩

theorem WF.node_sd {p pre : List Bool} {l r : PTree} (h : WF p (node pre l r)) (b : Bool)
    {spre : List Bool} {l' r' : PTree} (e : sd l r b = .node spre l' r') :
    pre.length + spre.length + 1 ≤ 256 := by
  have h1 := wf_sd h b
  rw [e] at h1
  have := h1.node_length
  simp at this; omega

theorem treeRemove_ok {H : HashFn} {s : Store} (key : B32) (fuel : Nat) {n : Node} {t : PTree}
    {p : List Bool} (hr : Repr H s.rd n t) (hw : t = .null ∨ WF p t) (hp : p <+: key.bits)
    (hfuel : cost n t ≤ fuel) :
    match t.find key with
    | none => treeRemove s key fuel n p.length = .err .ENOTFOUND
    | some _ => ∃ n', treeRemove s key fuel n p.length = .ok n' ∧
        Repr H s.rd n' (t.remove key p.length) := by
  induction fuel generalizing n t p with
  | zero => unfold cost at hfuel; split at hfuel <;> omega
  | succ fuel ih =>
    cases n with
    | null =>
      have : t = .null := hr
      subst this
      simp [PTree.find, treeRemove]
    | hash h q =>
      obtain ⟨h1, rfl⟩ := hr
      obtain ⟨n', e1, r1, hh⟩ := storeResolve_ok h1
      rw [treeRemove, e1]
      simp only [Res.bind_ok]
      refine ih r1 hw hp ?_
      exact cost_hash hh hfuel
    | leaf h q k v vp =>
      obtain ⟨x, rfl, _⟩ := hr
      rw [treeRemove]
      by_cases e : k = key
      · subst e
        simp only [PTree.find, if_true, PTree.remove]
        exact ⟨_, if_neg (by simp), rfl⟩
      · simp [PTree.find, e, Ne.symm e]
    | internal h q b l r =>
      obtain ⟨pre, tl, tr, rfl, hb, hl, hrr, _, _⟩ := hr
      have hw : WF p (node pre tl tr) := hw.resolve_left (by simp)
      have hlen := hw.node_length
      rw [treeRemove, bitsHas_ok hb.has key (by omega), Res.bind_ok, hb.size]
      by_cases hpp : (p ++ pre) <+: key.bits
      · have hbit := prefix_kbit hpp (by simp; omega)
        have hpre : pre.isPrefixOf (key.bits.drop p.length) = true := by
          rw [List.isPrefixOf_iff_prefix]; exact (prefix_append_drop hp).1 hpp
        simp only [hpre, Bool.not_true, Bool.false_eq_true, if_false]
        rw [getBit_kbit (by omega), Res.bind_ok]
        simp only [List.length_append] at hbit
        rw [find_sd hw hbit]
        generalize hkb : kbit key (p.length + pre.length) = bit at *
        have IH := ih (repr_side hl hrr bit) (Or.inr (wf_sd hw _)) hbit ?_
        · simp only [List.length_append, List.length_cons, List.length_nil, Nat.zero_add] at IH
          cases hf : (sd tl tr bit).find key with
          | none =>
            rw [hf] at IH
            simp only at IH ⊢
            rw [IH]; rfl
          | some v =>
            rw [hf] at IH
            simp only at IH ⊢
            obtain ⟨z, e1, r1⟩ := IH
            rw [e1]
            simp only [Res.bind_ok]
            have hrem : (node pre tl tr).remove key p.length =
                match (sd tl tr bit).remove key (p.length + pre.length + 1) with
                | .null => collapse pre (!bit) (sd tl tr (!bit))
                | z => mk bit pre z (sd tl tr (!bit)) := by
              simp only [PTree.remove, hkb]
              cases bit
              · simp only [sd, mk, Bool.false_eq_true, if_false, Bool.not_false, if_true]
                cases tl.remove key (p.length + pre.length + 1) <;> rfl
              · simp only [sd, mk, Bool.false_eq_true, if_false, Bool.not_true, if_true]
                cases tr.remove key (p.length + pre.length + 1) <;> rfl
            rw [hrem]
            by_cases hz : z = .null
            · subst hz
              have : (sd tl tr bit).remove key (p.length + pre.length + 1) = .null := r1
              rw [this]
              have hy := repr_side hl hrr (!bit)
              have hcl := fun spre l' r' e => WF.node_sd hw (!bit) (spre := spre) (l' := l') (r' := r') e
              generalize side l r (!bit) = y at *
              generalize sd tl tr (!bit) = ty at *
              cases y with
              | hash h' q' =>
                obtain ⟨h1, rfl⟩ := hy
                obtain ⟨n', e2, r2, hh⟩ := storeResolve_ok h1
                simp only [e2, Res.bind_ok, Res.pure_eq]
                exact repr_collapse hb r2 hh (!bit) hcl
              | null => exact repr_collapse hb hy rfl (!bit) hcl
              | leaf _ _ _ _ _ => exact repr_collapse hb hy rfl (!bit) hcl
              | internal _ _ _ _ _ => exact repr_collapse hb hy rfl (!bit) hcl
            · have hz' : (sd tl tr bit).remove key (p.length + pre.length + 1) ≠ .null :=
                fun e => hz (r1.null_iff.2 e)
              generalize (sd tl tr bit).remove key (p.length + pre.length + 1) = tz at *
              have hmk := repr_createInternal hb r1 (repr_side hl hrr (!bit)) bit
              cases z <;> first
                | exact absurd rfl hz
                | (cases tz <;> first
                    | exact absurd rfl hz'
                    | exact ⟨_, rfl, hmk⟩)
        · have := height_sd tl tr bit pre
          have := cost_le (side l r bit) (sd tl tr bit)
          simp only [cost, Node.isHash] at hfuel
          simp at hfuel; omega
      · have : pre.isPrefixOf (key.bits.drop p.length) = false := by
          rw [Bool.eq_false_iff, ne_eq, List.isPrefixOf_iff_prefix]
          exact fun h => hpp ((prefix_append_drop hp).2 h)
        rw [find_node hw, if_neg hpp]
        simp only [this, Bool.not_false, if_true]

end Urkel
