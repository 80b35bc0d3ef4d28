import Verif.Lemmas.Repr
/-
Merkle proofs: what `treeProve` produces, why it verifies, and why a second
accepted proof cannot say something else.
-/
namespace Urkel
open PTree

/-- The `Bits` value of a bit string. -/
def mkBits (l : List Bool) : Bits := ⟨l.length, pack l ++ List.replicate (32 - (l.length + 7) / 8) 0⟩

theorem mkBits_is {l : List Bool} (h : l.length ≤ 256) : IsBits (mkBits l) l := isBits_pack h
theorem IsBits.eq_mk {b : Bits} {l : List Bool} (h : IsBits b l) : b = mkBits l := h.ext (mkBits_is h.le)

/-- The proof an honest prover builds for a key from a specification tree. -/
def proveSpec (H : HashFn) (key : B32) : PTree → Nat → Proof
  | .null, d => ⟨d, [], .deadend⟩
  | .leaf k v, d => ⟨d, [], if k = key then .exists v else .collision k (H v)⟩
  | .node pre l r, d =>
    if pre.isPrefixOf (key.bits.drop d) then
      if kbit key (d + pre.length) then
        let pf := proveSpec H key r (d + pre.length + 1)
        { pf with nodes := ⟨mkBits pre, l.hash H⟩ :: pf.nodes }
      else
        let pf := proveSpec H key l (d + pre.length + 1)
        { pf with nodes := ⟨mkBits pre, r.hash H⟩ :: pf.nodes }
    else ⟨d, [], .short (mkBits pre) (l.hash H) (r.hash H)⟩

theorem proveSpec_node {H : HashFn} {key : B32} {pre : List Bool} {l r : PTree} {d : Nat}
    (h : pre.isPrefixOf (key.bits.drop d) = true) :
    proveSpec H key (.node pre l r) d =
      { proveSpec H key (sd l r (kbit key (d + pre.length))) (d + pre.length + 1) with
        nodes := ⟨mkBits pre, (sd l r (!kbit key (d + pre.length))).hash H⟩ ::
          (proveSpec H key (sd l r (kbit key (d + pre.length))) (d + pre.length + 1)).nodes } := by
  rw [proveSpec, if_pos h]
  cases kbit key (d + pre.length) <;> rfl

theorem treeProve_ok {E : Env} {s : Store} (key : B32) (fuel : Nat) {n : Node} {t : PTree}
    {p : List Bool} {pushed : Nat} (hr : Repr E.H s.rd n t) (hw : t = .null ∨ WF p t)
    (hp : p <+: key.bits) (hpush : pushed ≤ p.length) (hfuel : cost n t ≤ fuel) :
    ∃ n', treeProve E s key fuel n p.length pushed = .ok (some (proveSpec E.H key t p.length), n') ∧
      Repr E.H s.rd n' t := by
  induction fuel generalizing n t p pushed with
  | zero => unfold cost at hfuel; split at hfuel <;> omega
  | succ fuel ih =>
    cases n with
    | null =>
      have : t = .null := hr
      subst this
      exact ⟨_, rfl, rfl⟩
    | hash h q =>
      have hr0 := hr
      obtain ⟨h1, rfl⟩ := hr
      obtain ⟨n', e1, r1, hh⟩ := storeResolve_ok h1
      obtain ⟨n2, e2, r2⟩ := ih r1 hw hp hpush (cost_hash hh hfuel)
      rw [treeProve, e1]
      simp only [Res.bind_ok, e2, Res.pure_eq]
      exact ⟨_, rfl, hr0⟩
    | leaf h q k v vp =>
      have hr0 := hr
      obtain ⟨x, rfl, hx, hh, hv4⟩ := hr
      rw [treeProve, storeRetrieve_ok hr0]
      simp only [Res.bind_ok, Res.pure_eq, proveSpec]
      by_cases e : k = key
      · simp only [e, if_true]; subst e; exact ⟨_, rfl, hr0⟩
      · simp only [e, if_false]; exact ⟨_, rfl, hr0⟩
    | internal h q b l r =>
      obtain ⟨pre, tl, tr, rfl, hb, hl, hrr, hh, hd⟩ := hr
      have hw : WF p (node pre tl tr) := hw.resolve_left (by simp)
      have hlen := hw.node_length
      have hbe := hb.eq_mk
      rw [treeProve, bitsHas_ok hb.has key (by omega), Res.bind_ok, hb.size]
      by_cases hpp : (p ++ pre) <+: key.bits
      · have hbit := prefix_kbit hpp (by simp; omega)
        have hpre : pre.isPrefixOf (key.bits.drop p.length) = true := by
          rw [List.isPrefixOf_iff_prefix]; exact (prefix_append_drop hp).1 hpp
        rw [proveSpec_node hpre]
        simp only [hpre, Bool.not_true, Bool.false_eq_true, if_false]
        rw [getBit_kbit (by omega), Res.bind_ok]
        simp only [List.length_append] at hbit
        generalize hkb : kbit key (p.length + pre.length) = bit at *
        obtain ⟨y', ey, ry⟩ := nodeHash_ok (repr_side hl hrr (!bit))
        have IH := ih (pushed := pushed + 1) (repr_side hl hrr bit) (Or.inr (wf_sd hw bit)) hbit ?_ ?_
        · obtain ⟨x', ex, rx⟩ := IH
          simp only [List.length_append, List.length_cons, List.length_nil, Nat.zero_add] at ex
          have c : pushed < keyBits := by unfold keyBits; omega
          simp only [ey, Res.bind_ok, c, decide_true, check_true, ex, Res.pure_eq, ← hbe]
          refine ⟨_, rfl, ?_⟩
          cases bit
          · exact ⟨pre, tl, tr, rfl, hb, rx, ry, hh, hd⟩
          · exact ⟨pre, tl, tr, rfl, hb, ry, rx, hh, hd⟩
        · simp; omega
        · have := height_sd tl tr bit pre
          have := cost_le (side l r bit) (sd tl tr bit)
          simp only [cost, Node.isHash] at hfuel
          simp at hfuel; omega
      · have : pre.isPrefixOf (key.bits.drop p.length) = false := by
          rw [Bool.eq_false_iff, ne_eq, List.isPrefixOf_iff_prefix]
          exact fun h => hpp ((prefix_append_drop hp).2 h)
        obtain ⟨l', el, rl⟩ := nodeHash_ok hl
        obtain ⟨r', er, rr⟩ := nodeHash_ok hrr
        simp only [this, Bool.not_false, if_true, el, er, Res.bind_ok, Res.pure_eq, proveSpec,
          Bool.false_eq_true, if_false, ← hbe]
        exact ⟨_, rfl, pre, tl, tr, rfl, hb, rl, rr, hh, hd⟩

/-! ### Shape of proofs -/

/-- Prefix as stored in a parsed proof: at most 256 bits, the bytes after the
last one it needs are zero. -/
structure RawBits (b : Bits) : Prop where
  le : b.size ≤ 256
  data : ∃ x : Bytes, x.length = (b.size + 7) / 8 ∧ b.data = x ++ List.replicate (32 - (b.size + 7) / 8) 0

theorem RawBits.len {b : Bits} (h : RawBits b) : b.data.length = 32 := by
  obtain ⟨x, hx, hd⟩ := h.data
  have := h.le
  rw [hd]; simp [hx]; omega

/-- The weaker condition under which nothing is read out of bounds. -/
structure Sized (b : Bits) : Prop where
  le : b.size ≤ 256
  len : b.data.length = 32

theorem RawBits.sized {b : Bits} (h : RawBits b) : Sized b := ⟨h.le, h.len⟩

theorem RawBits.has {b : Bits} (h : RawBits b) : HasBits b ((bitsOf b.data).take b.size) :=
  hasBits_of h.le h.len

theorem IsBits.raw {b : Bits} {l : List Bool} (h : IsBits b l) : RawBits b := by
  have hl := h.le
  rw [h.eq_mk]
  exact ⟨hl, pack l, by simp [length_pack, mkBits], rfl⟩

/-- Bodies that pass the sanity checks. -/
def BodyOk : PBody → Prop
  | .deadend => True
  | .short pre _ _ => RawBits pre ∧ pre.size ≠ 0
  | .collision _ _ => True
  | .exists v => v.length ≤ 1023

/-- Proofs that the parser can return and the prover can produce. -/
structure ProofOk (p : Proof) : Prop where
  depth : p.depth ≤ 256
  count : p.nodes.length ≤ 256
  nodes : ∀ n ∈ p.nodes, RawBits n.pre
  body : BodyOk p.body

theorem ProofOk.sane {p : Proof} (h : ProofOk p) : proofSane p = true := by
  unfold proofSane keyBits
  have h1 := h.depth; have h2 := h.count; have h3 := h.nodes; have h4 := h.body
  have h3' : (p.nodes.all fun n => decide (n.pre.size ≤ 256)) = true := by
    simp only [List.all_eq_true, decide_eq_true_eq]
    exact fun n hn => (h3 n hn).le
  simp only [h1, h2, h3', decide_true, Bool.true_and]
  cases hb : p.body with
  | deadend => rfl
  | short pre l r => rw [hb] at h4; have := h4.1.le; have := h4.2; simp [*]
  | collision k h => rfl
  | «exists» v => rw [hb] at h4; exact decide_eq_true h4

theorem proveSpec_ok {H : HashFn} {key : B32} {t : PTree} {p : List Bool} (hw : t = .null ∨ WF p t)
    (hp : p <+: key.bits) (hv : t.ValsLe 1023) :
    ProofOk (proveSpec H key t p.length) ∧ p.length + (proveSpec H key t p.length).nodes.length ≤ 256 := by
  have hpl := hp.length_le
  simp at hpl
  induction t generalizing p with
  | null => exact ⟨⟨hpl, by simp [proveSpec], by simp [proveSpec], trivial⟩, by simpa [proveSpec] using hpl⟩
  | leaf k v =>
    refine ⟨⟨hpl, by simp [proveSpec], by simp [proveSpec], ?_⟩, by simpa [proveSpec] using hpl⟩
    simp only [proveSpec]
    split
    · exact hv
    · trivial
  | node pre l r ihl ihr =>
    have hw : WF p (node pre l r) := hw.resolve_left (by simp)
    have hlen := hw.node_length
    by_cases hpp : (p ++ pre) <+: key.bits
    · have hbit := prefix_kbit hpp (by simp; omega)
      have hpre : pre.isPrefixOf (key.bits.drop p.length) = true := by
        rw [List.isPrefixOf_iff_prefix]; exact (prefix_append_drop hp).1 hpp
      rw [proveSpec_node hpre]
      simp only [List.length_append] at hbit
      generalize hkb : kbit key (p.length + pre.length) = bit at *
      have key : ProofOk (proveSpec H key (sd l r bit) (p.length + pre.length + 1)) ∧
          p.length + pre.length + 1 + (proveSpec H key (sd l r bit) (p.length + pre.length + 1)).nodes.length ≤ 256 := by
        cases bit
        · have := ihl (Or.inr hw.1) hbit hv.1 (by simp; omega)
          simpa [Nat.add_assoc, sd] using this
        · have := ihr (Or.inr hw.2) hbit hv.2 (by simp; omega)
          simpa [Nat.add_assoc, sd] using this
      obtain ⟨⟨h1, h2, h3, h4⟩, h5⟩ := key
      refine ⟨⟨h1, ?_, ?_, h4⟩, ?_⟩
      · simp; omega
      · intro n hn
        simp only [List.mem_cons] at hn
        rcases hn with rfl | hn
        · exact (mkBits_is (by omega)).raw
        · exact h3 n hn
      · simp; omega
    · have : pre.isPrefixOf (key.bits.drop p.length) = false := by
        rw [Bool.eq_false_iff, ne_eq, List.isPrefixOf_iff_prefix]
        exact fun h => hpp ((prefix_append_drop hp).2 h)
      simp only [proveSpec, this, Bool.false_eq_true, if_false]
      refine ⟨⟨hpl, by simp, by simp, (mkBits_is (by omega)).raw, ?_⟩, by simpa using hpl⟩
      intro h0
      apply hpp
      have : pre = [] := List.length_eq_zero_iff.1 h0
      rw [this]; simpa using hp

/-! ### Verification -/

theorem verifyLoop_append (H : HashFn) (key : B32) (a b : List PNode) (d : Nat) (h : B32) :
    verifyLoop H key (a ++ b) d h = (do
      let (d', h') ← verifyLoop H key a d h
      verifyLoop H key b d' h') := by
  induction a generalizing d h with
  | nil => simp [verifyLoop]
  | cons n a ih =>
    simp only [List.cons_append, verifyLoop]
    split
    · rfl
    · cases hg : getBit key.bytes (d - 1) with
      | ok bit =>
        simp only [Res.bind_ok]
        cases hh : bitsHas n.pre key.bytes (d - 1 - n.pre.size) with
        | ok has =>
          simp only [Res.bind_ok]
          cases has
          · simp
          · simp [ih]
        | err e => rfl
        | abort => rfl
        | ub => rfl
      | err e => rfl
      | abort => rfl
      | ub => rfl

theorem hashInternal_pre {H : HashFn} {pre : Bits} {l r : B32} :
    hashInternal H pre l r = H (internalPre pre l r) := by
  unfold hashInternal internalPre; split <;> rfl

theorem upHash_pre {H : HashFn} {bit : Bool} {n : PNode} {sub : B32} :
    upHash H bit n sub = H (upPre bit n sub) := by
  unfold upHash upPre; split <;> exact hashInternal_pre

theorem upHash_sd {H : HashFn} {pre : List Bool} (h : pre.length ≤ 256) (l r : PTree) (bit : Bool) :
    upHash H bit ⟨mkBits pre, (sd l r (!bit)).hash H⟩ ((sd l r bit).hash H) =
      (PTree.node pre l r).hash H := by
  cases bit <;> simp only [upHash, sd] <;> exact hashInternal_eq (mkBits_is h) H l r

theorem proveSpec_chain {H : HashFn} {key : B32} {t : PTree} {p : List Bool} (hw : t = .null ∨ WF p t)
    (hp : p <+: key.bits) :
    verifyLoop H key (proveSpec H key t p.length).nodes.reverse (proveSpec H key t p.length).depth
      (bodyHash H key (proveSpec H key t p.length).body) = .ok (p.length, t.hash H) := by
  induction t generalizing p with
  | null => rfl
  | leaf k v =>
    simp only [proveSpec, List.reverse_nil, verifyLoop]
    split
    · next e => subst e; rfl
    · rfl
  | node pre l r ihl ihr =>
    have hw : WF p (node pre l r) := hw.resolve_left (by simp)
    have hlen := hw.node_length
    by_cases hpp : (p ++ pre) <+: key.bits
    · have hbit := prefix_kbit hpp (by simp; omega)
      have hpre : pre.isPrefixOf (key.bits.drop p.length) = true := by
        rw [List.isPrefixOf_iff_prefix]; exact (prefix_append_drop hp).1 hpp
      rw [proveSpec_node hpre]
      simp only [List.length_append] at hbit
      generalize hkb : kbit key (p.length + pre.length) = bit at *
      have IH : verifyLoop H key
          (proveSpec H key (sd l r bit) (p.length + pre.length + 1)).nodes.reverse
          (proveSpec H key (sd l r bit) (p.length + pre.length + 1)).depth
          (bodyHash H key (proveSpec H key (sd l r bit) (p.length + pre.length + 1)).body) =
          .ok (p.length + pre.length + 1, (sd l r bit).hash H) := by
        cases bit
        · have := ihl (Or.inr hw.1) hbit
          simpa [Nat.add_assoc, sd] using this
        · have := ihr (Or.inr hw.2) hbit
          simpa [Nat.add_assoc, sd] using this
      simp only [List.reverse_cons]
      rw [verifyLoop_append, IH]
      simp only [Res.bind_ok, verifyLoop]
      have hsz : (mkBits pre).size = pre.length := rfl
      rw [hsz, if_neg (by omega)]
      have e1 : p.length + pre.length + 1 - 1 = p.length + pre.length := by omega
      have e2 : p.length + pre.length - pre.length = p.length := by omega
      rw [e1, getBit_kbit (by omega), Res.bind_ok, hkb, e2, bitsHas_ok (mkBits_is (by omega)).has key (by omega)]
      simp only [Res.bind_ok, hpre, Bool.not_true, Bool.false_eq_true, if_false]
      have := upHash_sd (H := H) (pre := pre) (by omega) l r bit
      unfold upHash at this
      rw [this]
    · have : pre.isPrefixOf (key.bits.drop p.length) = false := by
        rw [Bool.eq_false_iff, ne_eq, List.isPrefixOf_iff_prefix]
        exact fun h => hpp ((prefix_append_drop hp).2 h)
      simp only [proveSpec, this, Bool.false_eq_true, if_false, List.reverse_nil, verifyLoop, bodyHash]
      rw [hashInternal_eq (mkBits_is (by omega))]

/-- Whether the body's own check (proof.c:360-388) passes. -/
def BodyFits (key : B32) (depth : Nat) : PBody → Prop
  | .deadend => True
  | .short pre _ _ => bitsHas pre key.bytes depth = .ok false
  | .collision k _ => k ≠ key
  | .exists _ => True

theorem proofVerify_eq {H : HashFn} {p : Proof} {key root : B32} (hs : proofSane p = true)
    (hb : BodyFits key p.depth p.body) :
    proofVerify H p key root = (do
      let (depth, next) ← verifyLoop H key p.nodes.reverse p.depth (bodyHash H key p.body)
      if depth ≠ 0 then .err .ETOODEEP
      else if next ≠ root then .err .EHASHMISMATCH
      else pure ()) := by
  unfold proofVerify
  rw [hs]
  simp only [Bool.not_true, Bool.false_eq_true, if_false]
  cases hc : p.body with
  | deadend => rfl
  | short pre l r =>
    rw [hc] at hb
    have hb : bitsHas pre key.bytes p.depth = .ok false := hb
    simp only [hb, Res.bind_ok]; rfl
  | collision k h =>
    rw [hc] at hb
    have hb : k ≠ key := hb
    simp only [if_neg hb]; rfl
  | «exists» v => rfl

theorem proveSpec_fits {H : HashFn} {key : B32} {t : PTree} {p : List Bool} (hw : t = .null ∨ WF p t)
    (hp : p <+: key.bits) :
    BodyFits key (proveSpec H key t p.length).depth (proveSpec H key t p.length).body := by
  induction t generalizing p with
  | null => trivial
  | leaf k v =>
    simp only [proveSpec]
    split
    · trivial
    · next e => exact e
  | node pre l r ihl ihr =>
    have hw : WF p (node pre l r) := hw.resolve_left (by simp)
    have hlen := hw.node_length
    by_cases hpp : (p ++ pre) <+: key.bits
    · have hbit := prefix_kbit hpp (by simp; omega)
      have hpre : pre.isPrefixOf (key.bits.drop p.length) = true := by
        rw [List.isPrefixOf_iff_prefix]; exact (prefix_append_drop hp).1 hpp
      rw [proveSpec_node hpre]
      simp only [List.length_append] at hbit
      generalize hkb : kbit key (p.length + pre.length) = bit at *
      cases bit
      · have := ihl (Or.inr hw.1) hbit
        simpa [Nat.add_assoc, sd] using this
      · have := ihr (Or.inr hw.2) hbit
        simpa [Nat.add_assoc, sd] using this
    · have : pre.isPrefixOf (key.bits.drop p.length) = false := by
        rw [Bool.eq_false_iff, ne_eq, List.isPrefixOf_iff_prefix]
        exact fun h => hpp ((prefix_append_drop hp).2 h)
      simp only [proveSpec, this, Bool.false_eq_true, if_false, BodyFits]
      rw [bitsHas_ok (mkBits_is (by omega)).has key (by omega), this]

/-- What a proof says about its key. -/
def PBody.answer : PBody → Option Bytes
  | .exists v => some v
  | _ => none

theorem proveSpec_answer {H : HashFn} {key : B32} {t : PTree} {p : List Bool} (hw : t = .null ∨ WF p t)
    (hp : p <+: key.bits) : (proveSpec H key t p.length).body.answer = t.find key := by
  induction t generalizing p with
  | null => rfl
  | leaf k v =>
    simp only [proveSpec, PTree.find]
    by_cases e : k = key
    · simp [e, PBody.answer]
    · simp [e, Ne.symm e, PBody.answer]
  | node pre l r ihl ihr =>
    have hw : WF p (node pre l r) := hw.resolve_left (by simp)
    have hlen := hw.node_length
    by_cases hpp : (p ++ pre) <+: key.bits
    · have hbit := prefix_kbit hpp (by simp; omega)
      have hpre : pre.isPrefixOf (key.bits.drop p.length) = true := by
        rw [List.isPrefixOf_iff_prefix]; exact (prefix_append_drop hp).1 hpp
      rw [proveSpec_node hpre]
      simp only [List.length_append] at hbit
      rw [find_sd hw hbit]
      generalize hkb : kbit key (p.length + pre.length) = bit at *
      cases bit
      · have := ihl (Or.inr hw.1) hbit
        simpa [Nat.add_assoc, sd] using this
      · have := ihr (Or.inr hw.2) hbit
        simpa [Nat.add_assoc, sd] using this
    · have : pre.isPrefixOf (key.bits.drop p.length) = false := by
        rw [Bool.eq_false_iff, ne_eq, List.isPrefixOf_iff_prefix]
        exact fun h => hpp ((prefix_append_drop hp).2 h)
      simp only [proveSpec, this, Bool.false_eq_true, if_false, PBody.answer]
      rw [find_node hw, if_neg hpp]

/-- An honest proof verifies against the root hash. -/
theorem proveSpec_verifies {H : HashFn} {key : B32} {t : PTree} (ht : t.Top) (hv : t.ValsLe 1023) :
    proofVerify H (proveSpec H key t 0) key (t.hash H) = .ok () := by
  have hp : ([] : List Bool) <+: key.bits := List.nil_prefix
  have h1 := proveSpec_ok (H := H) ht hp hv
  have h2 := proveSpec_chain (H := H) ht hp
  have h3 := proveSpec_fits (H := H) ht hp
  simp only [List.length_nil] at h1 h2 h3
  rw [proofVerify_eq h1.1.sane h3, h2]
  simp

/-! ### Two accepted proofs agree -/

/-- Top-down reading of an accepted proof. -/
def Chain (H : HashFn) (key : B32) : List PNode → Nat → Nat → B32 → B32 → Prop
  | [], d, e, leafH, root => d = e ∧ leafH = root
  | n :: ns, d, e, leafH, root => d + n.pre.size < 256 ∧ bitsHas n.pre key.bytes d = .ok true ∧
      ∃ sub, Chain H key ns (d + n.pre.size + 1) e leafH sub ∧
        root = upHash H (kbit key (d + n.pre.size)) n sub

theorem chain_of_verifyLoop {H : HashFn} {key : B32} {nodes : List PNode} {e d : Nat} {leafH root : B32}
    (he : e ≤ 256) (h : verifyLoop H key nodes.reverse e leafH = .ok (d, root)) :
    Chain H key nodes d e leafH root ∧ d ≤ e := by
  induction nodes generalizing d root with
  | nil =>
    simp only [List.reverse_nil, verifyLoop, Res.ok.injEq, Prod.mk.injEq] at h
    exact ⟨⟨h.1.symm, h.2⟩, by omega⟩
  | cons n ns ih =>
    simp only [List.reverse_cons] at h
    rw [verifyLoop_append, Res.bind_eq_ok] at h
    obtain ⟨⟨d', sub⟩, h1, h2⟩ := h
    obtain ⟨ih1, ih2⟩ := ih h1
    simp only [verifyLoop] at h2
    split at h2
    · cases h2
    · next hd =>
      rw [getBit_kbit (by omega), Res.bind_ok, Res.bind_eq_ok] at h2
      obtain ⟨has, h3, h4⟩ := h2
      cases has
      · simp at h4
      · simp only [Bool.not_true, Bool.false_eq_true, if_false, Res.ok.injEq, Prod.mk.injEq] at h4
        obtain ⟨rfl, rfl⟩ := h4
        have e1 : d' - 1 - n.pre.size + n.pre.size = d' - 1 := by omega
        refine ⟨⟨by omega, h3, sub, ?_, ?_⟩, by omega⟩
        · have : d' - 1 - n.pre.size + n.pre.size + 1 = d' := by omega
          rw [this]; exact ih1
        · rw [e1]; rfl

theorem leBytes_inj {n a b : Nat} (ha : a < 256 ^ n) (hb : b < 256 ^ n) (h : leBytes n a = leBytes n b) : a = b := by
  have := congrArg leNat h
  rw [leNat_leBytes, leNat_leBytes, Nat.mod_eq_of_lt ha, Nat.mod_eq_of_lt hb] at this
  exact this

/-- The string hashed for a branch determines its parts. -/
theorem internalPre_inj {a b : Bits} (ha : RawBits a) (hb : RawBits b) {l r l' r' : B32}
    (h : internalPre a l r = internalPre b l' r') : a = b ∧ l = l' ∧ r = r' := by
  have hla := ha.le; have hlb := hb.le
  obtain ⟨xa, hxa, hda⟩ := ha.data
  obtain ⟨xb, hxb, hdb⟩ := hb.data
  unfold internalPre at h
  by_cases h1 : a.size = 0 <;> by_cases h2 : b.size = 0
  · simp only [h1, h2, beq_self_eq_true, if_true] at h
    have e := h
    simp only [List.cons_append, List.nil_append, List.cons.injEq, true_and] at e
    obtain ⟨e1, e2⟩ := List.append_inj e (by rw [l.len, l'.len])
    refine ⟨?_, B32.ext e1, B32.ext e2⟩
    cases a; cases b
    simp only at h1 h2 hda hdb hxa hxb
    subst h1 h2
    simp at hxa hxb
    simp [hda, hdb, hxa, hxb]
  · simp only [h1, beq_self_eq_true, if_true, beq_iff_eq, h2, if_false] at h
    simp at h
  · simp only [h2, beq_self_eq_true, if_true, beq_iff_eq, h1, if_false] at h
    simp at h
  · simp only [beq_iff_eq, h1, h2, if_false] at h
    have e := h
    simp only [List.append_assoc, List.cons_append, List.nil_append, List.cons.injEq, true_and] at e
    obtain ⟨e1, e⟩ := List.append_inj e (by simp)
    have hs : a.size = b.size := leBytes_inj (by omega) (by omega) e1
    have la := ha.len; have lb := hb.len
    obtain ⟨e2, e⟩ := List.append_inj e (by simp [hs, la, lb])
    obtain ⟨e3, e4⟩ := List.append_inj e (by rw [l.len, l'.len])
    refine ⟨?_, B32.ext e3, B32.ext e4⟩
    rw [hda, hdb, ← hs] at e2
    rw [List.take_append_of_le_length (by omega), List.take_append_of_le_length (by rw [hs]; omega)] at e2
    rw [List.take_of_length_le (by omega), List.take_of_length_le (by rw [hs]; omega)] at e2
    cases a; cases b
    simp only at hs hda hdb e2
    subst hs e2
    rw [hda, hdb]

theorem inj_or_broken {H : HashFn} {S : List Bytes} {x y : Bytes} (hx : x ∈ S) (hy : y ∈ S) (h : H x = H y) :
    BrokenOn H S ∨ x = y := by
  by_cases e : x = y
  · exact Or.inr e
  · exact Or.inl (Or.inl ⟨x, hx, y, hy, e, h⟩)

theorem BrokenOn.mono {H : HashFn} {S T : List Bytes} (h : BrokenOn H S) (hst : ∀ x ∈ S, x ∈ T) : BrokenOn H T := by
  rcases h with ⟨x, hx, y, hy, h⟩ | ⟨x, hx, h⟩
  · exact Or.inl ⟨x, hst x hx, y, hst y hy, h⟩
  · exact Or.inr ⟨x, hst x hx, h⟩

theorem hashInternal_inj {H : HashFn} {S : List Bytes} {a b : Bits} (ha : RawBits a) (hb : RawBits b)
    {l r l' r' : B32} (hx : internalPre a l r ∈ S) (hy : internalPre b l' r' ∈ S)
    (h : hashInternal H a l r = hashInternal H b l' r') :
    BrokenOn H S ∨ (a = b ∧ l = l' ∧ r = r') := by
  rw [hashInternal_pre, hashInternal_pre] at h
  exact (inj_or_broken hx hy h).imp id (internalPre_inj ha hb)

theorem internalPre_ne_leafPre {a : Bits} {l r k vh : B32} : internalPre a l r ≠ leafPre k vh := by
  unfold internalPre leafPre
  split <;> simp

theorem hashInternal_zero {H : HashFn} {S : List Bytes} {b : Bits} {l r : B32} (hx : internalPre b l r ∈ S)
    (h : hashInternal H b l r = B32.zero) : BrokenOn H S := by
  rw [hashInternal_pre] at h
  exact Or.inr ⟨_, hx, h⟩

theorem hashInternal_leaf {H : HashFn} {S : List Bytes} {b : Bits} {l r k vh : B32}
    (hx : internalPre b l r ∈ S) (hy : leafPre k vh ∈ S)
    (h : hashInternal H b l r = hashLeaf H k vh) : BrokenOn H S := by
  rw [hashInternal_pre] at h
  exact (inj_or_broken hx hy h).elim id (fun e => absurd e internalPre_ne_leafPre)

theorem hashLeaf_inj {H : HashFn} {S : List Bytes} {k k' v v' : B32} (hx : leafPre k v ∈ S) (hy : leafPre k' v' ∈ S)
    (h : hashLeaf H k v = hashLeaf H k' v') : BrokenOn H S ∨ (k = k' ∧ v = v') := by
  refine (inj_or_broken hx hy h).imp id (fun e => ?_)
  unfold leafPre at e
  simp only [List.cons_append, List.nil_append, List.cons.injEq, true_and] at e
  obtain ⟨e1, e2⟩ := List.append_inj e (by rw [k.len, k'.len])
  exact ⟨B32.ext e1, B32.ext e2⟩

theorem upHash_cases {H : HashFn} {bit : Bool} {n : PNode} {sub : B32} :
    ∃ l r, upHash H bit n sub = hashInternal H n.pre l r ∧ upPre bit n sub = internalPre n.pre l r := by
  unfold upHash upPre; split <;> exact ⟨_, _, rfl, rfl⟩

theorem bodies_agree {H : HashFn} {S : List Bytes} {key : B32} {d : Nat} {a b : PBody} (fa : BodyFits key d a)
    (fb : BodyFits key d b) (sa : ∀ x ∈ bodyInputs H key a, x ∈ S) (sb : ∀ x ∈ bodyInputs H key b, x ∈ S)
    (h : bodyHash H key a = bodyHash H key b) :
    BrokenOn H S ∨ a.answer = b.answer := by
  have leafv : ∀ v : Bytes, ∀ k h' : B32, k ≠ key → leafPre k h' ∈ S → leafPre key (H v) ∈ S →
      hashLeaf H k h' = hashValue H key v → BrokenOn H S := by
    intro v k h' hne h1 h2 he
    exact (hashLeaf_inj h1 h2 he).elim id (fun e => absurd e.1 hne)
  cases a with
  | deadend => cases b with
    | «exists» v => exact Or.inl (Or.inr ⟨leafPre key (H v), sb _ (by simp [bodyInputs]), h.symm⟩)
    | _ => exact Or.inr rfl
  | short pre l r => cases b with
    | «exists» v => exact Or.inl (hashInternal_leaf (sa _ (by simp [bodyInputs])) (sb _ (by simp [bodyInputs])) h)
    | _ => exact Or.inr rfl
  | collision k h' => cases b with
    | «exists» v => exact Or.inl (leafv v k h' fa (sa _ (by simp [bodyInputs])) (sb _ (by simp [bodyInputs])) h)
    | _ => exact Or.inr rfl
  | «exists» v => cases b with
    | «exists» v' =>
      rcases hashLeaf_inj (sa _ (by simp [bodyInputs])) (sb _ (by simp [bodyInputs])) h with hb | ⟨_, hv⟩
      · exact Or.inl hb
      · exact (inj_or_broken (sa _ (by simp [bodyInputs])) (sb _ (by simp [bodyInputs])) hv).imp id
          (fun e => by simp [PBody.answer, e])
    | deadend => exact Or.inl (Or.inr ⟨leafPre key (H v), sa _ (by simp [bodyInputs]), h⟩)
    | short pre l r =>
      exact Or.inl (hashInternal_leaf (sb _ (by simp [bodyInputs])) (sa _ (by simp [bodyInputs])) h.symm)
    | collision k h' =>
      exact Or.inl (leafv v k h' fb (sb _ (by simp [bodyInputs])) (sa _ (by simp [bodyInputs])) h.symm)

/-- A proof that stops where another one goes on. -/
theorem stop_vs_go {H : HashFn} {S : List Bytes} {key : B32} {d : Nat} {a : PBody} {n : PNode} {sub : B32} {bit : Bool}
    (oka : BodyOk a) (fa : BodyFits key d a) (hn : RawBits n.pre)
    (sa : ∀ x ∈ bodyInputs H key a, x ∈ S) (sn : upPre bit n sub ∈ S)
    (hh : bitsHas n.pre key.bytes d = .ok true) (h : bodyHash H key a = upHash H bit n sub) :
    BrokenOn H S := by
  obtain ⟨l, r, e, e'⟩ := upHash_cases (H := H) (bit := bit) (n := n) (sub := sub)
  rw [e] at h
  rw [e'] at sn
  cases a with
  | deadend => exact hashInternal_zero sn h.symm
  | short pre l' r' =>
    rcases hashInternal_inj oka.1 hn (sa _ (by simp [bodyInputs])) sn h with hb | ⟨hp, _⟩
    · exact hb
    · exfalso
      have fa : bitsHas pre key.bytes d = .ok false := fa
      rw [hp, hh] at fa
      cases fa
  | collision k h' => exact hashInternal_leaf sn (sa _ (by simp [bodyInputs])) h.symm
  | «exists» v => exact hashInternal_leaf sn (sa _ (by simp [bodyInputs])) h.symm

theorem Chain.fold {H : HashFn} {key : B32} {ns : List PNode} {d e : Nat} {leafH root : B32}
    (h : Chain H key ns d e leafH root) : root = upFold H key leafH ns d := by
  induction ns generalizing d root with
  | nil => exact h.2.symm
  | cons n ns ih =>
    obtain ⟨_, _, sub, c, rfl⟩ := h
    rw [upFold, ← ih c]

theorem chains_agree {H : HashFn} {S : List Bytes} {key : B32} {a b : PBody} (oka : BodyOk a) (okb : BodyOk b)
    {e e' : Nat} (fa : BodyFits key e a) (fb : BodyFits key e' b) {ns ms : List PNode} {d : Nat} {root : B32}
    (hns : ∀ n ∈ ns, RawBits n.pre) (hms : ∀ n ∈ ms, RawBits n.pre)
    (sa : ∀ x ∈ bodyInputs H key a, x ∈ S) (sb : ∀ x ∈ bodyInputs H key b, x ∈ S)
    (sns : ∀ x ∈ upInputs H key (bodyHash H key a) ns d, x ∈ S)
    (sms : ∀ x ∈ upInputs H key (bodyHash H key b) ms d, x ∈ S)
    (ca : Chain H key ns d e (bodyHash H key a) root) (cb : Chain H key ms d e' (bodyHash H key b) root) :
    BrokenOn H S ∨ a.answer = b.answer := by
  induction ns generalizing ms d root with
  | nil =>
    obtain ⟨rfl, rfl⟩ := ca
    cases ms with
    | nil => obtain ⟨rfl, h⟩ := cb; exact bodies_agree fa fb sa sb h.symm
    | cons m ms =>
      obtain ⟨_, h1, sub, c, h2⟩ := cb
      have := c.fold
      subst this
      exact Or.inl (stop_vs_go oka fa (hms m (by simp)) sa (sms _ (by simp [upInputs])) h1 h2)
  | cons n ns ih =>
    cases ms with
    | nil =>
      obtain ⟨rfl, rfl⟩ := cb
      obtain ⟨_, h1, sub, c, h2⟩ := ca
      have := c.fold
      subst this
      exact Or.inl (stop_vs_go okb fb (hns n (by simp)) sb (sns _ (by simp [upInputs])) h1 h2)
    | cons m ms =>
      obtain ⟨_, h1, sub, c1, h2⟩ := ca
      obtain ⟨_, h3, sub', c2, h4⟩ := cb
      have hn := hns n (by simp); have hm := hms m (by simp)
      have g1 := sns _ (by rw [upInputs]; exact List.mem_cons_self)
      have g2 := sms _ (by rw [upInputs]; exact List.mem_cons_self)
      rw [← c1.fold] at g1
      rw [← c2.fold] at g2
      rw [h2] at h4
      obtain ⟨l, r, e1, f1⟩ := upHash_cases (H := H) (bit := kbit key (d + n.pre.size)) (n := n) (sub := sub)
      obtain ⟨l', r', e2, f2⟩ := upHash_cases (H := H) (bit := kbit key (d + m.pre.size)) (n := m) (sub := sub')
      have h5 := h4
      rw [e1, e2] at h5
      rcases hashInternal_inj hn hm (f1 ▸ g1) (f2 ▸ g2) h5 with hb | ⟨hp, _⟩
      · exact Or.inl hb
      · rw [hp] at h4 c1 g1
        have h6 : BrokenOn H S ∨ sub = sub' := by
          unfold upHash at h4
          unfold upPre at g1 g2
          rw [hp] at h4 g1
          split at h4
          · next hb =>
            rw [if_pos hb] at g1 g2
            exact (hashInternal_inj hm hm g1 g2 h4).imp id (fun h => h.2.2)
          · next hb =>
            rw [if_neg hb] at g1 g2
            exact (hashInternal_inj hm hm g1 g2 h4).imp id (fun h => h.2.1)
        rcases h6 with hb | rfl
        · exact Or.inl hb
        · refine ih (fun n hn => hns n (by simp [hn])) (fun n hn => hms n (by simp [hn])) ?_ ?_ c1 c2
          · intro x hx; exact sns x (by rw [upInputs, hp]; exact List.mem_cons_of_mem _ hx)
          · intro x hx; exact sms x (by rw [upInputs]; exact List.mem_cons_of_mem _ hx)

/-- An accepted proof satisfies its body check and reads top-down. -/
theorem proofVerify_inv {H : HashFn} {p : Proof} {key root : B32} (hok : ProofOk p)
    (h : proofVerify H p key root = .ok ()) :
    BodyFits key p.depth p.body ∧ Chain H key p.nodes 0 p.depth (bodyHash H key p.body) root := by
  have hf : BodyFits key p.depth p.body := by
    unfold proofVerify at h
    rw [hok.sane] at h
    simp only [Bool.not_true, Bool.false_eq_true, if_false] at h
    cases hb : p.body with
    | deadend => trivial
    | short pre l r =>
      rw [hb] at h
      show bitsHas pre key.bytes p.depth = .ok false
      cases hbh : bitsHas pre key.bytes p.depth with
      | ok has =>
        cases has
        · rfl
        · simp [hbh] at h
      | err e => simp [hbh] at h
      | abort => simp [hbh] at h
      | ub => simp [hbh] at h
    | collision k h' =>
      rw [hb] at h
      intro e
      simp [e] at h
    | «exists» v => trivial
  refine ⟨hf, ?_⟩
  rw [proofVerify_eq hok.sane hf, Res.bind_eq_ok] at h
  obtain ⟨⟨d, r⟩, h1, h2⟩ := h
  simp only at h2
  split at h2
  · cases h2
  · next hd =>
    split at h2
    · cases h2
    · next hr =>
      simp only [ne_eq, Decidable.not_not] at hd hr
      subst hd hr
      exact (chain_of_verifyLoop hok.depth h1).1

theorem proofs_agree {H : HashFn} {S : List Bytes} {p q : Proof} {key root : B32} (hp : ProofOk p) (hq : ProofOk q)
    (sp : ∀ x ∈ p.inputs H key, x ∈ S) (sq : ∀ x ∈ q.inputs H key, x ∈ S)
    (vp : proofVerify H p key root = .ok ()) (vq : proofVerify H q key root = .ok ()) :
    BrokenOn H S ∨ p.body.answer = q.body.answer := by
  obtain ⟨f1, c1⟩ := proofVerify_inv hp vp
  obtain ⟨f2, c2⟩ := proofVerify_inv hq vq
  exact chains_agree hp.body hq.body f1 f2 hp.nodes hq.nodes
    (fun x h => sp x (List.mem_append_left _ h)) (fun x h => sq x (List.mem_append_left _ h))
    (fun x h => sp x (List.mem_append_right _ h)) (fun x h => sq x (List.mem_append_right _ h)) c1 c2

theorem leaf_pre (H : HashFn) (k : B32) (v : Bytes) : leafPre k (H v) ∈ (PTree.leaf k v).inputs H := by
  simp [PTree.inputs, leafPre]

theorem node_inputs {H : HashFn} {b : Bits} {pre : List Bool} (hb : IsBits b pre) (l r : PTree) :
    (PTree.node pre l r).inputs H = internalPre b (l.hash H) (r.hash H) :: (l.inputs H ++ r.inputs H) := by
  unfold internalPre
  have hs := hb.size
  have hle := hb.le
  cases pre with
  | nil => simp at hs; simp [hs, PTree.inputs]
  | cons a pre =>
    have : ¬ (b.size = 0) := by simp at hs; omega
    simp only [beq_iff_eq, this, if_false, PTree.inputs, hb.take_data]
    rw [hs]
    congr 1
    simp only [leBytes]
    simp only [List.cons_append, List.nil_append, List.cons.injEq, true_and]
    refine ⟨?_, by simp⟩
    apply UInt8.toNat_inj.1
    simp

theorem mkBits_inj {l m : List Bool} (hl : l.length ≤ 256) (hm : m.length ≤ 256) (h : mkBits l = mkBits m) : l = m := by
  have h1 := (mkBits_is hl).bits
  have h2 := (mkBits_is hm).bits
  have hs : l.length = m.length := congrArg Bits.size h
  rw [h] at h1
  rw [h1] at h2
  exact (List.append_inj h2 hs).1

/-- Everything hashed when verifying an honest proof is hashed by the tree. -/
theorem proveSpec_inputs {H : HashFn} {key : B32} {t : PTree} {p : List Bool} (hw : t = .null ∨ WF p t)
    (hp : p <+: key.bits) :
    (∀ x ∈ bodyInputs H key (proveSpec H key t p.length).body, x ∈ t.inputs H) ∧
    (∀ x ∈ upInputs H key (bodyHash H key (proveSpec H key t p.length).body)
        (proveSpec H key t p.length).nodes p.length, x ∈ t.inputs H) ∧
    upFold H key (bodyHash H key (proveSpec H key t p.length).body)
        (proveSpec H key t p.length).nodes p.length = t.hash H := by
  induction t generalizing p with
  | null => simp [proveSpec, bodyInputs, upInputs, upFold, bodyHash, PTree.hash]
  | leaf k v =>
    simp only [proveSpec, upInputs, upFold]
    split
    · next e => subst e; exact ⟨fun x h => h, by simp, rfl⟩
    · refine ⟨?_, by simp, rfl⟩
      intro x h
      simp only [bodyInputs, List.mem_singleton] at h
      subst h; exact leaf_pre H k v
  | node pre l r ihl ihr =>
    have hw : WF p (node pre l r) := hw.resolve_left (by simp)
    have hlen := hw.node_length
    rw [node_inputs (H := H) (mkBits_is (l := pre) (by omega)) l r]
    by_cases hpp : (p ++ pre) <+: key.bits
    · have hbit := prefix_kbit hpp (by simp; omega)
      have hpre : pre.isPrefixOf (key.bits.drop p.length) = true := by
        rw [List.isPrefixOf_iff_prefix]; exact (prefix_append_drop hp).1 hpp
      rw [proveSpec_node hpre]
      simp only [List.length_append] at hbit
      generalize hkb : kbit key (p.length + pre.length) = bit at *
      have hsz : (mkBits pre).size = pre.length := rfl
      have IH : (∀ x ∈ bodyInputs H key (proveSpec H key (sd l r bit) (p.length + pre.length + 1)).body,
            x ∈ l.inputs H ++ r.inputs H) ∧
          (∀ x ∈ upInputs H key (bodyHash H key (proveSpec H key (sd l r bit) (p.length + pre.length + 1)).body)
            (proveSpec H key (sd l r bit) (p.length + pre.length + 1)).nodes (p.length + pre.length + 1),
            x ∈ l.inputs H ++ r.inputs H) ∧
          upFold H key (bodyHash H key (proveSpec H key (sd l r bit) (p.length + pre.length + 1)).body)
            (proveSpec H key (sd l r bit) (p.length + pre.length + 1)).nodes (p.length + pre.length + 1) =
            (sd l r bit).hash H := by
        cases bit
        · obtain ⟨a1, a2, a3⟩ := ihl (Or.inr hw.1) hbit
          simp only [List.length_append, List.length_cons, List.length_nil] at a1 a2 a3
          exact ⟨fun x h => List.mem_append_left _ (a1 x h), fun x h => List.mem_append_left _ (a2 x h), a3⟩
        · obtain ⟨a1, a2, a3⟩ := ihr (Or.inr hw.2) hbit
          simp only [List.length_append, List.length_cons, List.length_nil] at a1 a2 a3
          exact ⟨fun x h => List.mem_append_right _ (a1 x h), fun x h => List.mem_append_right _ (a2 x h), a3⟩
      obtain ⟨a1, a2, a3⟩ := IH
      refine ⟨fun x h => List.mem_cons_of_mem _ (a1 x h), ?_, ?_⟩
      · intro x h
        simp only [upInputs, hsz, List.mem_cons] at h
        rcases h with rfl | h
        · rw [hkb, a3]
          refine List.mem_cons.2 (Or.inl ?_)
          cases bit <;> rfl
        · exact List.mem_cons_of_mem _ (a2 x h)
      · simp only [upFold, hsz]
        rw [hkb, a3]
        exact upHash_sd (by omega) l r bit
    · have : pre.isPrefixOf (key.bits.drop p.length) = false := by
        rw [Bool.eq_false_iff, ne_eq, List.isPrefixOf_iff_prefix]
        exact fun h => hpp ((prefix_append_drop hp).2 h)
      simp only [proveSpec, this, Bool.false_eq_true, if_false, bodyInputs, upInputs, upFold, bodyHash]
      refine ⟨fun x h => ?_, by simp, hashInternal_eq (mkBits_is (by omega)) H l r⟩
      simp only [List.mem_singleton] at h
      subst h; exact List.mem_cons_self

/-- An accepted proof against the root of a tree tells the truth. -/
theorem proof_sound {H : HashFn} {p : Proof} {key : B32} {t : PTree} (hp : ProofOk p) (ht : t.Top)
    (hv : t.ValsLe 1023) (vp : proofVerify H p key (t.hash H) = .ok ()) :
    BrokenOn H (t.inputs H ++ p.inputs H key) ∨ p.body.answer = t.find key := by
  have hnil : ([] : List Bool) <+: key.bits := List.nil_prefix
  have h1 := proveSpec_ok (H := H) ht hnil hv
  have h2 := proveSpec_inputs (H := H) ht hnil
  have h3 := proveSpec_answer (H := H) ht hnil
  simp only [List.length_nil] at h1 h2 h3
  rw [← h3]
  refine proofs_agree hp h1.1 (fun x h => List.mem_append_right _ h) ?_ vp (proveSpec_verifies ht hv)
  intro x h
  refine List.mem_append_left _ ?_
  rcases List.mem_append.1 h with h | h
  · exact h2.1 x h
  · exact h2.2.1 x h

/-- Equal root hashes mean equal trees. -/
theorem hash_inj {H : HashFn} {S : List Bytes} {t u : PTree} {p : List Bool} (ht : t = .null ∨ WF p t)
    (hu : u = .null ∨ WF p u) (st : ∀ x ∈ t.inputs H, x ∈ S) (su : ∀ x ∈ u.inputs H, x ∈ S)
    (h : t.hash H = u.hash H) : BrokenOn H S ∨ t = u := by
  induction t generalizing u p with
  | null =>
    cases u with
    | null => exact Or.inr rfl
    | leaf k v => exact Or.inl (Or.inr ⟨_, su _ (leaf_pre H k v), h.symm⟩)
    | node pre l r =>
      have hw : WF p (node pre l r) := hu.resolve_left (by simp)
      have hlen := hw.node_length
      have hb := mkBits_is (l := pre) (by omega)
      rw [← hashInternal_eq hb H l r] at h
      exact Or.inl (hashInternal_zero (su _ (by rw [node_inputs hb]; exact List.mem_cons_self)) h.symm)
  | leaf k v =>
    cases u with
    | null => exact Or.inl (Or.inr ⟨_, st _ (leaf_pre H k v), h⟩)
    | leaf k' v' =>
      rcases hashLeaf_inj (st _ (leaf_pre H k v)) (su _ (leaf_pre H k' v')) h with hb | ⟨rfl, hv⟩
      · exact Or.inl hb
      · refine (inj_or_broken (st v (by simp [PTree.inputs])) (su v' (by simp [PTree.inputs])) hv).imp id ?_
        rintro rfl; rfl
    | node pre l r =>
      have hw : WF p (node pre l r) := hu.resolve_left (by simp)
      have hlen := hw.node_length
      have hb := mkBits_is (l := pre) (by omega)
      rw [← hashInternal_eq hb H l r] at h
      exact Or.inl (hashInternal_leaf (su _ (by rw [node_inputs hb]; exact List.mem_cons_self)) (st _ (leaf_pre H k v)) h.symm)
  | node pre l r ihl ihr =>
    have hw : WF p (node pre l r) := ht.resolve_left (by simp)
    have hlen := hw.node_length
    have hb := mkBits_is (l := pre) (by omega)
    rw [← hashInternal_eq hb H l r] at h
    have m1 := st _ (by rw [node_inputs hb]; exact List.mem_cons_self)
    cases u with
    | null => exact Or.inl (hashInternal_zero m1 h)
    | leaf k v => exact Or.inl (hashInternal_leaf m1 (su _ (leaf_pre H k v)) h)
    | node pre' l' r' =>
      have hw' : WF p (node pre' l' r') := hu.resolve_left (by simp)
      have hlen' := hw'.node_length
      have hb' := mkBits_is (l := pre') (by omega)
      rw [← hashInternal_eq hb' H l' r'] at h
      have m2 := su _ (by rw [node_inputs hb']; exact List.mem_cons_self)
      rcases hashInternal_inj hb.raw hb'.raw m1 m2 h with hbr | ⟨e, e1, e2⟩
      · exact Or.inl hbr
      · have e := mkBits_inj (by omega) (by omega) e
        subst e
        have m : ∀ x ∈ l.inputs H ++ r.inputs H, x ∈ S := fun x hx =>
          st x (by rw [node_inputs hb]; exact List.mem_cons_of_mem _ hx)
        have m' : ∀ x ∈ l'.inputs H ++ r'.inputs H, x ∈ S := fun x hx =>
          su x (by rw [node_inputs hb']; exact List.mem_cons_of_mem _ hx)
        rcases ihl (Or.inr hw.1) (Or.inr hw'.1) (fun x hx => m x (List.mem_append_left _ hx))
          (fun x hx => m' x (List.mem_append_left _ hx)) e1 with hbr | rfl
        · exact Or.inl hbr
        · rcases ihr (Or.inr hw.2) (Or.inr hw'.2) (fun x hx => m x (List.mem_append_right _ hx))
            (fun x hx => m' x (List.mem_append_right _ hx)) e2 with hbr | rfl
          · exact Or.inl hbr
          · exact Or.inr rfl

end Urkel
