import Verif.Lemmas.Proof
/-
The wire format of proofs: parsing is total, and inverse to serialization.
-/
namespace Urkel

/-- Bytes of a prefix (bits.c:136-149). -/
def encBits (b : Bits) : Bytes :=
  (if b.size ≥ 0x80 then [UInt8.ofNat (0x80 ||| (b.size >>> 8))] else []) ++ [UInt8.ofNat b.size]
    ++ b.data.take ((b.size + 7) / 8)

theorem bitsWrite_eq {b : Bits} (h : b.size ≤ 256) : bitsWrite b = .ok (encBits b) := by
  have c : b.size ≤ keyBits := h
  simp only [bitsWrite, c, decide_true, check_true, Res.bind_ok, Res.pure_eq, encBits]

theorem length_encBits {b : Bits} (hl : b.data.length = 32) (h : b.size ≤ 256) :
    (encBits b).length = (if b.size ≥ 0x80 then 1 else 0) + 1 + (b.size + 7) / 8 := by
  unfold encBits
  simp only [List.length_append, List.length_take, hl, List.length_cons, List.length_nil]
  split <;> simp <;> omega

theorem bitsSize_eq {b : Bits} (hl : b.data.length = 32) (h : b.size ≤ 256) :
    bitsSize b = .ok (encBits b).length := by
  have c : b.size ≤ keyBits := h
  simp only [bitsSize, c, decide_true, check_true, Res.bind_ok, Res.pure_eq, length_encBits hl h]

/-- The common end of `bitsRead`. -/
def bitsFin (size : Nat) (rest : Bytes) : Option Bits :=
  if size > keyBits then none
  else if rest.length < (size + 7) / 8 then none
  else some ⟨size, rest.take ((size + 7) / 8) ++ List.replicate (32 - (size + 7) / 8) 0⟩

theorem bitsRead_eq (d : Bytes) : bitsRead d = match d with
    | [] => none
    | b0 :: rest =>
      if b0.toNat &&& 0x80 != 0 then
        match rest with
        | [] => none
        | b1 :: rest' =>
          if ((b0.toNat &&& 0x7f) <<< 8) ||| b1.toNat < 0x80 then none
          else bitsFin (((b0.toNat &&& 0x7f) <<< 8) ||| b1.toNat) rest'
      else bitsFin b0.toNat rest := by
  cases d with
  | nil => rfl
  | cons b0 rest => rfl

theorem raw_data_eq {b : Bits} (h : RawBits b) :
    b.data.take ((b.size + 7) / 8) ++ List.replicate (32 - (b.size + 7) / 8) 0 = b.data := by
  obtain ⟨x, hx, hd⟩ := h.data
  rw [hd, List.take_append_of_le_length (by omega), List.take_of_length_le (by omega)]

theorem bitsFin_enc {b : Bits} (h : RawBits b) (rest : Bytes) :
    bitsFin b.size (b.data.take ((b.size + 7) / 8) ++ rest) = some b := by
  have hle := h.le
  have hl := h.len
  unfold bitsFin keyBits
  have hlen : (b.data.take ((b.size + 7) / 8)).length = (b.size + 7) / 8 := by simp [hl]; omega
  rw [if_neg (by omega), if_neg (by simp; omega)]
  rw [List.take_append_of_le_length (by omega), List.take_of_length_le (by omega), raw_data_eq h]

theorem byte_hi : ∀ n < 257, 128 ≤ n → (UInt8.ofNat (0x80 ||| (n >>> 8))).toNat &&& 0x80 = 0x80 ∧
    (((UInt8.ofNat (0x80 ||| (n >>> 8))).toNat &&& 0x7f) <<< 8) ||| (UInt8.ofNat n).toNat = n := by
  decide +kernel

theorem byte_lo : ∀ n < 128, (UInt8.ofNat n).toNat &&& 0x80 = 0 ∧ (UInt8.ofNat n).toNat = n := by
  decide +kernel

theorem bitsRead_enc {b : Bits} (h : RawBits b) (rest : Bytes) : bitsRead (encBits b ++ rest) = some b := by
  have hle := h.le
  rw [bitsRead_eq]
  unfold encBits
  by_cases hs : b.size ≥ 0x80
  · obtain ⟨h1, h2⟩ := byte_hi b.size (by omega) hs
    simp only [hs, if_true, List.cons_append, List.nil_append, h1, h2]
    rw [if_pos (by decide), if_neg (by omega), bitsFin_enc h]
  · obtain ⟨h1, h2⟩ := byte_lo b.size (by omega)
    simp only [hs, if_false, List.cons_append, List.nil_append, h2]
    rw [h2] at h1
    rw [if_neg (by simp [h1]), bitsFin_enc h]

theorem readPrefix_enc {b : Bits} (h : RawBits b) (h0 : b.size ≠ 0) (rest : Bytes) :
    readPrefix (encBits b ++ rest) = .ok (some (b, rest)) := by
  have hle := h.le
  simp only [readPrefix, bitsRead_enc h]
  rw [if_neg (by unfold keyBits; omega), bitsSize_eq h.len hle]
  simp only [Res.bind_ok, takeN_append _ _ rfl, Res.pure_eq]

theorem byte_split : ∀ x < 256, ∀ y < 256, (x &&& 0x80 ≠ 0) →
    (((x &&& 0x7f) <<< 8) ||| y) ≤ 256 → 128 ≤ (((x &&& 0x7f) <<< 8) ||| y) →
    (0x80 ||| ((((x &&& 0x7f) <<< 8) ||| y) >>> 8)) % 256 = x ∧ (((x &&& 0x7f) <<< 8) ||| y) % 256 = y := by
  intro x hx y hy h1 h2 h3
  have e : ((x &&& 0x7f) <<< 8) ||| y = 256 * (x &&& 0x7f) + y := by
    rw [Nat.shiftLeft_eq, Nat.mul_comm, ← Nat.two_pow_add_eq_or_of_lt (i := 8) (by simpa using hy)]
  rw [e] at *
  have e2 : (256 * (x &&& 0x7f) + y) >>> 8 = x &&& 0x7f := by
    rw [Nat.shiftRight_eq_div_pow]; omega
  rw [e2]
  refine ⟨?_, by omega⟩
  have : ∀ x < 256, x &&& 0x80 ≠ 0 → (0x80 ||| (x &&& 0x7f)) % 256 = x := by decide +kernel
  exact this x hx h1

theorem bitsFin_inv {size : Nat} {rest : Bytes} {b : Bits} (h : bitsFin size rest = some b) :
    b.size = size ∧ RawBits b ∧ (size + 7) / 8 ≤ rest.length ∧
      b.data.take ((size + 7) / 8) = rest.take ((size + 7) / 8) := by
  unfold bitsFin keyBits at h
  split at h
  · cases h
  · split at h
    · cases h
    · next h1 h2 =>
      cases h
      refine ⟨rfl, ⟨by simp only; omega, _, ?_, rfl⟩, by omega, ?_⟩
      · simp; omega
      · simp only
        rw [List.take_append_of_le_length (by simp; omega), List.take_take, Nat.min_self]

theorem bitsRead_inv {d : Bytes} {b : Bits} (h : bitsRead d = some b) :
    RawBits b ∧ encBits b <+: d := by
  rw [bitsRead_eq] at h
  cases d with
  | nil => cases h
  | cons b0 rest =>
    simp only at h
    split at h
    · next hb =>
      cases rest with
      | nil => cases h
      | cons b1 rest =>
        simp only at h
        split at h
        · cases h
        · next hs =>
          obtain ⟨h1, h2, h3, h4⟩ := bitsFin_inv h
          refine ⟨h2, ?_⟩
          obtain ⟨e1, e2⟩ := byte_split b0.toNat (by exact b0.toNat_lt) b1.toNat (by exact b1.toNat_lt)
            (by simpa using hb) (h1 ▸ h2.le) (by omega)
          unfold encBits
          rw [h1, if_pos (by omega), h4]
          refine ⟨rest.drop ((((b0.toNat &&& 127) <<< 8 ||| b1.toNat) + 7) / 8), ?_⟩
          simp only [List.cons_append, List.nil_append, List.take_append_drop, List.cons.injEq, and_true]
          exact ⟨UInt8.toNat_inj.1 ((UInt8.toNat_ofNat' ..).trans e1), UInt8.toNat_inj.1 ((UInt8.toNat_ofNat' ..).trans e2)⟩
    · next hb =>
      obtain ⟨h1, h2, h3, h4⟩ := bitsFin_inv h
      refine ⟨h2, ?_⟩
      have hlt : b0.toNat < 128 := by
        have : ∀ x < 256, x &&& 0x80 = 0 → x < 128 := by decide +kernel
        exact this _ b0.toNat_lt (by simpa using hb)
      unfold encBits
      rw [h1, if_neg (by omega), h4]
      refine ⟨rest.drop ((b0.toNat + 7) / 8), ?_⟩
      simp

/-- `readPrefix` never aborts or reads out of bounds, and only accepts canonical bytes. -/
theorem readPrefix_total (d : Bytes) :
    ∃ o, readPrefix d = .ok o ∧ ∀ b rest, o = some (b, rest) →
      RawBits b ∧ b.size ≠ 0 ∧ d = encBits b ++ rest := by
  unfold readPrefix
  cases h : bitsRead d with
  | none => exact ⟨none, rfl, fun _ _ h => nomatch h⟩
  | some b =>
    simp only
    split
    · exact ⟨none, rfl, fun _ _ h => nomatch h⟩
    · next hs =>
      obtain ⟨h1, rest, h2⟩ := bitsRead_inv h
      rw [bitsSize_eq h1.len h1.le, Res.bind_ok, ← h2, takeN_append _ _ rfl]
      refine ⟨_, rfl, fun b' rest' e => ?_⟩
      cases e
      exact ⟨h1, by omega, rfl⟩

/-- Bytes of a proof node. -/
def encNode (n : PNode) : Bytes := (if n.pre.size > 0 then encBits n.pre else []) ++ n.hash.bytes

/-- Bytes after the nodes. -/
def encTail : PBody → Bytes
  | .deadend => []
  | .short pre l r => encBits pre ++ l.bytes ++ r.bytes
  | .collision k h => k.bytes ++ h.bytes
  | .exists v => leBytes 2 v.length ++ v

/-- Which nodes have a prefix. -/
def flags (ns : List PNode) : List Bool := ns.map (fun n => decide (n.pre.size > 0))

/-- Canonical bytes of a proof. -/
def encProof (p : Proof) : Bytes :=
  leBytes 2 ((p.body.type <<< 14) ||| p.depth) ++ leBytes 2 p.nodes.length ++ pack (flags p.nodes)
    ++ p.nodes.flatMap encNode ++ encTail p.body

theorem proofWriteNodes_ok {ns : List PNode} (hns : ∀ n ∈ ns, Sized n.pre) (pre : List Bool) (z : Nat)
    (bm : Bytes) (hz : ns.length ≤ z) (hb : bitsOf bm = pre ++ List.replicate z false) :
    ∃ bm', proofWriteNodes ns pre.length bm = .ok (bm', ns.flatMap encNode) ∧
      bitsOf bm' = pre ++ flags ns ++ List.replicate (z - ns.length) false := by
  induction ns generalizing pre z bm with
  | nil => exact ⟨bm, rfl, by simpa [flags] using hb⟩
  | cons n ns ih =>
    have hn := hns n (by simp)
    have hns' : ∀ n ∈ ns, Sized n.pre := fun m hm => hns m (by simp [hm])
    simp only [List.length_cons] at hz
    unfold proofWriteNodes
    by_cases h0 : n.pre.size > 0
    · have hf : (bitsOf bm)[pre.length]? = some false := by
        rw [hb, List.getElem?_append_right (by omega), Nat.sub_self, List.getElem?_replicate, if_pos (by omega)]
      obtain ⟨d', e1, e2, e3⟩ := setBit_ok true hf
      simp only [h0, if_true, e1, Res.bind_ok, bitsWrite_eq hn.le, Res.pure_eq]
      rw [hb, set_append_zeros _ _ _ (by omega)] at e3
      obtain ⟨bm', e4, e5⟩ := ih hns' (pre ++ [true]) (z - 1) d' (by omega) e3
      simp only [List.length_append, List.length_cons, List.length_nil, Nat.zero_add] at e4
      simp only [e4, Res.bind_ok]
      refine ⟨bm', ?_, ?_⟩
      · simp [encNode, h0]
      · rw [e5]; simp [flags, h0]; omega
    · have hb' : bitsOf bm = (pre ++ [false]) ++ List.replicate (z - 1) false := by
        rw [hb]
        obtain ⟨m, rfl⟩ : ∃ m, z = m + 1 := ⟨z - 1, by omega⟩
        simp [List.replicate_succ]
      obtain ⟨bm', e4, e5⟩ := ih hns' (pre ++ [false]) (z - 1) bm (by omega) hb'
      simp only [List.length_append, List.length_cons, List.length_nil, Nat.zero_add] at e4
      simp only [if_neg h0, Res.pure_eq, Res.bind_ok, e4]
      refine ⟨bm', ?_, ?_⟩
      · simp [encNode, h0]
      · rw [e5]; simp [flags, h0]; omega

/-- What writing a proof needs. -/
structure ProofFit (p : Proof) : Prop where
  count : p.nodes.length ≤ 256
  nodes : ∀ n ∈ p.nodes, Sized n.pre
  body : ∀ pre l r, p.body = .short pre l r → Sized pre

theorem ProofOk.fit {p : Proof} (h : ProofOk p) : ProofFit p :=
  ⟨h.count, fun n hn => (h.nodes n hn).sized, fun pre l r e => by have := h.body; rw [e] at this; exact this.1.sized⟩

theorem ProofFit.write {p : Proof} (h : ProofFit p) : proofWrite p = .ok (encProof p) := by
  have hc := h.count
  have hbody := h.body
  unfold proofWrite
  simp only
  rw [if_neg (by omega)]
  have hz := bitsOf_zeros ((p.nodes.length + 7) / 8)
  obtain ⟨bm', e1, e2⟩ := proofWriteNodes_ok h.nodes [] (8 * ((p.nodes.length + 7) / 8))
    (List.replicate ((p.nodes.length + 7) / 8) 0) (by omega) (by simpa using hz)
  simp only [List.length_nil, List.nil_append] at e1 e2
  have ebm : bm' = pack (flags p.nodes) := by
    apply bitsOf_inj
    rw [e2, bitsOf_pack]; simp [flags]
  subst ebm
  simp only [e1, Res.bind_ok]
  cases hb : p.body with
  | deadend => simp only [Res.pure_eq, Res.bind_ok, encProof, encTail, hb]
  | short pre l r =>
    have hbody := hbody pre l r hb
    simp only [bitsWrite_eq hbody.le, Res.pure_eq, Res.bind_ok, encProof, encTail, hb]
  | collision k h => simp only [Res.pure_eq, Res.bind_ok, encProof, encTail, hb]
  | «exists» v => simp only [Res.pure_eq, Res.bind_ok, encProof, encTail, hb]

theorem proofNodesSize_ok {ns : List PNode} (hns : ∀ n ∈ ns, Sized n.pre) :
    proofNodesSize ns = .ok (ns.flatMap encNode).length := by
  induction ns with
  | nil => rfl
  | cons n ns ih =>
    have hn := hns n (by simp)
    unfold proofNodesSize
    rw [ih (fun m hm => hns m (by simp [hm]))]
    by_cases h0 : n.pre.size > 0
    · simp only [h0, if_true, bitsSize_eq hn.len hn.le, Res.bind_ok, Res.pure_eq]
      simp [encNode, h0, n.hash.len]; omega
    · simp only [h0, if_false, Res.bind_ok, Res.pure_eq]
      simp [encNode, h0, n.hash.len]

theorem ProofFit.size {p : Proof} (h : ProofFit p) : proofSize p = .ok (encProof p).length := by
  unfold proofSize
  rw [proofNodesSize_ok h.nodes]
  have hbody := h.body
  cases hb : p.body with
  | deadend =>
    simp only [Res.bind_ok, Res.pure_eq, encProof, encTail, hb]
    simp [length_pack, flags]; omega
  | short pre l r =>
    have hbody := hbody pre l r hb
    simp only [Res.bind_ok, Res.pure_eq, encProof, encTail, hb, bitsSize_eq hbody.len hbody.le]
    simp [length_pack, flags, l.len, r.len]; omega
  | collision k h =>
    simp only [Res.bind_ok, Res.pure_eq, encProof, encTail, hb]
    simp [length_pack, flags, k.len, h.len]; omega
  | «exists» v =>
    simp only [Res.bind_ok, Res.pure_eq, encProof, encTail, hb]
    simp [length_pack, flags]; omega

theorem proofWrite_ok {p : Proof} (h : ProofOk p) : proofWrite p = .ok (encProof p) := h.fit.write

theorem proofSize_ok {p : Proof} (h : ProofOk p) : proofSize p = .ok (encProof p).length := h.fit.size

theorem length_encNode_le {n : PNode} (h : RawBits n.pre) : (encNode n).length ≤ 66 := by
  have := h.le
  have := length_encBits h.len h.le
  unfold encNode
  simp only [List.length_append, n.hash.len]
  split
  · split at this <;> omega
  · simp

theorem length_encNodes_le {ns : List PNode} (hns : ∀ n ∈ ns, RawBits n.pre) :
    (ns.flatMap encNode).length ≤ 66 * ns.length := by
  induction ns with
  | nil => simp
  | cons n ns ih =>
    have h1 := length_encNode_le (hns n (by simp))
    have h2 := ih (fun m hm => hns m (by simp [hm]))
    simp only [List.flatMap_cons, List.length_append, List.length_cons]; omega

theorem length_encProof_le {p : Proof} (h : ProofOk p) : (encProof p).length ≤ proofSizeMax := by
  have h1 := length_encNodes_le h.nodes
  have h2 := h.count
  have hbody := h.body
  unfold proofSizeMax
  have ht : (encTail p.body).length ≤ 1025 := by
    cases hb : p.body with
    | deadend => simp [encTail]
    | short pre l r =>
      rw [hb] at hbody
      have h3 := length_encBits hbody.1.len hbody.1.le
      have := hbody.1.le
      simp only [encTail, List.length_append, l.len, r.len]
      split at h3 <;> omega
    | collision k h => simp [encTail, k.len, h.len]
    | «exists» v =>
      rw [hb] at hbody
      have : v.length ≤ 1023 := hbody
      simp [encTail]; omega
  simp only [encProof, List.length_append, length_leBytes, length_pack, flags, List.length_map]
  omega

/-! ### Parsing -/

theorem getBit_of {d : Bytes} {i : Nat} {b : Bool} (h : (bitsOf d)[i]? = some b) : getBit d i = .ok b := by
  rw [getBit_eq, h]

theorem take32_eq (d : Bytes) (h : 32 ≤ d.length) : ∃ k : B32, take32 d = .ok (k, d.drop 32) ∧ d = k.bytes ++ d.drop 32 := by
  unfold take32
  rw [dif_neg (by omega)]
  exact ⟨_, rfl, (List.take_append_drop 32 d).symm⟩

/-- Node parsing is total and only accepts what serialization produces. -/
theorem proofReadNodes_total (bm : Bytes) (n i : Nat) (d : Bytes) (hb : i + n ≤ (bitsOf bm).length)
    (hi : i + n ≤ 256) :
    ∃ o, proofReadNodes bm n i d = .ok o ∧ ∀ ns rest, o = some (ns, rest) →
      ns.length = n ∧ (∀ m ∈ ns, RawBits m.pre) ∧ d = ns.flatMap encNode ++ rest ∧
        ((bitsOf bm).drop i).take n = flags ns := by
  induction n generalizing i d with
  | zero =>
    refine ⟨_, rfl, fun ns rest e => ?_⟩
    cases e
    simp [flags]
  | succ n ih =>
    have hlt : i < (bitsOf bm).length := by omega
    have hbit : (bitsOf bm)[i]? = some (bitsOf bm)[i] := List.getElem?_eq_getElem hlt
    unfold proofReadNodes
    rw [getBit_of hbit, Res.bind_ok]
    have step : ∀ (pre : Bits) (d' : Bytes), RawBits pre → decide (pre.size > 0) = (bitsOf bm)[i] →
        d = (if pre.size > 0 then encBits pre else []) ++ d' →
        ∃ o, (if d'.length < 32 then pure none
          else do
            let (h, d) ← take32 d'
            check (i < keyBits)
            let rest ← proofReadNodes bm n (i + 1) d
            match rest with
            | none => pure none
            | some (ns, d) => pure (some ((⟨pre, h⟩ : PNode) :: ns, d))) = Res.ok o ∧
          ∀ ns rest, o = some (ns, rest) →
            ns.length = n + 1 ∧ (∀ m ∈ ns, RawBits m.pre) ∧ d = ns.flatMap encNode ++ rest ∧
              ((bitsOf bm).drop i).take (n + 1) = flags ns := by
      intro pre d' h1 h2 h3
      split
      · exact ⟨none, rfl, fun _ _ h => nomatch h⟩
      · next hd =>
        obtain ⟨k, ek, ed⟩ := take32_eq d' (by omega)
        have c : i < keyBits := by unfold keyBits; omega
        obtain ⟨o2, e3, e4⟩ := ih (i + 1) (d'.drop 32) (by omega) (by omega)
        simp only [ek, Res.bind_ok, c, decide_true, check_true, e3]
        cases o2 with
        | none => exact ⟨none, rfl, fun _ _ h => nomatch h⟩
        | some o2 =>
          obtain ⟨ns, rest⟩ := o2
          obtain ⟨g1, g2, g3, g4⟩ := e4 _ _ rfl
          refine ⟨_, rfl, fun ns' rest' e => ?_⟩
          cases e
          refine ⟨by simp [g1], ?_, ?_, ?_⟩
          · intro m hm
            simp only [List.mem_cons] at hm
            rcases hm with rfl | hm
            · exact h1
            · exact g2 m hm
          · rw [h3, ed, g3]
            simp [encNode]
          · rw [List.drop_eq_getElem_cons hlt, List.take_succ_cons, g4, ← h2]
            rfl
    cases hbv : (bitsOf bm)[i]
    · rw [hbv] at step
      simp only [Bool.false_eq_true, if_false, bitsInit_ok (Nat.zero_le _), Res.bind_ok, Res.pure_eq]
      exact step _ _ isBits_empty.raw (by simp) (by simp)
    · rw [hbv] at step
      obtain ⟨o, e1, e2⟩ := readPrefix_total d
      simp only [if_true, e1, Res.bind_ok]
      cases o with
      | none => exact ⟨none, rfl, fun _ _ h => nomatch h⟩
      | some o =>
        obtain ⟨pre, d'⟩ := o
        obtain ⟨h1, h2, h3⟩ := e2 _ _ rfl
        have h4 : pre.size > 0 := by omega
        exact step _ _ h1 (by simp [h4]) (by simp [h4, h3])

/-- Parsing the canonical node bytes. -/
theorem proofReadNodes_enc {ns : List PNode} (hns : ∀ n ∈ ns, RawBits n.pre) (bm : Bytes) (i : Nat) (rest : Bytes)
    (hb : flags ns <+: (bitsOf bm).drop i) (hi : i + ns.length ≤ 256) :
    proofReadNodes bm ns.length i (ns.flatMap encNode ++ rest) = .ok (some (ns, rest)) := by
  induction ns generalizing i with
  | nil => rfl
  | cons n ns ih =>
    have hn := hns n (by simp)
    have hns' : ∀ n ∈ ns, RawBits n.pre := fun m hm => hns m (by simp [hm])
    obtain ⟨t, ht⟩ := hb
    simp only [flags, List.map_cons, List.cons_append] at ht
    simp only [List.length_cons] at hi
    have hlt : i < (bitsOf bm).length := by
      have := congrArg List.length ht
      simp at this ⊢; omega
    have hlt2 := hlt
    rw [List.drop_eq_getElem_cons hlt] at ht
    obtain ⟨ht1, ht2⟩ := List.cons.inj ht
    have hbit : (bitsOf bm)[i]? = some (decide (n.pre.size > 0)) := by
      rw [List.getElem?_eq_getElem hlt, ht1]
    simp only [List.length_cons]
    unfold proofReadNodes
    rw [getBit_of hbit, Res.bind_ok]
    have IH := ih hns' (i + 1) ⟨t, ht2⟩ (by omega)
    have c : i < keyBits := by unfold keyBits; omega
    have hrest : ∀ x : Bytes, n.hash.bytes ++ ns.flatMap encNode ++ rest = n.hash.bytes ++ (ns.flatMap encNode ++ rest) := by
      intro _; simp
    have step : ∀ pre : Bits, pre = n.pre →
        (if (n.hash.bytes ++ (ns.flatMap encNode ++ rest)).length < 32 then pure none
          else do
            let (h, d) ← take32 (n.hash.bytes ++ (ns.flatMap encNode ++ rest))
            check (i < keyBits)
            let rest ← proofReadNodes bm ns.length (i + 1) d
            match rest with
            | none => pure none
            | some (ns, d) => pure (some ((⟨pre, h⟩ : PNode) :: ns, d))) = Res.ok (some (n :: ns, rest)) := by
      intro pre e
      rw [if_neg (by simp [n.hash.len])]
      simp only [take32_append, Res.bind_ok, c, decide_true, check_true, IH, Res.pure_eq, e]
    by_cases h0 : n.pre.size > 0
    · have e : (n :: ns).flatMap encNode ++ rest = encBits n.pre ++ (n.hash.bytes ++ (ns.flatMap encNode ++ rest)) := by
        simp [encNode, h0]
      rw [e]
      simp only [h0, decide_true, if_true, readPrefix_enc hn (by omega), Res.bind_ok]
      exact step _ rfl
    · have e : (n :: ns).flatMap encNode ++ rest = n.hash.bytes ++ (ns.flatMap encNode ++ rest) := by
        simp [encNode, h0]
      rw [e]
      simp only [h0, decide_false, Bool.false_eq_true, if_false, bitsInit_ok (Nat.zero_le _), Res.bind_ok, Res.pure_eq]
      refine step _ ?_
      have h00 : n.pre.size = 0 := by omega
      obtain ⟨x, hx, hd⟩ := hn.data
      rw [h00] at hx hd
      simp at hx
      subst hx
      cases hnp : n.pre
      rw [hnp] at h00 hd
      simp at h00 hd
      simp [h00, hd]

theorem field_eq {t d : Nat} (hd : d < 16384) : (t <<< 14) ||| d = 16384 * t + d := by
  rw [Nat.shiftLeft_eq, Nat.mul_comm, ← Nat.two_pow_add_eq_or_of_lt (i := 14) (by simpa using hd)]

theorem type_lt (b : PBody) : b.type < 4 := by cases b <;> simp [PBody.type]

theorem field_type {t d : Nat} (hd : d < 16384) : ((t <<< 14) ||| d) >>> 14 = t := by
  rw [field_eq hd, Nat.shiftRight_eq_div_pow]; omega

theorem field_depth {t d : Nat} (hd : d < 16384) : ((t <<< 14) ||| d) &&& 0x3fff = d := by
  rw [field_eq hd, show (0x3fff : Nat) = 2 ^ 14 - 1 from rfl, Nat.and_two_pow_sub_one_eq_mod]; omega

theorem field_split (f : Nat) : ((f >>> 14) <<< 14) ||| (f &&& 0x3fff) = f := by
  have h : f &&& 0x3fff = f % 16384 := by
    rw [show (0x3fff : Nat) = 2 ^ 14 - 1 from rfl, Nat.and_two_pow_sub_one_eq_mod]
  rw [h, field_eq (Nat.mod_lt _ (by omega)), Nat.shiftRight_eq_div_pow]
  omega

/-- Serialized proofs parse back to themselves. -/
theorem proofRead_enc {p : Proof} (h : ProofOk p) : proofRead (encProof p) = .ok (some p) := by
  have hc := h.count; have hdep := h.depth; have hty := type_lt p.body
  have hbody := h.body
  have hfl : (leNat (leBytes 2 (p.body.type <<< 14 ||| p.depth))) = p.body.type <<< 14 ||| p.depth := by
    rw [leNat_leBytes]; apply Nat.mod_eq_of_lt; rw [field_eq (by omega)]; omega
  have hcl : leNat (leBytes 2 p.nodes.length) = p.nodes.length := by
    rw [leNat_leBytes]; apply Nat.mod_eq_of_lt; omega
  have hbm : (pack (flags p.nodes)).length = (p.nodes.length + 7) / 8 := by simp [length_pack, flags]
  have hfl2 : flags p.nodes <+: (bitsOf (pack (flags p.nodes))).drop 0 := by
    rw [bitsOf_pack]; simp
  have hn := fun rest => proofReadNodes_enc h.nodes (pack (flags p.nodes)) 0 rest hfl2 (by omega)
  have e : encProof p = leBytes 2 (p.body.type <<< 14 ||| p.depth) ++ (leBytes 2 p.nodes.length ++
      (pack (flags p.nodes) ++ (p.nodes.flatMap encNode ++ encTail p.body))) := by
    simp [encProof]
  rw [e, proofRead, if_neg (by simp; omega)]
  simp only [takeN_leBytes, Res.bind_ok, hfl, hcl, field_type (show p.depth < 16384 by omega),
    field_depth (show p.depth < 16384 by omega)]
  rw [if_neg (by unfold keyBits; omega), if_neg (by unfold keyBits; omega), if_neg (by simp [hbm]),
    takeN_append _ _ hbm]
  simp only [Res.bind_ok, hn]
  cases hb : p.body with
  | deadend =>
    simp only [PBody.type, encTail, List.length_nil, if_true, Res.pure_eq]
    rw [← hb]
  | short pre l r =>
    rw [hb] at hbody
    simp only [PBody.type, encTail, List.append_assoc, readPrefix_enc hbody.1 hbody.2, Res.bind_ok]
    rw [if_neg (by simp [l.len, r.len])]
    have er : take32 r.bytes = .ok (r, []) := by simpa using take32_append r []
    simp only [take32_append, Res.bind_ok, er, List.length_nil, if_true, Res.pure_eq]
    rw [← hb]
  | collision k h' =>
    simp only [PBody.type]
    rw [show encTail (PBody.collision k h') = k.bytes ++ h'.bytes from rfl, if_neg (by simp [k.len, h'.len])]
    have er : take32 h'.bytes = .ok (h', []) := by simpa using take32_append h' []
    simp only [take32_append, Res.bind_ok, er, List.length_nil, if_true, Res.pure_eq]
    rw [← hb]
  | «exists» v =>
    rw [hb] at hbody
    have hv : v.length ≤ 1023 := hbody
    have hvl : leNat (leBytes 2 v.length) = v.length := by
      rw [leNat_leBytes]; apply Nat.mod_eq_of_lt; omega
    simp only [PBody.type]
    rw [show encTail (PBody.exists v) = leBytes 2 v.length ++ v from rfl, if_neg (by simp)]
    have er : takeN v.length v = .ok (v, []) := by simpa using takeN_append v [] rfl
    simp only [takeN_leBytes, Res.bind_ok, hvl, er]
    rw [if_neg (by omega), if_neg (by unfold valueSize; omega)]
    simp only [List.length_nil, if_true, Res.pure_eq]
    rw [← hb]

theorem takeN_split {n : Nat} {d : Bytes} (h : n ≤ d.length) :
    ∃ a, a.length = n ∧ takeN n d = .ok (a, d.drop n) ∧ d = a ++ d.drop n :=
  ⟨d.take n, by simp; omega, takeN_ok h, (List.take_append_drop n d).symm⟩

/-- The bytes of a proof with an arbitrary bitmap. -/
def encProofWith (p : Proof) (bm : Bytes) : Bytes :=
  leBytes 2 ((p.body.type <<< 14) ||| p.depth) ++ leBytes 2 p.nodes.length ++ bm
    ++ p.nodes.flatMap encNode ++ encTail p.body

/-- Parsing is total, and what it accepts is a serialization up to the padding
bits of the bitmap. -/
theorem proofRead_total (d : Bytes) :
    ∃ o, proofRead d = .ok o ∧ ∀ p, o = some p → ProofOk p ∧
      ∃ bm, bm.length = (p.nodes.length + 7) / 8 ∧ (bitsOf bm).take p.nodes.length = flags p.nodes ∧
        d = encProofWith p bm := by
  have no : ∃ o : Option Proof, Res.ok none = Res.ok o ∧ ∀ p, o = some p → ProofOk p ∧
      ∃ bm, bm.length = (p.nodes.length + 7) / 8 ∧ (bitsOf bm).take p.nodes.length = flags p.nodes ∧
        d = encProofWith p bm := ⟨none, rfl, fun _ h => nomatch h⟩
  unfold proofRead
  split
  · exact no
  · next h4 =>
    obtain ⟨f, lf, e1, s1⟩ := takeN_split (n := 2) (d := d) (by omega)
    obtain ⟨c, lc, e2, s2⟩ := takeN_split (n := 2) (d := d.drop 2) (by simp; omega)
    simp only [e1, e2, Res.bind_ok, Res.pure_eq]
    have hf : leBytes 2 (leNat f) = f := by rw [← lf]; exact leBytes_leNat f
    have hc : leBytes 2 (leNat c) = c := by rw [← lc]; exact leBytes_leNat c
    split
    · exact no
    · next h5 =>
      split
      · exact no
      · next h6 =>
        split
        · exact no
        · next h7 =>
          unfold keyBits at h5 h6
          obtain ⟨bm, lbm, e3, s3⟩ := takeN_split (n := (leNat c + 7) / 8) (d := (d.drop 2).drop 2) (by omega)
          obtain ⟨o, e4, g⟩ := proofReadNodes_total bm (leNat c) 0 (((d.drop 2).drop 2).drop ((leNat c + 7) / 8))
            (by simp [lbm]; omega) (by omega)
          simp only [e3, e4, Res.bind_ok]
          cases o with
          | none => exact no
          | some o =>
            obtain ⟨ns, rest⟩ := o
            obtain ⟨g1, g2, g3, g4⟩ := g _ _ rfl
            simp only
            -- the end of every case
            have fin : ∀ body : PBody, leNat f >>> 14 = body.type → BodyOk body → rest = encTail body →
                ∀ p, (⟨leNat f &&& 0x3fff, ns, body⟩ : Proof) = p → ProofOk p ∧
                  ∃ bm, bm.length = (p.nodes.length + 7) / 8 ∧
                    (bitsOf bm).take p.nodes.length = flags p.nodes ∧ d = encProofWith p bm := by
              rintro body ht hbo hrest p rfl
              refine ⟨⟨by simp only; omega, by simp only; omega, g2, hbo⟩, bm, by simp only [g1, lbm],
                by simpa [g1] using g4, ?_⟩
              unfold encProofWith
              simp only
              rw [← ht, field_split, hf, g1, hc, ← hrest, List.append_assoc, ← g3]
              rw [List.append_assoc, ← s3, List.append_assoc, ← s2, ← s1]
            have hcase : leNat f >>> 14 = 0 ∨ leNat f >>> 14 = 1 ∨ leNat f >>> 14 = 2 ∨ leNat f >>> 14 = 3 := by
              have := leNat_lt f
              rw [lf] at this
              rw [Nat.shiftRight_eq_div_pow]
              omega
            rcases hcase with ht | ht | ht | ht
            · simp only [ht]
              split
              · next hr =>
                refine ⟨_, rfl, fun p e => fin .deadend (by rw [ht]; rfl) trivial ?_ p (Option.some.inj e)⟩
                exact List.length_eq_zero_iff.1 hr
              · exact no
            · simp only [ht]
              obtain ⟨o, e5, g5⟩ := readPrefix_total rest
              simp only [e5, Res.bind_ok]
              cases o with
              | none => exact no
              | some o =>
                obtain ⟨pre, d'⟩ := o
                obtain ⟨k1, k2, k3⟩ := g5 _ _ rfl
                simp only
                split
                · exact no
                · next h8 =>
                  obtain ⟨l, el, sl⟩ := take32_eq d' (by omega)
                  obtain ⟨r, er, sr⟩ := take32_eq (d'.drop 32) (by simp; omega)
                  simp only [el, er, Res.bind_ok]
                  split
                  · next hr =>
                    refine ⟨_, rfl, fun p e => fin (.short pre l r) (by rw [ht]; rfl) ⟨k1, k2⟩ ?_ p (Option.some.inj e)⟩
                    have hr' := List.length_eq_zero_iff.1 hr
                    rw [hr'] at sr
                    simp only [List.append_nil] at sr
                    rw [sr] at sl
                    rw [k3]; simp only [encTail]; rw [List.append_assoc, ← sl]
                  · exact no
            · simp only [ht]
              split
              · exact no
              · next h8 =>
                obtain ⟨l, el, sl⟩ := take32_eq rest (by omega)
                obtain ⟨r, er, sr⟩ := take32_eq (rest.drop 32) (by simp; omega)
                simp only [el, er, Res.bind_ok]
                split
                · next hr =>
                  refine ⟨_, rfl, fun p e => fin (.collision l r) (by rw [ht]; rfl) trivial ?_ p (Option.some.inj e)⟩
                  have hr' := List.length_eq_zero_iff.1 hr
                  rw [hr'] at sr
                  simp only [List.append_nil] at sr
                  rw [sr] at sl
                  simpa [encTail] using sl
                · exact no
            · simp only [ht]
              split
              · exact no
              · next h8 =>
                obtain ⟨a, la, e6, s6⟩ := takeN_split (n := 2) (d := rest) (by omega)
                simp only [e6, Res.bind_ok]
                split
                · exact no
                · next h9 =>
                  split
                  · exact no
                  · next h10 =>
                    obtain ⟨v, lv, e7, s7⟩ := takeN_split (n := leNat a) (d := rest.drop 2) (by omega)
                    simp only [e7, Res.bind_ok]
                    split
                    · next hr =>
                      unfold valueSize at h10
                      refine ⟨_, rfl, fun p e => fin (.exists v) (by rw [ht]; rfl) (by simp only [BodyOk]; omega) ?_ p (Option.some.inj e)⟩
                      have hr' := List.length_eq_zero_iff.1 hr
                      rw [hr'] at s7
                      simp only [List.append_nil] at s7
                      rw [s7] at s6
                      simp only [encTail]
                      rw [lv, ← la, leBytes_leNat, ← s6]
                    · exact no

/-! ### Verification is total -/

/-- The errors the verification loop can report. -/
theorem verifyLoop_total {H : HashFn} {key : B32} {ns : List PNode} (hns : ∀ n ∈ ns, RawBits n.pre)
    {d : Nat} (hd : d ≤ 256) (h : B32) :
    (∃ d' h', verifyLoop H key ns d h = .ok (d', h')) ∨
      verifyLoop H key ns d h = .err .ENEGDEPTH ∨ verifyLoop H key ns d h = .err .EPATHMISMATCH := by
  induction ns generalizing d h with
  | nil => exact Or.inl ⟨_, _, rfl⟩
  | cons n ns ih =>
    simp only [verifyLoop]
    split
    · exact Or.inr (Or.inl rfl)
    · next hlt =>
      have hn := hns n (by simp)
      rw [getBit_kbit (by omega), Res.bind_ok, bitsHas_ok hn.has key (by omega), Res.bind_ok]
      split
      · exact Or.inr (Or.inr rfl)
      · exact ih (fun m hm => hns m (by simp [hm])) (by omega) _

theorem proofVerify_total {H : HashFn} {p : Proof} (key root : B32) (hok : ProofOk p) :
    proofVerify H p key root = .ok () ∨ ∃ e, proofVerify H p key root = .err e ∧
      e ∈ [Err.ESAMEPATH, .ESAMEKEY, .ENEGDEPTH, .EPATHMISMATCH, .ETOODEEP, .EHASHMISMATCH] := by
  have rest : ∀ next, (∃ e, ((do
      let (depth, next) ← verifyLoop H key p.nodes.reverse p.depth next
      if depth ≠ 0 then .err .ETOODEEP
      else if next ≠ root then .err .EHASHMISMATCH
      else pure ()) : Res Unit) = .err e ∧
        e ∈ [Err.ESAMEPATH, .ESAMEKEY, .ENEGDEPTH, .EPATHMISMATCH, .ETOODEEP, .EHASHMISMATCH]) ∨
      ((do
      let (depth, next) ← verifyLoop H key p.nodes.reverse p.depth next
      if depth ≠ 0 then .err .ETOODEEP
      else if next ≠ root then .err .EHASHMISMATCH
      else pure ()) : Res Unit) = .ok () := by
    intro next
    rcases verifyLoop_total (H := H) (key := key) (ns := p.nodes.reverse)
      (fun n hn => hok.nodes n (by simpa using hn)) hok.depth next with ⟨d', h', e⟩ | e | e
    · rw [e]
      simp only [Res.bind_ok]
      split
      · exact Or.inl ⟨_, rfl, by simp⟩
      · split
        · exact Or.inl ⟨_, rfl, by simp⟩
        · exact Or.inr rfl
    · rw [e]; exact Or.inl ⟨_, rfl, by simp⟩
    · rw [e]; exact Or.inl ⟨_, rfl, by simp⟩
  unfold proofVerify
  rw [hok.sane]
  simp only [Bool.not_true, Bool.false_eq_true, if_false]
  have hbody := hok.body
  cases hb : p.body with
  | deadend => simp only [Res.pure_eq, Res.bind_ok]; exact (rest _).symm
  | short pre l r =>
    rw [hb] at hbody
    have hd := hok.depth
    simp only [bitsHas_ok hbody.1.has key hd, Res.bind_ok]
    split
    · exact Or.inr ⟨_, rfl, by simp⟩
    · simp only [Res.pure_eq, Res.bind_ok]; exact (rest _).symm
  | collision k h =>
    simp only
    split
    · exact Or.inr ⟨_, rfl, by simp⟩
    · simp only [Res.pure_eq, Res.bind_ok]; exact (rest _).symm
  | «exists» v => simp only [Res.pure_eq, Res.bind_ok]; exact (rest _).symm

end Urkel
