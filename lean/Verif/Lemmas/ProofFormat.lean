import Verif.Lemmas.ProofCodec
import Verif.Lemmas.Format
import Verif.Spec.ProofFormat
/-
The model's proofs and those of the format are the same.
-/
namespace Urkel
open PTree

/-- A stretch as the model has it, and back. -/
def Stretch.toBits (w : Stretch) : Bits := ⟨w.count, w.bytes ++ List.replicate (32 - (w.count + 7) / 8) 0⟩
def Bits.stretch (b : Bits) : Stretch := ⟨b.size, b.data.take ((b.size + 7) / 8)⟩

def Ending.toBody : Ending → PBody
  | .nothing => .deadend
  | .branch w l r => .short w.toBits l r
  | .other k vh => .collision k vh
  | .value v => .exists v

def PBody.ending : PBody → Ending
  | .deadend => .nothing
  | .short pre l r => .branch pre.stretch l r
  | .collision k h => .other k h
  | .exists v => .value v

def stepNode (s : Stretch × B32) : PNode := ⟨s.1.toBits, s.2⟩
def Paper.toProof (p : Paper) : Proof := ⟨p.depth, p.steps.map stepNode, p.ending.toBody⟩
def Proof.paper (p : Proof) : Paper := ⟨p.depth, p.nodes.map fun n => (n.pre.stretch, n.hash), p.body.ending⟩

theorem Stretch.raw {w : Stretch} (h : w.ok) : RawBits w.toBits := ⟨h.1, _, h.2, rfl⟩

theorem RawBits.stretch_ok {b : Bits} (h : RawBits b) : b.stretch.ok := by
  have := h.len
  have := h.le
  refine ⟨h.le, ?_⟩
  show (b.data.take _).length = (b.size + 7) / 8
  rw [List.length_take]; omega

theorem RawBits.toBits {b : Bits} (h : RawBits b) : b.stretch.toBits = b := by
  show (⟨b.size, _⟩ : Bits) = b
  exact congrArg (Bits.mk b.size) (raw_data_eq h)

theorem Stretch.take {w : Stretch} (h : w.ok) : w.toBits.data.take ((w.count + 7) / 8) = w.bytes := by
  show (w.bytes ++ _).take _ = _
  rw [List.take_append_of_le_length (by have := h.2; omega), List.take_of_length_le (by have := h.2; omega)]

theorem Stretch.enc {w : Stretch} (h : w.ok) : encBits w.toBits = w.encode := by
  have h1 : ∀ n < 257, 128 ≤ n → UInt8.ofNat (0x80 ||| (n >>> 8)) = UInt8.ofNat ((128 + n / 256) % 256) ∧ UInt8.ofNat n = UInt8.ofNat (n % 256 % 256) := by decide +kernel
  unfold encBits Stretch.encode
  show (if w.count ≥ 0x80 then _ else _) ++ [UInt8.ofNat w.count] ++ w.toBits.data.take ((w.count + 7) / 8) = _
  rw [Stretch.take h]
  show (if w.count ≥ 0x80 then [UInt8.ofNat (0x80 ||| (w.count >>> 8))] else []) ++ _ ++ _ = _
  by_cases hc : w.count < 128
  · rw [if_neg (by omega), if_pos hc]
    simp only [num, List.nil_append, List.append_cancel_right_eq]
    rw [Nat.mod_eq_of_lt (by omega)]
  · obtain ⟨e1, e2⟩ := h1 w.count (by have := h.1; omega) (by omega)
    rw [if_pos (by omega), if_neg hc, e1, e2]
    rfl

theorem Stretch.hash_eq {H : HashFn} {w : Stretch} (h : w.ok) (l r : B32) : hashInternal H w.toBits l r = w.hash H l r := by
  unfold hashInternal Stretch.hash
  show (if (w.count == 0) = true then _ else H (_ ++ leBytes 2 w.count ++ w.toBits.data.take ((w.count + 7) / 8) ++ _ ++ _)) = _
  rw [Stretch.take h, ← num_eq]
  by_cases hc : w.count = 0
  · rw [if_pos hc, if_pos (by simpa using hc)]
  · rw [if_neg hc, if_neg (by simpa using hc)]

theorem Stretch.length_bits {w : Stretch} (h : w.ok) : w.bits.length = w.count := by
  have := h.2
  unfold Stretch.bits
  rw [List.length_take]
  have : (bitsOf w.bytes).length = 8 * w.bytes.length := by simp [Nat.mul_comm]
  omega

theorem Stretch.has {w : Stretch} (h : w.ok) : HasBits w.toBits w.bits := by
  have hb := (Stretch.raw h).has
  have e : (bitsOf w.toBits.data).take w.toBits.size = w.bits := by
    show (bitsOf (w.bytes ++ _)).take w.count = _
    unfold Stretch.bits bitsOf
    rw [List.flatMap_append, List.take_append_of_le_length]
    have := h.2
    have : (bitsOf w.bytes).length = 8 * w.bytes.length := by simp [Nat.mul_comm]
    unfold bitsOf at this
    omega
  rw [e] at hb
  exact hb

theorem Stretch.bitsHas {w : Stretch} (h : w.ok) (key : B32) {d : Nat} (hd : d ≤ 256) :
    bitsHas w.toBits key.bytes d = .ok (decide (w.bits <+: key.bits.drop d)) := by
  rw [bitsHas_ok (Stretch.has h) key hd]
  congr 1
  rw [Bool.eq_iff_iff, decide_eq_true_iff, List.isPrefixOf_iff_prefix]

theorem Paper.proofOk {p : Paper} (h : p.ok) : ProofOk p.toProof := by
  obtain ⟨h1, h2, h3, h4⟩ := h
  refine ⟨h1, by simpa [Paper.toProof] using h2, fun n hn => ?_, ?_⟩
  · obtain ⟨s, hs, rfl⟩ := List.mem_map.1 hn
    exact Stretch.raw (h3 s hs)
  · show BodyOk p.ending.toBody
    cases he : p.ending with
    | nothing => trivial
    | branch w l r => rw [he] at h4; exact ⟨Stretch.raw h4.1, h4.2⟩
    | other k vh => trivial
    | value v => rw [he] at h4; exact h4

theorem ProofOk.paper_ok {p : Proof} (h : ProofOk p) : p.paper.ok := by
  refine ⟨h.depth, by simpa [Proof.paper] using h.count, fun s hs => ?_, ?_⟩
  · obtain ⟨n, hn, rfl⟩ := List.mem_map.1 hs
    exact (h.nodes n hn).stretch_ok
  · have hb := h.body
    show p.body.ending.ok
    cases he : p.body with
    | deadend => trivial
    | short pre l r => rw [he] at hb; exact ⟨hb.1.stretch_ok, hb.2⟩
    | collision k vh => trivial
    | «exists» v => rw [he] at hb; exact hb

theorem ProofOk.toProof {p : Proof} (h : ProofOk p) : p.paper.toProof = p := by
  have h1 : (p.nodes.map fun n => (n.pre.stretch, n.hash)).map stepNode = p.nodes := by
    rw [List.map_map]
    conv => rhs; rw [← List.map_id p.nodes]
    apply List.map_congr_left
    intro n hn
    show (⟨n.pre.stretch.toBits, n.hash⟩ : PNode) = n
    rw [(h.nodes n hn).toBits]
  have h2 : p.body.ending.toBody = p.body := by
    have hb := h.body
    cases he : p.body with
    | short pre l r =>
      rw [he] at hb
      show PBody.short pre.stretch.toBits l r = _
      rw [hb.1.toBits]
    | _ => rfl
  obtain ⟨d, ns, b⟩ := p
  show (⟨d, _, _⟩ : Proof) = _
  exact congr (congrArg (Proof.mk d) h1) h2

theorem Paper.flags_eq (p : Paper) : Urkel.flags p.toProof.nodes = p.flags := by
  show (p.steps.map stepNode).map _ = p.steps.map _
  rw [List.map_map]
  apply List.map_congr_left
  intro s _
  show decide (s.1.count > 0) = decide (s.1.count ≠ 0)
  exact decide_eq_decide.2 Nat.pos_iff_ne_zero

theorem Ending.enc {e : Ending} (h : e.ok) : encTail e.toBody = e.encode := by
  cases e with
  | nothing => rfl
  | branch w l r =>
    show encBits w.toBits ++ _ ++ _ = _
    rw [Stretch.enc h.1]
    rfl
  | other k vh => rfl
  | value v =>
    show leBytes 2 _ ++ _ = _
    rw [← num_eq]
    rfl

theorem Ending.type_eq (e : Ending) : e.toBody.type = e.number := by cases e <;> rfl

theorem Paper.enc {p : Paper} (h : p.ok) (map : Bytes) : encProofWith p.toProof map = p.encode map := by
  obtain ⟨h1, h2, h3, h4⟩ := h
  unfold encProofWith Paper.encode
  show leBytes 2 (p.ending.toBody.type <<< 14 ||| p.depth) ++ leBytes 2 (p.steps.map stepNode).length ++ map ++ (p.steps.map stepNode).flatMap encNode ++ encTail p.ending.toBody = _
  rw [Ending.type_eq, field_eq (by omega), List.length_map, ← num_eq, ← num_eq, Ending.enc h4, List.flatMap_map]
  congr 2
  have key : ∀ l : List (Stretch × B32), (∀ s ∈ l, s.1.ok) → (l.flatMap fun a => encNode (stepNode a)) =
      l.flatMap fun s => (if s.1.count = 0 then [] else s.1.encode) ++ s.2.bytes := by
    intro l hl
    induction l with
    | nil => rfl
    | cons s l ih =>
      rw [List.flatMap_cons, List.flatMap_cons, ih fun s hs => hl s (by simp [hs])]
      congr 1
      show (if s.1.count > 0 then encBits s.1.toBits else []) ++ s.2.bytes = _
      rw [Stretch.enc (hl s (by simp))]
      by_cases hc : s.1.count = 0
      · rw [if_pos hc, if_neg (by omega)]
      · rw [if_neg hc, if_pos (by omega)]
  exact key _ h3

/-- Serialized proofs parse back, whatever the unneeded bits of the bitmap are. -/
theorem proofRead_with {p : Proof} (h : ProofOk p) {bm : Bytes} (hbm : bm.length = (p.nodes.length + 7) / 8)
    (hfl : (bitsOf bm).take p.nodes.length = flags p.nodes) : proofRead (encProofWith p bm) = .ok (some p) := by
  have hc := h.count; have hdep := h.depth; have hty := type_lt p.body
  have hbody := h.body
  have hfl' : (leNat (leBytes 2 (p.body.type <<< 14 ||| p.depth))) = p.body.type <<< 14 ||| p.depth := by
    rw [leNat_leBytes]; apply Nat.mod_eq_of_lt; rw [field_eq (by omega)]; omega
  have hcl : leNat (leBytes 2 p.nodes.length) = p.nodes.length := by
    rw [leNat_leBytes]; apply Nat.mod_eq_of_lt; omega
  have hfl2 : flags p.nodes <+: (bitsOf bm).drop 0 := by rw [← hfl]; exact List.take_prefix _ _
  have hn := fun rest => proofReadNodes_enc h.nodes bm 0 rest hfl2 (by omega)
  have e : encProofWith p bm = leBytes 2 (p.body.type <<< 14 ||| p.depth) ++ (leBytes 2 p.nodes.length ++
      (bm ++ (p.nodes.flatMap encNode ++ encTail p.body))) := by
    simp [encProofWith]
  rw [e, proofRead, if_neg (by simp; omega)]
  simp only [takeN_leBytes, Res.bind_ok, hfl', hcl, field_type (show p.depth < 16384 by omega),
    field_depth (show p.depth < 16384 by omega)]
  rw [if_neg (by unfold keyBits; omega), if_neg (by unfold keyBits; omega), if_neg (by simp [hbm]),
    takeN_append _ _ hbm]
  simp only [Res.bind_ok, hn]
  cases hb : p.body with
  | deadend =>
    simp only [PBody.type, encTail, List.length_nil, if_true, Res.pure_eq]
    rw [← hb]
  | short pre l r =>
    rw [hb] at hbody
    simp only [PBody.type, encTail, List.append_assoc, readPrefix_enc hbody.1 hbody.2, Res.bind_ok]
    rw [if_neg (by simp [l.len, r.len])]
    have er : take32 r.bytes = .ok (r, []) := by simpa using take32_append r []
    simp only [take32_append, Res.bind_ok, er, List.length_nil, if_true, Res.pure_eq]
    rw [← hb]
  | collision k h' =>
    simp only [PBody.type]
    rw [show encTail (PBody.collision k h') = k.bytes ++ h'.bytes from rfl, if_neg (by simp [k.len, h'.len])]
    have er : take32 h'.bytes = .ok (h', []) := by simpa using take32_append h' []
    simp only [take32_append, Res.bind_ok, er, List.length_nil, if_true, Res.pure_eq]
    rw [← hb]
  | «exists» v =>
    rw [hb] at hbody
    have hv : v.length ≤ 1023 := hbody
    have hvl : leNat (leBytes 2 v.length) = v.length := by
      rw [leNat_leBytes]; apply Nat.mod_eq_of_lt; omega
    simp only [PBody.type]
    rw [show encTail (PBody.exists v) = leBytes 2 v.length ++ v from rfl, if_neg (by simp)]
    have er : takeN v.length v = .ok (v, []) := by simpa using takeN_append v [] rfl
    simp only [takeN_leBytes, Res.bind_ok, hvl, er]
    rw [if_neg (by omega), if_neg (by unfold valueSize; omega)]
    simp only [List.length_nil, if_true, Res.pure_eq]
    rw [← hb]

/-- The parser accepts exactly the bytes of proofs. -/
theorem proofRead_iff (raw : Bytes) (q : Proof) : proofRead raw = .ok (some q) ↔ ∃ p : Paper, p.Reads raw ∧ q = p.toProof := by
  constructor
  · intro h
    obtain ⟨o, e, ho⟩ := proofRead_total raw
    rw [h] at e
    cases e
    obtain ⟨hok, bm, h1, h2, h3⟩ := ho q rfl
    refine ⟨q.paper, ⟨hok.paper_ok, bm, by simpa [Proof.paper] using h1, ?_, ?_⟩, hok.toProof.symm⟩
    · rw [← Paper.flags_eq, hok.toProof, ← h2]
      simp [Proof.paper]
    · rw [← Paper.enc hok.paper_ok, hok.toProof]
      exact h3
  · rintro ⟨p, ⟨hok, bm, h1, h2, rfl⟩, rfl⟩
    rw [← Paper.enc hok]
    exact proofRead_with (Paper.proofOk hok) (by simpa [Paper.toProof] using h1) (by rw [Paper.flags_eq, ← h2]; simp [Paper.toProof])

theorem LeadsTo.le {key : B32} : ∀ {steps : List (Stretch × B32)} {d e : Nat}, LeadsTo key steps d e → d ≤ e
  | [], _, _, h => Nat.le_of_eq h
  | _ :: _, _, _, h => by have := LeadsTo.le h.2; omega

/-- Walking up is the loop of the verifier. -/
theorem verifyLoop_up {H : HashFn} {key : B32} {steps : List (Stretch × B32)} (hs : ∀ s ∈ steps, s.1.ok) {d e : Nat} (he : e ≤ 256) (h : B32)
    (hl : LeadsTo key steps d e) : verifyLoop H key (steps.map stepNode).reverse e h = .ok (d, hashUp H key steps d h) := by
  induction steps generalizing d with
  | nil => cases hl; rfl
  | cons s more ih =>
    have hle := hl.2.le
    rw [List.map_cons, List.reverse_cons, verifyLoop_append, ih (fun s h => hs s (by simp [h])) hl.2]
    simp only [Res.bind_ok, verifyLoop]
    have hsz : (stepNode s).pre.size = s.1.count := rfl
    rw [hsz, if_neg (by omega)]
    have e1 : d + s.1.count + 1 - 1 = d + s.1.count := by omega
    have e2 : d + s.1.count - s.1.count = d := by omega
    have hok := hs s (by simp)
    rw [e1, getBit_kbit (by omega), Res.bind_ok, e2, show (stepNode s).pre = s.1.toBits from rfl, Stretch.bitsHas hok key (by omega), Res.bind_ok]
    rw [decide_eq_true hl.1]
    simp only [Bool.not_true, Bool.false_eq_true, if_false]
    rw [hashUp, Stretch.hash_eq hok, Stretch.hash_eq hok]
    rfl

theorem Chain.leads {H : HashFn} {key : B32} {steps : List (Stretch × B32)} (hs : ∀ s ∈ steps, s.1.ok) {d e : Nat} {h root : B32}
    (hc : Chain H key (steps.map stepNode) d e h root) : LeadsTo key steps d e ∧ hashUp H key steps d h = root := by
  induction steps generalizing d root with
  | nil => exact hc
  | cons s more ih =>
    obtain ⟨h1, h2, sub, h3, h4⟩ := hc
    have h1 : d + s.1.count < 256 := h1
    have hok := hs s (by simp)
    rw [show (stepNode s).pre = s.1.toBits from rfl, Stretch.bitsHas hok key (by omega)] at h2
    injection h2 with h2
    obtain ⟨i1, i2⟩ := ih (fun s h => hs s (by simp [h])) h3
    refine ⟨⟨of_decide_eq_true h2, i1⟩, ?_⟩
    have i2 : hashUp H key more (d + s.1.count + 1) h = sub := i2
    rw [hashUp, i2, h4, upHash, show (stepNode s).pre = s.1.toBits from rfl, Stretch.hash_eq hok, Stretch.hash_eq hok]
    rfl

theorem Ending.hash_eq {H : HashFn} {key : B32} {e : Ending} (h : e.ok) : bodyHash H key e.toBody = e.hash H key := by
  cases e with
  | branch w l r => exact Stretch.hash_eq h.1 l r
  | _ => rfl

theorem Ending.fits_iff {key : B32} {e : Ending} (h : e.ok) {d : Nat} (hd : d ≤ 256) : BodyFits key d e.toBody ↔ e.fits key d := by
  cases e with
  | branch w l r =>
    show bitsHas w.toBits key.bytes d = .ok false ↔ _
    rw [Stretch.bitsHas h.1 key hd]
    show Res.ok _ = Res.ok _ ↔ ¬ _
    rw [Res.ok.injEq, decide_eq_false_iff_not]
  | _ => exact Iff.rfl

/-- The verifier accepts exactly what proves its claim. -/
theorem proofVerify_iff {H : HashFn} {p : Paper} (h : p.ok) (key root : B32) : proofVerify H p.toProof key root = .ok () ↔ p.Proves H key root := by
  have hok := Paper.proofOk h
  obtain ⟨h1, h2, h3, h4⟩ := h
  constructor
  · intro e
    obtain ⟨a, b⟩ := proofVerify_inv hok e
    obtain ⟨c, d⟩ := Chain.leads h3 b
    refine ⟨(Ending.fits_iff h4 h1).1 a, c, ?_⟩
    rw [← Ending.hash_eq h4]
    exact d
  · rintro ⟨a, b, c⟩
    rw [proofVerify_eq hok.sane ((Ending.fits_iff h4 h1).2 a)]
    show (verifyLoop H key (p.steps.map stepNode).reverse p.depth (bodyHash H key p.ending.toBody) >>= _) = _
    rw [verifyLoop_up h3 h1 _ b, Ending.hash_eq h4, c]
    simp

theorem honest_eq {H : HashFn} {key : B32} : ∀ (t : PTree) (d : Nat), (honest H key t d).toProof = proveSpec H key t d
  | .null, d => rfl
  | .leaf k v, d => by
    unfold honest proveSpec
    by_cases h : k = key
    · rw [if_pos h, if_pos h]; rfl
    · rw [if_neg h, if_neg h]; rfl
  | .node pre l r, d => by
    have hl := honest_eq (H := H) (key := key) l (d + pre.length + 1)
    have hr := honest_eq (H := H) (key := key) r (d + pre.length + 1)
    unfold honest proveSpec
    by_cases h : pre <+: key.bits.drop d
    · have h' : pre.isPrefixOf (key.bits.drop d) = true := List.isPrefixOf_iff_prefix.2 h
      simp only [h, h', if_true]
      by_cases hk : key.bits.getD (d + pre.length) false = true
      · have hk' : kbit key (d + pre.length) = true := hk
        rw [if_pos hk, if_pos hk', ← hr]; rfl
      · have hk' : ¬ kbit key (d + pre.length) = true := hk
        rw [if_neg hk, if_neg hk', ← hl]; rfl
    · have h' : pre.isPrefixOf (key.bits.drop d) = false := by rw [Bool.eq_false_iff, ne_eq, List.isPrefixOf_iff_prefix]; exact h
      simp only [h, h', if_false, Bool.false_eq_true]
      rfl

theorem honest_len {H : HashFn} {key : B32} (t : PTree) (d : Nat) : (∀ s ∈ (honest H key t d).steps, s.1.bytes.length = (s.1.count + 7) / 8) ∧
    ∀ w l r, (honest H key t d).ending = .branch w l r → w.bytes.length = (w.count + 7) / 8 := by
  induction t generalizing d with
  | null => exact ⟨by simp [honest], fun _ _ _ h => by cases h⟩
  | leaf k v =>
    unfold honest
    refine ⟨by simp, fun _ _ _ h => ?_⟩
    dsimp only at h
    split at h <;> cases h
  | node pre l r hl hr =>
    have hp := length_pack pre
    unfold honest
    split
    · split
      · obtain ⟨a, b⟩ := hr (d + pre.length + 1)
        refine ⟨fun s hs => ?_, b⟩
        rcases List.mem_cons.1 hs with rfl | hs
        · exact hp
        · exact a s hs
      · obtain ⟨a, b⟩ := hl (d + pre.length + 1)
        refine ⟨fun s hs => ?_, b⟩
        rcases List.mem_cons.1 hs with rfl | hs
        · exact hp
        · exact a s hs
    · refine ⟨by simp, fun w l r h => ?_⟩
      cases h
      exact hp

theorem honest_ok {H : HashFn} {key : B32} {t : PTree} {d : Nat} (h : ProofOk (honest H key t d).toProof) : (honest H key t d).ok := by
  obtain ⟨h1, h2⟩ := honest_len (H := H) (key := key) t d
  generalize honest H key t d = p at *
  obtain ⟨a, b, c, e⟩ := h
  refine ⟨a, by simpa [Paper.toProof] using b, fun s hs => ⟨(c (stepNode s) (List.mem_map_of_mem hs)).le, h1 s hs⟩, ?_⟩
  have e : BodyOk p.ending.toBody := e
  cases he : p.ending with
  | branch w l r => rw [he] at e; exact ⟨⟨e.1.le, h2 _ _ _ he⟩, e.2⟩
  | value v => rw [he] at e; exact e
  | _ => trivial

end Urkel
